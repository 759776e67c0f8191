import Verif.Model.PointClouds
import Verif.Props.Utils
import Verif.Props.Kron
import Verif.Props.NNGraph

/-!
# C94: Gaussian graphs on random points
-/

namespace PyGSP.Gen

open Matrix Spec

variable {N d : ℕ}

theorem of2_val {n m : ℕ} (x : Fin n → Fin m → ℝ) (i : Fin n) (j : Fin m) : (Arr.of2 x).val [i.val, j.val] = x i j := by
  simp [Arr.of2]

/-- What the roll is before it is rescaled: the point of parameter `t` at height `21 y`. -/
def OnRoll (dim : ℕ) (t y : ℝ) (p : Fin dim → ℝ) : Prop :=
  ∀ r : Fin dim, p r = if r.val = 0 then t * Real.cos t else if r.val = dim - 1 then t * Real.sin t else 21 * y

theorem swissX_ok {dim : ℕ} {t y2 : Fin N → ℝ} {x : Matrix (Fin dim) (Fin N) ℝ} (h : swissX dim t y2 = .ok x) :
    (dim = 2 ∨ dim = 3) ∧ ∀ j, OnRoll dim (t j) (y2 j) fun r => x r j := by
  unfold swissX at h
  split at h
  · rename_i hd
    subst hd
    refine ⟨.inl rfl, fun j r => ?_⟩
    rw [← Except.ok.inj h]
    fin_cases r <;> simp
  · split at h
    · rename_i hd
      subst hd
      refine ⟨.inr rfl, fun j r => ?_⟩
      rw [← Except.ok.inj h]
      fin_cases r <;> simp
    · cases h

theorem rescaleOrNan_ok {r : ℕ} {x y : Matrix (Fin r) (Fin N) ℝ} (h : rescaleOrNan x = .ok y) : rescaleCenter x = .ok y := by
  unfold rescaleOrNan at h
  split at h
  · cases h
  · exact h

theorem rescale_of_ok {r : ℕ} {x y : Matrix (Fin r) (Fin N) ℝ} (h : rescaleCenter x = .ok y) :
    (∀ i, ∑ j, y i j = 0) ∧ (∀ i j, y i j ≤ 1) ∧ (∃ i j, y i j = 1) ∧ ∃ c, 0 < c ∧ ∀ i j j', c * (y i j - y i j') = x i j - x i j' := by
  obtain ⟨h1, h2, h3⟩ := C56_rescale_center x
  by_cases h0 : r = 0 ∨ N = 0
  · rw [h1 h0] at h; cases h
  push Not at h0
  by_cases he : ∀ i j j', x i j = x i j'
  · rw [h2 (by omega) (by omega) he] at h; cases h
  push Not at he
  obtain ⟨y', e, a1, a2, a3, a4, -⟩ := h3 he
  rw [h] at e
  cases e
  exact ⟨a1, a2, a3, a4⟩

theorem gaussW_eq {r : ℕ} (s : ℝ) (x : Matrix (Fin r) (Fin N) ℝ) (i j : Fin N) :
    gaussW s (Arr.of2 fun i j : Fin N => √(∑ k, (x k i - x k j) ^ 2)) i j = Real.exp (-(∑ k, (x k i - x k j) ^ 2) / (2 * s ^ 2)) := by
  unfold gaussW
  rw [Matrix.of_apply, of2_val, Real.sq_sqrt (Finset.sum_nonneg fun _ _ => sq_nonneg _)]

theorem bindOk {α β : Type} {x : Py α} {f : α → Py β} {b : β} (h : (x >>= f) = .ok b) : ∃ a, x = .ok a ∧ f a = .ok b := by
  cases x with
  | error e => cases h
  | ok a => exact ⟨a, rfl, h⟩

theorem ofDense_ok {M : Matrix (Fin N) (Fin N) ℝ} {lt : LapType} {g : Graph N ℝ} (h : Graph.ofCsr (Sp.ofDense M) lt = .ok g) :
    (lt = .combinatorial ∨ lt = .normalized) ∧ g.Built ∧ g.W.dense = M := by
  have hlt := (Graph.ofCsr_ok h).2.2.2
  obtain ⟨g2, e2, hb, hW, -⟩ := Graph.ofCsr_ofDense M hlt
  rw [h] at e2
  cases e2
  exact ⟨hlt, hb, hW⟩

/-- everything the constructor has done when it returns -/
theorem swissRoll_ok {a b : ℝ} {dim : ℕ} {thresh : ℝ} {s : Option ℝ} {noise : Option (Matrix (Fin dim) (Fin N) ℝ)} {type : SrType}
    {y1 y2 : Fin N → ℝ} {lt : LapType} {g : Graph N ℝ} {P : Matrix (Fin N) (Fin dim) ℝ}
    (h : swissRoll a b dim thresh s noise type y1 y2 lt = .ok (g, P)) :
    ∃ σ t x, swissS N s = .ok σ ∧ σ ≠ 0 ∧ swissT type a b y1 = .ok t ∧ swissX dim t y2 = .ok x ∧ rescaleCenter (x + noise.getD 0) = .ok Pᵀ ∧
      (lt = .combinatorial ∨ lt = .normalized) ∧ g.Built ∧
      ∀ i j, g.W.dense i j = if i = j then 0 else
        if Real.exp (-(∑ k, (P i k - P j k) ^ 2) / (2 * σ ^ 2)) < thresh then 0 else Real.exp (-(∑ k, (P i k - P j k) ^ 2) / (2 * σ ^ 2)) := by
  unfold swissRoll at h
  obtain ⟨σ, hs, h⟩ := bindOk h
  obtain ⟨t, ht, h⟩ := bindOk h
  obtain ⟨x, hx, h⟩ := bindOk h
  obtain ⟨c, hc, h⟩ := bindOk h
  rw [(C54_distanz c c c 0 0).2.1] at h
  obtain ⟨D, hD, h⟩ := bindOk h
  cases hD
  split at h
  · cases h
  rename_i hσ
  obtain ⟨g', hg, h⟩ := bindOk h
  obtain ⟨rfl, rfl⟩ := Prod.mk.inj (Except.ok.inj h)
  obtain ⟨hlt, hb, hW⟩ := ofDense_ok hg
  refine ⟨σ, t, x, hs, hσ, ht, hx, by rw [Matrix.transpose_transpose]; exact rescaleOrNan_ok hc, hlt, hb, fun i j => ?_⟩
  rw [hW]
  simp only [Matrix.of_apply, Matrix.sub_apply, gaussW_eq, Matrix.transpose_apply]
  by_cases hij : i = j
  · subst hij
    simp
  · rw [Matrix.diagonal_apply_ne _ hij, sub_zero, if_neg hij]
    congr

theorem gauss_ge_iff {S σ θ : ℝ} (hS : 0 ≤ S) (hσ : σ ≠ 0) (h0 : 0 < θ) (h1 : θ ≤ 1) :
    ¬ Real.exp (-S / (2 * σ ^ 2)) < θ ↔ √S ≤ |σ| * √(2 * Real.log (1 / θ)) := by
  have hl : 0 ≤ Real.log (1 / θ) := Real.log_nonneg (by rw [le_div_iff₀ h0]; linarith)
  have hp : 0 < 2 * σ ^ 2 := by positivity
  rw [not_lt, ← Real.log_le_iff_le_exp h0, ← Real.sqrt_sq_eq_abs, ← Real.sqrt_mul (sq_nonneg σ), Real.sqrt_le_sqrt_iff (by positivity)]
  rw [one_div, Real.log_inv] at *
  rw [le_div_iff₀ hp]
  constructor <;> intro h <;> linarith

/-- **SwissRoll, edges**: the graph is undirected without self-loops; two points are linked with weight `exp(-d²/(2 s²))`, `d` being their Euclidean
distance, unless this is below `thresh`; that is, they are linked if and only if `d ≤ s √(2 ln (1 / thresh))`. -/
theorem C94_swissroll {a b : ℝ} {dim : ℕ} {thresh : ℝ} {s : Option ℝ} {noise : Option (Matrix (Fin dim) (Fin N) ℝ)} {type : SrType}
    {y1 y2 : Fin N → ℝ} {lt : LapType} {g : Graph N ℝ} {P : Matrix (Fin N) (Fin dim) ℝ}
    (h : swissRoll a b dim thresh s noise type y1 y2 lt = .ok (g, P)) :
    g.Built ∧ Undirected g.W.dense ∧ (∀ i, g.W.dense i i = 0) ∧ (∀ i j, 0 ≤ g.W.dense i j ∧ g.W.dense i j ≤ 1) ∧
      ∃ σ, σ ≠ 0 ∧ (∀ s', s = some s' → σ = s') ∧ (s = none → σ = √(2 / N)) ∧
        (∀ i j, i ≠ j → g.W.dense i j ≠ 0 → g.W.dense i j = Real.exp (-(∑ k, (P i k - P j k) ^ 2) / (2 * σ ^ 2))) ∧
        (0 < thresh → thresh ≤ 1 → ∀ i j, i ≠ j →
          (g.W.dense i j ≠ 0 ↔ √(∑ k, (P i k - P j k) ^ 2) ≤ |σ| * √(2 * Real.log (1 / thresh)))) ∧
        (thresh ≤ 0 → ∀ i j, i ≠ j → g.W.dense i j ≠ 0) ∧ (1 < thresh → ∀ i j, g.W.dense i j = 0) := by
  obtain ⟨σ, t, x, hs, hσ, -, -, -, -, hb, hW⟩ := swissRoll_ok h
  have hS : ∀ i j, 0 ≤ ∑ k, (P i k - P j k) ^ 2 := fun i j => Finset.sum_nonneg fun _ _ => sq_nonneg _
  have hle : ∀ i j, Real.exp (-(∑ k, (P i k - P j k) ^ 2) / (2 * σ ^ 2)) ≤ 1 := fun i j =>
    Real.exp_le_one_iff.2 (div_nonpos_of_nonpos_of_nonneg (neg_nonpos.2 (hS i j)) (by positivity))
  refine ⟨hb, fun i j => ?_, fun i => ?_, fun i j => ?_, σ, hσ, fun s' e => ?_, fun e => ?_, fun i j hij h0 => ?_, fun h0 h1 i j hij => ?_, fun h0 i j hij => ?_,
    fun h1 i j => ?_⟩
  · rw [hW, hW]
    by_cases hij : i = j
    · rw [if_pos hij, if_pos hij.symm]
    · rw [if_neg hij, if_neg (Ne.symm hij)]
      have : ∑ k, (P i k - P j k) ^ 2 = ∑ k, (P j k - P i k) ^ 2 := Finset.sum_congr rfl fun k _ => by ring
      rw [this]
  · rw [hW, if_pos rfl]
  · rw [hW]
    split_ifs
    · exact ⟨le_rfl, zero_le_one⟩
    · exact ⟨le_rfl, zero_le_one⟩
    · exact ⟨(Real.exp_pos _).le, hle i j⟩
  · subst e; exact (Except.ok.inj hs).symm
  · subst e
    unfold swissS at hs
    simp only at hs
    split at hs
    · cases hs
    · exact (Except.ok.inj hs).symm
  · rw [hW, if_neg hij] at h0 ⊢
    split at h0
    · exact absurd rfl h0
    · rename_i q
      rw [if_neg q]
  · rw [← gauss_ge_iff (hS i j) hσ h0 h1, hW, if_neg hij]
    split
    · rename_i q; simp [q]
    · rename_i q; simp only [q, not_false_eq_true, iff_true]; exact (Real.exp_pos _).ne'
  · rw [hW, if_neg hij, if_neg (by have := Real.exp_pos (-(∑ k, (P i k - P j k) ^ 2) / (2 * σ ^ 2)); linarith)]
    exact (Real.exp_pos _).ne'
  · rw [hW]
    by_cases hij : i = j
    · rw [if_pos hij]
    · rw [if_neg hij, if_pos (lt_of_le_of_lt (hle i j) h1)]

theorem swissT_ok {type : SrType} {a b : ℝ} {y1 t : Fin N → ℝ} (h : swissT type a b y1 = .ok t) :
    (type = .uniform ∧ ∀ j, t j = √((b * b - a * a) * y1 j + a * a) * Real.pi) ∨
      (type = .classic ∧ ∀ j, t j = ((b - a) * y1 j + a) * Real.pi) := by
  unfold swissT at h
  cases type with
  | uniform => exact .inl ⟨rfl, fun j => by rw [← Except.ok.inj h]⟩
  | classic => exact .inr ⟨rfl, fun j => by rw [← Except.ok.inj h]⟩
  | other s => cases h

theorem swiss_arg {a b y : ℝ} (h0 : 0 ≤ y) (h1 : y ≤ 1) : 0 ≤ (b * b - a * a) * y + a * a := by
  nlinarith [mul_nonneg h0 (mul_self_nonneg b), mul_nonneg (sub_nonneg.2 h1) (mul_self_nonneg a)]

/-- **SwissRoll, points**: up to a translation and a positive factor the coordinates are the points of the roll `(t cos t, 21 y₂, t sin t)`, or
`(t cos t, t sin t)` in two dimensions, plus the noise.  In the uniform roll `(t/π)²` is uniformly distributed between `a²` and `b²`, in the classic roll `t/π` is uniformly distributed
between `a` and `b`.  The coordinates are centered and their largest value is 1. -/
theorem C94_swissroll_points {a b : ℝ} {dim : ℕ} {thresh : ℝ} {s : Option ℝ} {noise : Option (Matrix (Fin dim) (Fin N) ℝ)} {type : SrType}
    {y1 y2 : Fin N → ℝ} (hy : ∀ j, 0 ≤ y1 j ∧ y1 j < 1) {lt : LapType} {g : Graph N ℝ} {P : Matrix (Fin N) (Fin dim) ℝ}
    (h : swissRoll a b dim thresh s noise type y1 y2 lt = .ok (g, P)) :
    (dim = 2 ∨ dim = 3) ∧ (∀ r, ∑ j, P j r = 0) ∧ (∀ j r, P j r ≤ 1) ∧ (∃ j r, P j r = 1) ∧
      ∃ (c : ℝ) (t : Fin N → ℝ) (X : Fin N → Fin dim → ℝ), 0 < c ∧ (∀ j, OnRoll dim (t j) (y2 j) (X j)) ∧
        (∀ j j' r, c * (P j r - P j' r) = (X j r + noise.getD 0 r j) - (X j' r + noise.getD 0 r j')) ∧
        (type = .uniform → ∀ j, 0 ≤ t j ∧ (t j / Real.pi) ^ 2 = (1 - y1 j) * a ^ 2 + y1 j * b ^ 2) ∧
        (type = .classic → ∀ j, t j / Real.pi = (1 - y1 j) * a + y1 j * b) ∧
        (0 ≤ a → a ≤ b → ∀ j, a * Real.pi ≤ t j ∧ t j ≤ b * Real.pi) := by
  obtain ⟨σ, t, x, -, -, ht, hx, hP, -⟩ := swissRoll_ok h
  obtain ⟨hd, hX⟩ := swissX_ok hx
  obtain ⟨p1, p2, ⟨i, j, p3⟩, c, hc, p4⟩ := rescale_of_ok hP
  have hpi := Real.pi_pos
  refine ⟨hd, fun r => p1 r, fun j r => p2 r j, ⟨j, i, p3⟩, c, t, fun j r => x r j, hc, hX, fun j j' r => p4 r j j', fun e j => ?_, fun e j => ?_,
    fun ha hab j => ?_⟩
  · rcases swissT_ok ht with ⟨-, ht⟩ | ⟨q, -⟩
    · have := swiss_arg (a := a) (b := b) (hy j).1 (hy j).2.le
      rw [ht j, mul_div_cancel_right₀ _ hpi.ne', Real.sq_sqrt this]
      exact ⟨by positivity, by ring⟩
    · rw [e] at q; cases q
  · rcases swissT_ok ht with ⟨q, -⟩ | ⟨-, ht⟩
    · rw [e] at q; cases q
    · rw [ht j, mul_div_cancel_right₀ _ hpi.ne']
      ring
  · obtain ⟨h0, h1⟩ := hy j
    rcases swissT_ok ht with ⟨-, ht⟩ | ⟨-, ht⟩
    · have hb : a * a ≤ b * b := mul_self_le_mul_self ha hab
      rw [ht j]
      constructor
      · refine mul_le_mul_of_nonneg_right (Real.le_sqrt_of_sq_le ?_) hpi.le
        nlinarith [mul_nonneg h0 (sub_nonneg.2 hb)]
      · refine mul_le_mul_of_nonneg_right ((Real.sqrt_le_left (ha.trans hab)).2 ?_) hpi.le
        nlinarith [mul_nonneg (sub_nonneg.2 h1.le) (sub_nonneg.2 hb)]
    · rw [ht j]
      constructor
      · exact mul_le_mul_of_nonneg_right (by nlinarith [mul_nonneg h0 (sub_nonneg.2 hab)]) hpi.le
      · exact mul_le_mul_of_nonneg_right (by nlinarith [mul_nonneg (sub_nonneg.2 h1.le) (sub_nonneg.2 hab)]) hpi.le

/-- **SwissRoll returns** in two or three dimensions for both kinds of roll, a nonzero `s` and points that are not all the same; when they all are
(in particular for a single vertex), or when `s` is zero, ValueError; an unknown kind or another dimension: UnboundLocalError. -/
theorem C94_swissroll_returns (a b : ℝ) {dim : ℕ} (thresh : ℝ) {s : Option ℝ} (noise : Option (Matrix (Fin dim) (Fin N) ℝ)) (type : SrType)
    (y1 y2 : Fin N → ℝ) {lt : LapType} (hlt : lt = .combinatorial ∨ lt = .normalized) (hN : 0 < N) :
    ((∃ q, type = .other q) → swissRoll a b dim thresh s noise type y1 y2 lt = .error .nameError) ∧
    (dim ≠ 2 → dim ≠ 3 → swissRoll a b dim thresh s noise type y1 y2 lt = .error .nameError) ∧
    (type = .uniform ∨ type = .classic → dim = 2 ∨ dim = 3 →
      (s = some 0 → swissRoll a b dim thresh s noise type y1 y2 lt = .error .valueError) ∧
      (N = 1 → swissRoll a b dim thresh s noise type y1 y2 lt = .error .valueError) ∧
      (s ≠ some 0 → (∃ t x j j' r, swissT type a b y1 = .ok t ∧ swissX dim t y2 = .ok x ∧ (x + noise.getD 0) r j ≠ (x + noise.getD 0) r j') →
        ∃ g P, swissRoll a b dim thresh s noise type y1 y2 lt = .ok (g, P))) := by
  obtain ⟨σ, hσ, hs0⟩ : ∃ σ, swissS N s = .ok σ ∧ (s ≠ some 0 → σ ≠ 0) := by
    cases s with
    | none =>
      refine ⟨√(2 / N), if_neg hN.ne', fun _ => ?_⟩
      have : (0 : ℝ) < N := by exact_mod_cast hN
      positivity
    | some s => exact ⟨s, rfl, fun h e => h (by rw [e])⟩
  have ht : ∀ {type}, type = SrType.uniform ∨ type = .classic → ∃ t, swissT type a b y1 = .ok t := by
    rintro _ (rfl | rfl) <;> exact ⟨_, rfl⟩
  have hx : dim = 2 ∨ dim = 3 → ∀ t : Fin N → ℝ, ∃ x : Matrix (Fin dim) (Fin N) ℝ, swissX dim t y2 = .ok x := by
    rintro (rfl | rfl) t <;> exact ⟨_, rfl⟩
  have other : ∀ q, swissRoll a b dim thresh s noise (.other q) y1 y2 lt = .error .nameError := fun q => by
    unfold swissRoll
    rw [hσ]
    rfl
  refine ⟨fun ⟨q, e⟩ => e ▸ other q, fun h2 h3 => ?_, fun hty hdim => ?_⟩
  · by_cases hty : ∃ q, type = .other q
    · obtain ⟨q, rfl⟩ := hty
      exact other q
    obtain ⟨t, ht⟩ := ht (show type = .uniform ∨ type = .classic by cases type <;> simp_all)
    unfold swissRoll
    rw [hσ, ht]
    show (swissX dim t y2 >>= _) = _
    rw [show swissX dim t y2 = .error .nameError by unfold swissX; rw [if_neg h2, if_neg h3]]
    rfl
  · obtain ⟨t, ht⟩ := ht hty
    obtain ⟨x, hx⟩ := hx hdim t
    have key : swissRoll a b dim thresh s noise type y1 y2 lt = (rescaleOrNan (x + noise.getD 0) >>= fun coords => distanz (Arr.of2 coords) none >>= fun dist => by
        classical
        exact if σ = 0 then .error .valueError
        else (fun W : Matrix (Fin N) (Fin N) ℝ => (fun W : Matrix (Fin N) (Fin N) ℝ =>
          (fun W : Matrix (Fin N) (Fin N) ℝ => Graph.ofCsr (Sp.ofDense W) lt >>= fun g => .ok (g, coordsᵀ))
            (Matrix.of fun i j => if W i j < thresh then 0 else W i j)) (W - Matrix.diagonal fun i => W i i)) (gaussW σ dist)) := by
      unfold swissRoll
      rw [hσ, ht]
      show (swissX dim t y2 >>= _) = _
      rw [hx]
      rfl
    obtain ⟨r1, r2, r3⟩ := C56_rescale_center (x + noise.getD 0)
    have same : (∀ i j j', (x + noise.getD 0) i j = (x + noise.getD 0) i j') → swissRoll a b dim thresh s noise type y1 y2 lt = .error .valueError := fun he => by
      rw [key, show rescaleOrNan (x + noise.getD 0) = .error .valueError by
        unfold rescaleOrNan
        rw [r2 (by omega) hN he]]
      rfl
    have diff : (∃ i j j', (x + noise.getD 0) i j ≠ (x + noise.getD 0) i j') → ∃ y, rescaleOrNan (x + noise.getD 0) = .ok y := fun he => by
      obtain ⟨y, hy, -⟩ := r3 he
      exact ⟨y, by unfold rescaleOrNan; rw [hy]⟩
    refine ⟨fun h0 => ?_, fun h1 => ?_, fun h0 he => ?_⟩
    · by_cases he : ∀ i j j', (x + noise.getD 0) i j = (x + noise.getD 0) i j'
      · exact same he
      push Not at he
      obtain ⟨y, hy⟩ := diff he
      rw [key, hy]
      show (distanz (Arr.of2 y) none >>= _) = _
      rw [(C54_distanz y y y 0 0).2.1]
      subst h0
      exact if_pos (Except.ok.inj hσ).symm
    · refine same fun i j j' => ?_
      subst h1
      rw [Subsingleton.elim j j']
    · obtain ⟨t', x', j, j', r, e1, e2, hne⟩ := he
      rw [ht] at e1
      cases e1
      rw [hx] at e2
      cases e2
      obtain ⟨y, hy⟩ := diff ⟨r, j, j', hne⟩
      rw [key, hy]
      show ∃ g P, (distanz (Arr.of2 y) none >>= _) = _
      rw [(C54_distanz y y y 0 0).2.1]
      classical
      let W : Matrix (Fin N) (Fin N) ℝ := gaussW σ (Arr.of2 fun i j => √(∑ k, (y k i - y k j) ^ 2))
      obtain ⟨g, hg, -⟩ := Graph.ofCsr_ofDense (Matrix.of fun i j => if (W - Matrix.diagonal fun i => W i i) i j < thresh then 0 else
        (W - Matrix.diagonal fun i => W i i) i j) hlt
      refine ⟨g, yᵀ, ?_⟩
      refine (if_neg (hs0 h0)).trans ?_
      show (Graph.ofCsr _ lt >>= _) = _
      rw [hg]
      rfl

/-- The points of the roll differ as soon as two draws do. -/
theorem C94_swissroll_distinct {a b : ℝ} (ha : 0 ≤ a) (hab : a < b) {dim : ℕ} (hd : dim = 2 ∨ dim = 3) {thresh : ℝ} {s : Option ℝ} (hs : s ≠ some 0)
    {type : SrType} (ht : type = .uniform ∨ type = .classic) {y1 y2 : Fin N → ℝ} (hy : ∀ j, 0 ≤ y1 j ∧ y1 j < 1) {j j' : Fin N} (hne : y1 j ≠ y1 j')
    {lt : LapType} (hlt : lt = .combinatorial ∨ lt = .normalized) :
    ∃ g P, swissRoll a b dim thresh s none type y1 y2 lt = .ok (g, P) := by
  have hN : 0 < N := Fin.pos j
  have hpi := Real.pi_pos
  obtain ⟨-, -, h3⟩ := C94_swissroll_returns a b thresh (s := s) (none : Option (Matrix (Fin dim) (Fin N) ℝ)) type y1 y2 hlt hN
  obtain ⟨t, h1⟩ : ∃ t, swissT type a b y1 = .ok t := by rcases ht with rfl | rfl <;> exact ⟨_, rfl⟩
  obtain ⟨x, h2⟩ : ∃ x : Matrix (Fin dim) (Fin N) ℝ, swissX dim t y2 = .ok x := by rcases hd with rfl | rfl <;> exact ⟨_, rfl⟩
  have hab2 : a * a < b * b := mul_self_lt_mul_self ha hab
  have harg : ∀ j, 0 ≤ (b * b - a * a) * y1 j + a * a := fun j => swiss_arg (hy j).1 (hy j).2.le
  have t0 : ∀ j, 0 ≤ t j := fun j => by
    rcases swissT_ok h1 with ⟨-, e⟩ | ⟨-, e⟩
    · rw [e]; positivity
    · rw [e]
      have := mul_nonneg (sub_nonneg.2 hab.le) (hy j).1
      positivity
  have htt : t j ≠ t j' := by
    intro q
    apply hne
    rcases swissT_ok h1 with ⟨-, e⟩ | ⟨-, e⟩
    · rw [e, e] at q
      have q := (Real.sqrt_inj (harg j) (harg j')).1 (mul_right_cancel₀ hpi.ne' q)
      exact mul_left_cancel₀ (sub_pos.2 hab2).ne' (add_right_cancel q)
    · rw [e, e] at q
      have q := mul_right_cancel₀ hpi.ne' q
      exact mul_left_cancel₀ (sub_pos.2 hab).ne' (add_right_cancel q)
  refine (h3 ht hd).2.2 hs ?_
  by_contra hcon
  push Not at hcon
  have hc : ∀ r, x r j = x r j' := fun r => by simpa using hcon t x j j' r h1 h2
  obtain ⟨-, hX⟩ := swissX_ok h2
  have hX : ∀ j r, x r j = if r.val = 0 then t j * Real.cos (t j) else if r.val = dim - 1 then t j * Real.sin (t j) else 21 * y2 j := fun j r => hX j r
  have c0 := hc ⟨0, by omega⟩
  have c1 := hc ⟨dim - 1, by omega⟩
  rw [hX j, hX j'] at c0 c1
  simp only [if_true] at c0
  rw [if_neg (by simp; omega), if_pos (by simp), if_neg (by simp; omega), if_pos (by simp)] at c1
  apply htt
  have e : t j ^ 2 = t j' ^ 2 := by
    have u := Real.cos_sq_add_sin_sq (t j)
    have v := Real.cos_sq_add_sin_sq (t j')
    calc t j ^ 2 = (t j * Real.cos (t j)) ^ 2 + (t j * Real.sin (t j)) ^ 2 := by linear_combination -(t j) ^ 2 * u
      _ = (t j' * Real.cos (t j')) ^ 2 + (t j' * Real.sin (t j')) ^ 2 := by rw [c0, c1]
      _ = t j' ^ 2 := by linear_combination (t j') ^ 2 * v
  exact (sq_eq_sq₀ (t0 j) (t0 j')).1 e

/-! ### DavidSensorNet -/

theorem david_ne (N : ℕ) : davidCutoff N ≠ 0 := by
  unfold davidCutoff
  intro h
  have h' : (N : ℝ) * 0.125 = 0.2183 * 436.075 := by
    have := h
    field_simp at this
    linarith
  have h2 : (N : ℝ) * 100000 = 76156138 := by norm_num at h' ⊢; linarith
  have h3 : N * 100000 = 76156138 := by exact_mod_cast h2
  omega

/-- **DavidSensorNet** for another number of sensors than 64 and 500: it returns; two sensors are linked if and only if their distance is at most
`|0.2183 - 0.125 N / 436.075|`, and the weight of the link is `0.6 ^ (d / cutoff)²`, hence between 0.6 and 1; undirected, no self-loop. -/
theorem C94_david (hN : N ≠ 64) (hN' : N ≠ 500) (P : Matrix (Fin N) (Fin 2) ℝ) {lt : LapType} (hlt : lt = .combinatorial ∨ lt = .normalized) :
    ∃ g, davidSensorNet P lt = .ok (g, P) ∧ g.Built ∧ Undirected g.W.dense ∧ (∀ i, g.W.dense i i = 0) ∧
      ∀ i j, i ≠ j → (√((P i 0 - P j 0) ^ 2 + (P i 1 - P j 1) ^ 2) ≤ |(0.2183 : ℝ) - 0.125 * N / 436.075| →
          g.W.dense i j = (0.6 : ℝ) ^ (((P i 0 - P j 0) ^ 2 + (P i 1 - P j 1) ^ 2) / (0.2183 - 0.125 * N / 436.075) ^ 2) ∧
          0.6 ≤ g.W.dense i j ∧ g.W.dense i j ≤ 1) ∧
        (|(0.2183 : ℝ) - 0.125 * N / 436.075| < √((P i 0 - P j 0) ^ 2 + (P i 1 - P j 1) ^ 2) → g.W.dense i j = 0) := by
  classical
  have hc : davidCutoff N = 0.2183 - 0.125 * N / 436.075 := by unfold davidCutoff; ring
  rw [← hc]
  set c := davidCutoff N
  have hc0 : c ≠ 0 := david_ne N
  have hc2 : 0 < c ^ 2 := by positivity
  have hlog : Real.log (0.6 : ℝ) < 0 := Real.log_neg (by norm_num) (by norm_num)
  set s := √(-c ^ 2 / (2 * Real.log 0.6)) with hs
  have hs2 : s ^ 2 = -c ^ 2 / (2 * Real.log 0.6) := Real.sq_sqrt (div_nonneg_of_nonpos (by linarith) (by linarith))
  let W1 : Matrix (Fin N) (Fin N) ℝ := gaussW s (Arr.of2 fun i j : Fin N => √(∑ k, (Pᵀ k i - Pᵀ k j) ^ 2))
  let W2 : Matrix (Fin N) (Fin N) ℝ := Matrix.of fun i j => if i = j then 0 else if W1 i j < 0.6 then 0 else W1 i j
  have hW1 : ∀ i j, W1 i j = (0.6 : ℝ) ^ (((P i 0 - P j 0) ^ 2 + (P i 1 - P j 1) ^ 2) / c ^ 2) := by
    intro i j
    rw [Real.rpow_def_of_pos (by norm_num)]
    show gaussW s _ i j = _
    rw [gaussW_eq, hs2]
    simp only [Fin.sum_univ_two, Matrix.transpose_apply]
    congr 1
    field_simp
  have hle : ∀ i j, W1 i j < 0.6 ↔ |c| < √((P i 0 - P j 0) ^ 2 + (P i 1 - P j 1) ^ 2) := by
    intro i j
    rw [hW1]
    have : (0.6 : ℝ) = (0.6 : ℝ) ^ (1 : ℝ) := (Real.rpow_one _).symm
    conv_lhs => rhs; rw [this]
    rw [Real.rpow_lt_rpow_left_iff_of_base_lt_one (by norm_num) (by norm_num), lt_div_iff₀ hc2, one_mul, ← Real.sqrt_sq_eq_abs,
      Real.sqrt_lt_sqrt_iff (by positivity)]
  obtain ⟨g, hg, hb, hW, -⟩ := Graph.ofCsr_ofDense W2 hlt
  refine ⟨g, ?_, hb, fun i j => ?_, fun i => ?_, fun i j hij => ⟨fun hd => ?_, fun hd => ?_⟩⟩
  · unfold davidSensorNet
    rw [if_neg (by omega), (C54_distanz Pᵀ Pᵀ Pᵀ 0 0).2.1]
    show (Graph.ofCsr (Sp.ofDense W2) lt >>= _) = _
    rw [hg]
    rfl
  · rw [hW]
    show (if i = j then (0 : ℝ) else if W1 i j < 0.6 then 0 else W1 i j) = if j = i then (0 : ℝ) else if W1 j i < 0.6 then 0 else W1 j i
    have : W1 i j = W1 j i := by
      rw [hW1, hW1]
      congr 2
      ring
    rw [this, if_congr (eq_comm (a := i)) rfl rfl]
  · rw [hW]; exact if_pos rfl
  · have h1 : ¬ W1 i j < 0.6 := by rw [hle]; exact not_lt.2 hd
    have e : g.W.dense i j = W1 i j := by rw [hW]; exact (if_neg hij).trans (if_neg h1)
    rw [e]
    refine ⟨hW1 i j, not_lt.1 h1, ?_⟩
    rw [hW1]
    exact Real.rpow_le_one (by norm_num) (by norm_num) (by positivity)
  · rw [hW]; exact (if_neg hij).trans (if_pos ((hle i j).2 hd))

/-- **Violated: a larger network is not sparser.**  The distance up to which sensors are linked decreases with the number of sensors only up to 761; then
it grows again, and with 5696 sensors or more any two sensors are linked. -/
theorem C94_david_dense_violated (hN : 5696 ≤ N) (P : Matrix (Fin N) (Fin 2) ℝ) (hP : ∀ i a, 0 ≤ P i a ∧ P i a < 1) {lt : LapType}
    (hlt : lt = .combinatorial ∨ lt = .normalized) :
    (∃ g, davidSensorNet P lt = .ok (g, P) ∧ ∀ i j, i ≠ j → 0.6 ≤ g.W.dense i j) ∧
    ∀ n m : ℕ, 762 ≤ n → n < m → |davidCutoff n| < |davidCutoff m| := by
  constructor
  · obtain ⟨g, hg, -, -, -, h⟩ := C94_david (by omega) (by omega) P hlt
    refine ⟨g, hg, fun i j hij => ((h i j hij).1 ?_).2.1⟩
    have hN' : (5696 : ℝ) ≤ N := by exact_mod_cast hN
    have h2 : √((P i 0 - P j 0) ^ 2 + (P i 1 - P j 1) ^ 2) ≤ 1.41422 := by
      rw [Real.sqrt_le_left (by norm_num)]
      have := hP i 0; have := hP i 1; have := hP j 0; have := hP j 1
      have : (P i 0 - P j 0) ^ 2 ≤ 1 := by rw [sq_le_one_iff_abs_le_one, abs_le]; constructor <;> linarith
      have : (P i 1 - P j 1) ^ 2 ≤ 1 := by rw [sq_le_one_iff_abs_le_one, abs_le]; constructor <;> linarith
      norm_num
      linarith
    refine h2.trans (le_trans ?_ (neg_le_abs _))
    rw [neg_sub, le_sub_iff_add_le, le_div_iff₀ (by norm_num)]
    norm_num
    linarith
  · intro n m hn hm
    have hn' : (762 : ℝ) ≤ n := by exact_mod_cast hn
    have hm' : (n : ℝ) < m := by exact_mod_cast hm
    have e : ∀ k : ℕ, (762 : ℝ) ≤ k → |davidCutoff k| = 0.125 / 436.075 * k - 0.2183 := fun k hk => by
      unfold davidCutoff
      rw [abs_of_neg]
      · ring
      · rw [neg_mul, neg_div, neg_add_lt_iff_lt_add, add_zero, lt_div_iff₀ (by norm_num)]
        norm_num
        linarith
    rw [e n hn', e m (by linarith)]
    have : (0 : ℝ) < 0.125 / 436.075 := by norm_num
    nlinarith

end PyGSP.Gen
