import Verif.Props.Diffusion
import Mathlib.Analysis.Calculus.Deriv.Pow
import Mathlib.Analysis.Calculus.Deriv.Inv
import Mathlib.Analysis.Calculus.Deriv.Mul
import Mathlib.Analysis.Calculus.Deriv.Add

/-!
# C48 - C51, C57: band filters, wavelets, log scales, vertex-frequency transforms
-/

namespace PyGSP

open Matrix Spec GState Real Design

variable {n : ℕ}

/-! ## C48 -/

namespace Design

theorem expwinExp_pos {slope x : ℝ} (h : 0 < x) : expwinExp slope x = exp (-(slope / x)) := by
  unfold expwinExp
  simp only [if_neg (not_le.2 h)]
  rw [neg_div]

theorem expwinExp_nonpos {slope x : ℝ} (h : x ≤ 0) : expwinExp slope x = 0 := by
  unfold expwinExp
  simp only [if_pos h]

theorem expwinExp_nonneg (slope x : ℝ) : 0 ≤ expwinExp slope x := by
  rcases le_or_gt x 0 with h | h
  · rw [expwinExp_nonpos h]
  · rw [expwinExp_pos h]; exact (exp_pos _).le

theorem expwin_denom (slope x : ℝ) : 0 < expwinExp slope x + expwinExp slope (1 - x) := by
  have h1 := expwinExp_nonneg slope x
  have h2 := expwinExp_nonneg slope (1 - x)
  rcases le_or_gt x 0 with h | h
  · have : 0 < expwinExp slope (1 - x) := by rw [expwinExp_pos (by linarith)]; exact exp_pos _
    linarith
  · have : 0 < expwinExp slope x := by rw [expwinExp_pos h]; exact exp_pos _
    linarith

theorem expwinExp_mono {slope : ℝ} (hs : 0 ≤ slope) : Monotone (expwinExp slope) := by
  intro x y hxy
  rcases le_or_gt x 0 with h | h
  · rw [expwinExp_nonpos h]; exact expwinExp_nonneg _ _
  · rw [expwinExp_pos h, expwinExp_pos (h.trans_le hxy), exp_le_exp, neg_le_neg_iff]
    exact div_le_div_of_nonneg_left hs h hxy

theorem expwinH_range (slope x : ℝ) : 0 ≤ expwinH slope x ∧ expwinH slope x ≤ 1 := by
  have h1 := expwinExp_nonneg slope x
  have h2 := expwinExp_nonneg slope (1 - x)
  unfold expwinH
  exact ⟨div_nonneg h1 (by linarith), by rw [div_le_one (expwin_denom slope x)]; linarith⟩

theorem expwinH_zero {slope x : ℝ} (h : x ≤ 0) : expwinH slope x = 0 := by
  unfold expwinH; rw [expwinExp_nonpos h, zero_div]

theorem expwinH_compl (slope x : ℝ) : expwinH slope x + expwinH slope (1 - x) = 1 := by
  unfold expwinH
  have := expwin_denom slope x
  rw [sub_sub_cancel, add_comm (expwinExp slope (1 - x)), ← add_div, div_self this.ne']

theorem expwinH_one {slope x : ℝ} (h : 1 ≤ x) : expwinH slope x = 1 := by
  have h1 := expwinH_compl slope x
  rw [expwinH_zero (show 1 - x ≤ 0 by linarith)] at h1
  linarith

theorem expwinH_half (slope : ℝ) : expwinH slope (1 / 2) = 1 / 2 := by
  have := expwinH_compl slope (1 / 2)
  norm_num at this ⊢
  linarith

theorem expwinH_mono {slope : ℝ} (hs : 0 ≤ slope) : Monotone (expwinH slope) := by
  intro x y hxy
  unfold expwinH
  rw [div_le_div_iff₀ (expwin_denom _ _) (expwin_denom _ _)]
  have h1 := expwinExp_mono hs hxy
  have h2 := expwinExp_mono hs (show 1 - y ≤ 1 - x by linarith)
  have := expwinExp_nonneg slope x
  have := expwinExp_nonneg slope (1 - y)
  nlinarith

end Design

/-- The response of a bank made of one pointwise kernel, at one frequency. -/
def Bank.Response (f : Bank) (x y : ℝ) : Prop := ∃ z, f.evaluate (fun _ : Fin 1 => x) = .ok z ∧ f.Nf = 1 ∧ ∀ i, z i 0 = y

theorem response_one (g : ℝ → ℝ) (x : ℝ) : (Bank.ofArg (.one (Kernel.pointwise g))).Response x (g x) := by
  refine ⟨_, evaluate_pointwise [g] rfl _, rfl, fun i => ?_⟩
  have : i = ⟨0, Nat.one_pos⟩ := Fin.ext (Nat.lt_one_iff.1 i.2)
  rw [this]; rfl

theorem Bank.Response.unique {f : Bank} {x y y' : ℝ} (h : f.Response x y) (h' : f.Response x y') : y = y' := by
  obtain ⟨z, hz, hn, hy⟩ := h
  obtain ⟨z', hz', -, hy'⟩ := h'
  rw [hz] at hz'
  obtain rfl := Except.ok.inj hz'
  rw [← hy ⟨0, by omega⟩, ← hy' ⟨0, by omega⟩]

/-- **Expwin**, for every slope: low-pass (only `band_max`): the response `y` at frequency `x` is in `[0, 1]`; it is 1
from half a band below the cut, 1/2 at the cut, 0 from half a band above.  High-pass is the mirror, and the two with
the same cut sum to 1; with both ends the response is the product; with none it is 1. -/
theorem C48_expwin {lmax : ℝ} (slope lo hi x : ℝ) :
    ∃ yl yh yb, (expwin lmax none (some hi) slope).Response x yl ∧ (expwin lmax (some lo) none slope).Response x yh ∧
      (expwin lmax (some lo) (some hi) slope).Response x yb ∧ (expwin lmax none none slope).Response x 1 ∧
      yb = yl * yh ∧ 0 ≤ yl ∧ yl ≤ 1 ∧ 0 ≤ yh ∧ yh ≤ 1 ∧
      (x / lmax ≤ hi - 1 / 2 → yl = 1) ∧ (x / lmax = hi → yl = 1 / 2) ∧ (hi + 1 / 2 ≤ x / lmax → yl = 0) ∧
      (x / lmax ≤ lo - 1 / 2 → yh = 0) ∧ (x / lmax = lo → yh = 1 / 2) ∧ (lo + 1 / 2 ≤ x / lmax → yh = 1) ∧
      (lo = hi → yl + yh = 1) := by
  refine ⟨_, _, _, response_one _ x, response_one _ x, response_one _ x, response_one _ x, rfl, ?_⟩
  simp only [bandKernel]
  have e1 : (0.5 : ℝ) = 1 / 2 := by norm_num
  rw [e1]
  refine ⟨(expwinH_range _ _).1, (expwinH_range _ _).2, (expwinH_range _ _).1, (expwinH_range _ _).2,
    fun h => expwinH_one (by linarith), fun h => ?_, fun h => expwinH_zero (by linarith),
    fun h => expwinH_zero (by linarith), fun h => ?_, fun h => expwinH_one (by linarith), fun h => ?_⟩
  · rw [show 1 / 2 - x / lmax + hi = 1 / 2 by linarith]; exact expwinH_half _
  · rw [show 1 / 2 + x / lmax - lo = 1 / 2 by linarith]; exact expwinH_half _
  · rw [h, show 1 / 2 + x / lmax - hi = 1 - (1 / 2 - x / lmax + hi) by ring]
    exact expwinH_compl _ _

/-- With a non-negative slope the low-pass response decreases with the frequency and the high-pass response increases. -/
theorem C48_monotone {lmax : ℝ} (hl : 0 < lmax) {slope : ℝ} (hs : 0 ≤ slope) (cut x x' : ℝ) (hx : x ≤ x') {yl yl' yh yh' : ℝ}
    (h1 : (expwin lmax none (some cut) slope).Response x yl) (h2 : (expwin lmax none (some cut) slope).Response x' yl')
    (h3 : (expwin lmax (some cut) none slope).Response x yh) (h4 : (expwin lmax (some cut) none slope).Response x' yh') :
    yl' ≤ yl ∧ yh ≤ yh' := by
  have hd : x / lmax ≤ x' / lmax := div_le_div_of_nonneg_right hx hl.le
  rw [h1.unique (response_one _ x), h2.unique (response_one _ x'), h3.unique (response_one _ x),
    h4.unique (response_one _ x')]
  simp only [bandKernel]
  exact ⟨expwinH_mono hs (by linarith), expwinH_mono hs (by linarith)⟩

/-! ## C49 -/

/-- **Rectangular**: the response is 1 for `band_min lmax ≤ x ≤ band_max lmax` (an end that is None is not a
constraint) and 0 otherwise. -/
theorem C49_rectangular {lmax : ℝ} (hl : 0 < lmax) (lo hi : Option ℝ) (x : ℝ) :
    ((∀ a, lo = some a → a * lmax ≤ x) ∧ (∀ b, hi = some b → x ≤ b * lmax) → (rectangular lmax lo hi).Response x 1) ∧
    (¬ ((∀ a, lo = some a → a * lmax ≤ x) ∧ (∀ b, hi = some b → x ≤ b * lmax)) → (rectangular lmax lo hi).Response x 0) := by
  have h := response_one (bandKernel (fun hi x => if x / lmax ≤ hi then 1 else 0)
    (fun lo x => if x / lmax ≥ lo then 1 else 0) lo hi) x
  have e1 : ∀ b, (x / lmax ≤ b) = (x ≤ b * lmax) := fun b => propext (div_le_iff₀ hl)
  have e2 : ∀ a, (x / lmax ≥ a) = (a * lmax ≤ x) := fun a => propext (le_div_iff₀ hl)
  unfold rectangular
  constructor
  · intro hc
    convert h using 1
    rcases lo with _ | a <;> rcases hi with _ | b <;> simp only [bandKernel, e1, e2]
    · rw [if_pos (hc.2 b rfl)]
    · rw [if_pos (hc.1 a rfl)]
    · rw [if_pos (hc.2 b rfl), if_pos (hc.1 a rfl)]; norm_num
  · intro hc
    convert h using 1
    rcases lo with _ | a <;> rcases hi with _ | b <;> simp only [bandKernel, e1, e2]
    · simp at hc
    · simp at hc; rw [if_neg (not_le.2 hc)]
    · simp at hc; rw [if_neg (not_le.2 hc)]
    · simp only [Option.some.injEq, forall_eq', not_and] at hc
      by_cases ha : a * lmax ≤ x
      · rw [if_neg (hc ha)]; norm_num
      · rw [if_neg ha]; norm_num

/-- Filtering twice with the same rectangular filter is filtering once (exact filtering): it is a projection. -/
theorem C49_projection {S : Solvers n} (hS : Sound S) {g : Graph n ℝ} (hg : g.Built) (hist : List (Op n)) {s : GState n}
    (hs : s = runAll S hist (GState.ofGraph g)) (hW : NonnegW g.W.dense) (hn : 2 ≤ n) (hk : Known s.lapType)
    (hcomplete : ∀ b, s.basis = some b → b.k = n) (lmax : ℝ) (lo hi : Option ℝ) (order : ℕ) (x : Fin n → ℝ) :
    ∃ (y : Fin n → ℝ) (s' : GState n),
      (rectangular lmax lo hi).filter S (Arr.of1 x) .exact order s = (.ok (Arr.of1 y), s') ∧
      ((rectangular lmax lo hi).filter S (Arr.of1 y) .exact order s').1 = .ok (Arr.of1 y) ∧
      ∑ v, y v * (x v - y v) = 0 := by
  obtain ⟨e, U, he, h0, hbas, hf⟩ := single_setup hS hg hist hs hW hn hk hcomplete
  unfold rectangular
  set k := bandKernel (fun hi x => if x / lmax ≤ hi then 1 else 0) (fun lo x => if x / lmax ≥ lo then 1 else 0) lo hi
  have hidem : ∀ t, k t * k t = k t := by
    intro t
    simp only [k]
    rcases lo with _ | a <;> rcases hi with _ | b <;> simp only [bandKernel]
    · norm_num
    · split <;> norm_num
    · split <;> norm_num
    · split <;> split <;> norm_num
  have hsq : spectralOp U (fun j => k (e j)) * spectralOp U (fun j => k (e j)) = spectralOp U (fun j => k (e j)) := by
    rw [spectralOp_mul he.orthonormal]
    congr 1
    funext j
    exact hidem _
  refine ⟨_, _, hf _ _ rfl order x s (.inl rfl), ?_, ?_⟩
  · rw [hf _ _ rfl order _ _ (.inr rfl)]
    refine congrArg (fun t => Except.ok (Arr.of1 t)) ?_
    rw [Matrix.mulVec_mulVec, hsq]
  · set P := spectralOp U (fun j => k (e j))
    have hP : Pᵀ = P := spectralOp_symm _ _
    have h1 : (P *ᵥ x) ⬝ᵥ x = (P *ᵥ x) ⬝ᵥ (P *ᵥ x) := by
      rw [Matrix.dotProduct_mulVec (P *ᵥ x), ← Matrix.mulVec_transpose, hP, Matrix.mulVec_mulVec, hsq]
    simp only [mul_sub, Finset.sum_sub_distrib]
    show (P *ᵥ x) ⬝ᵥ x - (P *ᵥ x) ⬝ᵥ (P *ᵥ x) = 0
    rw [h1, sub_self]

/-! ## C57 -/

/-- **compute_log_scales**: `N` numbers in geometric progression from `t2 / lmin` to `t1 / lmax`, decreasing as soon as
`t1 / lmax < t2 / lmin`. -/
theorem C57_log_scales {lmin lmax t1 t2 : ℝ} (h1 : 0 < lmin) (h2 : 0 < lmax) (h3 : 0 < t1) (h4 : 0 < t2) (N : ℕ) :
    (logScales lmin lmax N t1 t2).length = N ∧
    (∀ h : 0 < (logScales lmin lmax N t1 t2).length, (logScales lmin lmax N t1 t2)[0] = t2 / lmin) ∧
    (∀ (_ : 2 ≤ N) (h : N - 1 < (logScales lmin lmax N t1 t2).length),
      (logScales lmin lmax N t1 t2)[N - 1] = t1 / lmax) ∧
    (∃ r : ℝ, 0 < r ∧ (2 ≤ N → t1 / lmax < t2 / lmin → r < 1) ∧
      ∀ (i : ℕ) (h : i + 1 < (logScales lmin lmax N t1 t2).length),
        (logScales lmin lmax N t1 t2)[i + 1] = r * (logScales lmin lmax N t1 t2)[i]) := by
  have ha : 0 < t2 / lmin := by positivity
  have hb : 0 < t1 / lmax := by positivity
  have hlen : (logScales lmin lmax N t1 t2).length = N := by simp [logScales]
  have hget : ∀ (i : ℕ) (h : i < (logScales lmin lmax N t1 t2).length), (logScales lmin lmax N t1 t2)[i] =
      exp (log (t2 / lmin) + (i : ℝ) * ((log (t1 / lmax) - log (t2 / lmin)) / (N - 1 : ℝ))) := by
    intro i h
    simp [logScales]
  refine ⟨hlen, fun h => ?_, fun hN h => ?_, exp ((log (t1 / lmax) - log (t2 / lmin)) / (N - 1 : ℝ)), exp_pos _,
    fun hN hlt => ?_, fun i h => ?_⟩
  · rw [hget]; simp [exp_log ha]
  · rw [hget]
    have : ((N - 1 : ℕ) : ℝ) = (N : ℝ) - 1 := by
      rw [Nat.cast_sub (by omega)]; norm_num
    have hN2 : (N : ℝ) - 1 ≠ 0 := by
      have : (2 : ℝ) ≤ N := by exact_mod_cast hN
      linarith
    rw [this, mul_div_cancel₀ _ hN2, add_sub_cancel, exp_log hb]
  · rw [exp_lt_one_iff]
    have : (2 : ℝ) ≤ N := by exact_mod_cast hN
    have := log_lt_log hb hlt
    exact div_neg_of_neg_of_pos (by linarith) (by linarith)
  · rw [hget, hget, ← exp_add]
    push_cast
    congr 1
    ring

/-! ## C50 -/

theorem xexp_le (y : ℝ) : y * exp (-y) ≤ exp (-1) := by
  have h := add_one_le_exp (y - 1)
  have h2 : y ≤ exp (y - 1) := by linarith
  calc y * exp (-y) ≤ exp (y - 1) * exp (-y) := by
        exact mul_le_mul_of_nonneg_right h2 (exp_pos _).le
    _ = exp (-1) := by rw [← exp_add]; congr 1; ring

/-- **MexicanHat**: ValueError unless there are `Nf - 1` scales; the first filter is a positive scaling function
(so that the frame bound is positive on any finite set of frequencies), the others are wavelets: they vanish at 0,
are bounded by `exp(-1)` (times `√scale` with `normalize`), and reach the bound at `x = 1 / scale`. -/
theorem C50_mexicanHat (lmax : ℝ) (Nf : ℕ) (lpfactor : ℝ) (scales : List ℝ) (normalize : Bool) :
    (scales.length + 1 ≠ Nf → mexicanHat lmax Nf lpfactor (some scales) normalize = .error .valueError) ∧
    (scales.length + 1 = Nf → ∃ f, mexicanHat lmax Nf lpfactor (some scales) normalize = .ok f ∧ f.Nf = Nf ∧
      ∀ k (x : Fin k → ℝ), ∃ z, f.evaluate x = .ok z ∧
        (∀ i : Fin f.Nf, i.1 = 0 → ∀ j, 0 < z i j ∧ z i j ≤ 1.2 * exp (-1) ∧ (x j = 0 → z i j = 1.2 * exp (-1))) ∧
        ∀ (i : Fin f.Nf) (hi : i.1 - 1 < scales.length), i.1 ≠ 0 → ∀ j,
          let c := if normalize then √scales[i.1 - 1] else 1
          (x j = 0 → z i j = 0) ∧ z i j ≤ c * exp (-1) ∧ (scales[i.1 - 1] * x j = 1 → z i j = c * exp (-1))) := by
  refine ⟨fun h => if_pos h, fun h => ⟨_, if_neg (not_not.2 h), by simp [Bank.ofArg, Bank.Nf, h], fun k x => ?_⟩⟩
  refine ⟨_, evaluate_pointwise ((fun x => 1.2 * exp (-1) * exp (-((x / 0.4 / (lmax / lpfactor)) ^ 4))) ::
    scales.map fun s => fun x => (if normalize then √s else 1) * ((s * x) * exp (-(s * x)))) ?_ x, ?_, ?_⟩
  · simp only [Bank.ofArg, Option.getD_some, List.map_cons, List.map_map]
    rfl
  · intro i hi j
    simp only [List.get_eq_getElem, hi, List.getElem_cons_zero]
    have h4 : 0 ≤ (x j / 0.4 / (lmax / lpfactor)) ^ 4 := by positivity
    refine ⟨by positivity, ?_, ?_⟩
    · have : exp (-((x j / 0.4 / (lmax / lpfactor)) ^ 4)) ≤ 1 := by rw [exp_le_one_iff]; linarith
      have h5 : (0 : ℝ) < 1.2 * exp (-1) := by positivity
      nlinarith
    · intro h; rw [h]; norm_num
  · intro i hi hi0 j
    simp only [List.get_eq_getElem]
    have e : ∀ (l : List (ℝ → ℝ)) (a : ℝ → ℝ) (h : i.1 < (a :: l).length) (h' : i.1 - 1 < l.length),
        (a :: l)[i.1] = l[i.1 - 1] := by
      intro l a h h'
      exact List.getElem_cons _ |>.trans (dif_neg hi0)
    rw [e _ _ _ (by simpa using hi)]
    simp only [List.getElem_map]
    have hc : 0 ≤ (if normalize then √scales[i.1 - 1] else (1 : ℝ)) := by
      split
      · exact sqrt_nonneg _
      · norm_num
    refine ⟨fun h => by rw [h]; simp, ?_, fun h => ?_⟩
    · exact mul_le_mul_of_nonneg_left (xexp_le _) hc
    · rw [h, one_mul]

theorem spline_coef : (splineM 1 2)⁻¹.mulVec (splineV 2 2 1 2) = ![-5, 11, -6, 1] := by
  have hdet : (splineM 1 2).det = -1 := by
    simp [splineM, Matrix.det_succ_row_zero, Fin.sum_univ_succ, Fin.succAbove]
    norm_num
  have hv : splineV 2 2 1 2 = (splineM 1 2).mulVec ![-5, 11, -6, 1] := by
    funext i
    fin_cases i <;> simp [splineM, splineV, Matrix.mulVec, dotProduct, Fin.sum_univ_succ] <;> norm_num
  rw [hv, Matrix.mulVec_mulVec, Matrix.nonsing_inv_mul _ (by rw [hdet]; exact isUnit_one.neg), Matrix.one_mulVec]

theorem gb_eq (x : ℝ) : absplineGb x =
    if x ≥ 2 then (2 / x) ^ 2 else if x ≥ 1 then (x - 1) * (x - 2) * (x - 3) + 1 else x ^ 2 := by
  unfold absplineGb abspline3
  rw [spline_coef]
  simp only
  split
  · rw [_root_.zpow_neg, div_pow]
    norm_cast
    field_simp
  · rename_i h2
    by_cases h1 : x ≥ 1
    · rw [if_pos ⟨h1, not_le.1 h2⟩, if_pos h1]
      simp
      ring
    · rw [if_neg (fun h => h1 h.1), if_neg h1, if_pos (not_le.1 h1).le]
      norm_cast
      simp

/-- **The spline wavelet of Abspline**: `x²` up to 1, `(2/x)²` from 2 on, and in between the cubic that matches the values
1, 1 and the slopes 2, -1 at the two knots, so that the kernel is continuously differentiable there; it is
non-negative, vanishes at 0 and is at most 1 outside `(1, 2)`, at most `1 + 2/(3√3)` inside. -/
theorem C50_abspline_kernel :
    (∀ x ≤ 1, absplineGb x = x ^ 2) ∧ (∀ x, 2 ≤ x → absplineGb x = (2 / x) ^ 2) ∧
    (∀ x, 1 ≤ x → x ≤ 2 → absplineGb x = -5 + 11 * x - 6 * x ^ 2 + x ^ 3) ∧
    HasDerivAt absplineGb 2 1 ∧ HasDerivAt absplineGb (-1) 2 ∧ Continuous absplineGb ∧
    (∀ x, 0 ≤ absplineGb x) ∧ (∀ x, 1 ≤ x → x ≤ 2 → 1 ≤ absplineGb x) ∧
    (∀ x, 0 ≤ x → absplineGb x ≤ 1 + 2 / (3 * √3)) ∧ absplineGb (2 - 1 / √3) = 1 + 2 / (3 * √3) := by
  have hlow : ∀ x ≤ 1, absplineGb x = x ^ 2 := by
    intro x h
    rw [gb_eq, if_neg (by linarith)]
    split
    · have : x = 1 := by linarith
      rw [this]; norm_num
    · rfl
  have hhigh : ∀ x, 2 ≤ x → absplineGb x = (2 / x) ^ 2 := fun x h => by rw [gb_eq, if_pos h]
  have hmid : ∀ x, 1 ≤ x → x ≤ 2 → absplineGb x = (x - 1) * (x - 2) * (x - 3) + 1 := by
    intro x h1 h2
    rw [gb_eq, if_pos (show x ≥ 1 from h1)]
    split
    · have : x = 2 := by linarith
      rw [this]; norm_num
    · rfl
  have hmid' : ∀ x, 1 ≤ x → x ≤ 2 → absplineGb x = -5 + 11 * x - 6 * x ^ 2 + x ^ 3 := fun x h1 h2 => by
    rw [hmid x h1 h2]; ring
  have hs3 : √3 ^ 2 = 3 := sq_sqrt (by norm_num)
  have hsp : 0 < √3 := sqrt_pos.2 (by norm_num)
  have hmax : ∀ x, 1 ≤ x → x ≤ 2 → absplineGb x ≤ 1 + 2 / (3 * √3) := by
    intro x h1 h2
    rw [hmid x h1 h2]
    set u := 2 - x with hu
    have e : (x - 1) * (x - 2) * (x - 3) = u - u ^ 3 := by rw [hu]; ring
    have hu0 : 0 ≤ u := by linarith
    have key : u - u ^ 3 ≤ 2 / (3 * √3) := by
      rw [le_div_iff₀ (by positivity)]
      -- (1 - √3 u)² (2 + √3 u) ≥ 0
      have h3 : √3 ^ 3 = 3 * √3 := by rw [pow_succ, hs3]
      have : 2 - 3 * (√3 * u) + (√3 * u) ^ 3 = (1 - √3 * u) ^ 2 * (2 + √3 * u) := by ring
      have h5 : 0 ≤ (1 - √3 * u) ^ 2 * (2 + √3 * u) := by positivity
      rw [← this, mul_pow, h3] at h5
      nlinarith
    linarith
  have hpos : (0 : ℝ) < 2 / (3 * √3) := by positivity
  have hdp : ∀ x : ℝ, HasDerivAt (fun x : ℝ => -5 + 11 * x - 6 * x ^ 2 + x ^ 3) (11 - 12 * x + 3 * x ^ 2) x := by
    intro x
    have := (((hasDerivAt_const x (-5 : ℝ)).add ((hasDerivAt_id x).const_mul 11)).sub
      ((hasDerivAt_pow 2 x).const_mul 6)).add (hasDerivAt_pow 3 x)
    refine HasDerivAt.congr_deriv (f := fun x : ℝ => -5 + 11 * x - 6 * x ^ 2 + x ^ 3) this ?_
    norm_num; try ring
  refine ⟨hlow, hhigh, hmid', ?_, ?_, ?_, ?_, ?_, ?_, ?_⟩
  · have h1 : HasDerivWithinAt absplineGb 2 (Set.Iic 1) 1 := by
      have := (hasDerivAt_pow 2 (1 : ℝ)).hasDerivWithinAt (s := Set.Iic 1)
      norm_num at this
      exact this.congr (fun x hx => hlow x hx) (hlow 1 le_rfl)
    have h2 : HasDerivWithinAt absplineGb 2 (Set.Icc 1 2) 1 := by
      have := (hdp 1).hasDerivWithinAt (s := Set.Icc 1 2)
      norm_num at this
      exact this.congr (fun x hx => hmid' x hx.1 hx.2) (hmid' 1 le_rfl (by norm_num))
    refine (h1.union h2).hasDerivAt ?_
    have : Set.Iic (1 : ℝ) ∪ Set.Icc 1 2 = Set.Iic 2 := Set.Iic_union_Icc_eq_Iic (by norm_num)
    rw [this]
    exact Iic_mem_nhds (by norm_num)
  · have h1 : HasDerivWithinAt absplineGb (-1) (Set.Ici 2) 2 := by
      have h0 : HasDerivAt (fun x : ℝ => (2 / x) ^ 2) (-1) 2 := by
        have h := (((hasDerivAt_const (2 : ℝ) (2 : ℝ)).div (hasDerivAt_id (2 : ℝ)) (by norm_num)).pow 2)
        refine HasDerivAt.congr_deriv (f := fun x : ℝ => (2 / x) ^ 2) h ?_
        simp only [Pi.div_apply, id]
        norm_num
      exact h0.hasDerivWithinAt.congr (fun x hx => hhigh x hx) (hhigh 2 le_rfl)
    have h2 : HasDerivWithinAt absplineGb (-1) (Set.Icc 1 2) 2 := by
      have := (hdp 2).hasDerivWithinAt (s := Set.Icc 1 2)
      norm_num at this
      exact this.congr (fun x hx => hmid' x hx.1 hx.2) (hmid' 2 (by norm_num) le_rfl)
    refine (h2.union h1).hasDerivAt ?_
    have : Set.Icc (1 : ℝ) 2 ∪ Set.Ici 2 = Set.Ici 1 := Set.Icc_union_Ici_eq_Ici (by norm_num)
    rw [this]
    exact Ici_mem_nhds (by norm_num)
  · have c1 : ContinuousOn absplineGb (Set.Iic 1) :=
      (continuous_pow 2).continuousOn.congr fun x hx => hlow x hx
    have c2 : ContinuousOn absplineGb (Set.Icc 1 2) :=
      (Continuous.continuousOn (by fun_prop)).congr fun x hx => hmid' x hx.1 hx.2
    have c3 : ContinuousOn absplineGb (Set.Ici 2) := by
      have : ContinuousOn (fun x : ℝ => (2 / x) ^ 2) (Set.Ici 2) := by
        refine ContinuousOn.pow (ContinuousOn.div continuousOn_const continuousOn_id fun x hx => ?_) 2
        have : (2 : ℝ) ≤ x := hx
        simp only [id]
        linarith
      exact this.congr fun x hx => hhigh x hx
    rw [← continuousOn_univ]
    have h12 := c1.union_of_isClosed c2 isClosed_Iic isClosed_Icc
    rw [Set.Iic_union_Icc_eq_Iic (by norm_num)] at h12
    have h123 := h12.union_of_isClosed c3 isClosed_Iic isClosed_Ici
    rwa [Set.Iic_union_Ici] at h123
  · intro x
    rcases le_total x 1 with h | h
    · rw [hlow x h]; positivity
    rcases le_total x 2 with h2 | h2
    · rw [hmid x h h2]
      have : 0 ≤ (x - 1) * ((2 - x) * (3 - x)) := mul_nonneg (by linarith) (mul_nonneg (by linarith) (by linarith))
      nlinarith
    · rw [hhigh x h2]; positivity
  · intro x h h2
    rw [hmid x h h2]
    have : 0 ≤ (x - 1) * ((2 - x) * (3 - x)) := mul_nonneg (by linarith) (mul_nonneg (by linarith) (by linarith))
    nlinarith
  · intro x h0
    rcases le_total x 1 with h | h
    · rw [hlow x h]; nlinarith
    rcases le_total x 2 with h2 | h2
    · exact hmax x h h2
    · rw [hhigh x h2]
      have h3 : 2 / x ≤ 1 := by rw [div_le_one (by linarith)]; exact h2
      have h4 : 0 ≤ 2 / x := by positivity
      nlinarith
  · have h1 : 1 / √3 ≤ 1 := by
      rw [div_le_one hsp]
      exact Real.le_sqrt_of_sq_le (by norm_num)
    have h0 : 0 ≤ 1 / √3 := by positivity
    rw [hmid _ (by linarith) (by linarith)]
    have e : (2 - 1 / √3 - 1) * (2 - 1 / √3 - 2) * (2 - 1 / √3 - 3) = 1 / √3 - (1 / √3) ^ 3 := by ring
    rw [e]
    have h3 : √3 ^ 3 = 3 * √3 := by rw [pow_succ, hs3]
    rw [div_pow, h3]
    field_simp
    ring

/-- **Abspline**: `Nf` filters; the number of scales is not validated, but a missing scale raises IndexError when the
filter bank is evaluated; otherwise the first filter is positive everywhere, and the wavelets are the spline at the
given scales. -/
theorem C50_abspline {xstar : ℝ} (h1 : 1 ≤ xstar) (h2 : xstar ≤ 2) (lmax : ℝ) {Nf : ℕ} (hN : 1 ≤ Nf) (lpfactor : ℝ) (scales : List ℝ) :
    (abspline xstar lmax Nf lpfactor (some scales)).Nf = Nf ∧
    (scales.length + 1 < Nf → ∀ k (x : Fin k → ℝ),
      (abspline xstar lmax Nf lpfactor (some scales)).evaluate x = .error .indexError) ∧
    (Nf ≤ scales.length + 1 → ∀ k (x : Fin k → ℝ), ∃ z,
      (abspline xstar lmax Nf lpfactor (some scales)).evaluate x = .ok z ∧
      (∀ i, i.1 = 0 → ∀ j, 0 < z i j ∧ z i j ≤ absplineGb xstar ∧ (x j = 0 → z i j = absplineGb xstar)) ∧
      ∀ (i : Fin (abspline xstar lmax Nf lpfactor (some scales)).Nf) (hi : i.1 - 1 < scales.length), i.1 ≠ 0 →
        ∀ j, z i j = absplineGb (scales[i.1 - 1] * x j)) := by
  have hlen : (abspline xstar lmax Nf lpfactor (some scales)).Nf = Nf := by
    simp only [abspline, Bank.ofArg, Bank.Nf, List.length_cons, List.length_map, List.length_range]
    omega
  have hg : 1 ≤ absplineGb xstar := C50_abspline_kernel.2.2.2.2.2.2.2.1 xstar h1 h2
  refine ⟨hlen, fun hlt k x => ?_, fun hle k x => ?_⟩
  · unfold Bank.evaluate
    rw [seqFin_error]
    have hlt2 : scales.length + 1 < (abspline xstar lmax Nf lpfactor (some scales)).Nf := by rw [hlen]; exact hlt
    refine ⟨⟨scales.length + 1, hlt2⟩, ?_, fun j hj => ?_⟩
    · simp only [abspline, Bank.ofArg, Option.getD_some, List.get_eq_getElem, List.getElem_cons_succ, List.getElem_map,
        List.getElem_range]
      rw [List.getElem?_eq_none (le_refl _)]
    · obtain ⟨j, hj2⟩ := j
      have hj : j < scales.length + 1 := hj
      rcases j with _ | j
      · exact ⟨_, rfl⟩
      · simp only [abspline, Bank.ofArg, Option.getD_some, List.get_eq_getElem, List.getElem_cons_succ, List.getElem_map,
          List.getElem_range]
        rw [List.getElem?_eq_getElem (by omega)]
        exact ⟨_, rfl⟩
  · refine ⟨_, evaluate_pointwise ((fun x => absplineGb xstar * exp (-((x / (0.6 * (lmax / lpfactor))) ^ 4))) ::
      (scales.take (Nf - 1)).map fun s => fun x => absplineGb (s * x)) ?_ x, ?_, ?_⟩
    · simp only [abspline, Bank.ofArg, Option.getD_some, List.map_cons, List.map_map]
      congr 1
      refine List.ext_getElem (by simp; omega) fun i hi1 hi2 => ?_
      simp only [List.length_map, List.length_range] at hi1
      simp only [List.getElem_map, List.getElem_range, List.getElem_take, Function.comp_apply]
      rw [List.getElem?_eq_getElem (by omega)]
    · intro i hi j
      simp only [List.get_eq_getElem, hi, List.getElem_cons_zero]
      have h4 : 0 ≤ (x j / (0.6 * (lmax / lpfactor))) ^ 4 := by positivity
      refine ⟨by positivity, ?_, ?_⟩
      · have : exp (-((x j / (0.6 * (lmax / lpfactor))) ^ 4)) ≤ 1 := by rw [exp_le_one_iff]; linarith
        nlinarith
      · intro h; rw [h]; norm_num
    · intro i hi hi0 j
      have hiN : i.1 < Nf := i.2.trans_eq hlen
      simp only [List.get_eq_getElem]
      have e : ∀ (l : List (ℝ → ℝ)) (a : ℝ → ℝ) (h : i.1 < (a :: l).length) (h' : i.1 - 1 < l.length),
          (a :: l)[i.1] = l[i.1 - 1] := by
        intro l a h h'
        exact List.getElem_cons _ |>.trans (dif_neg hi0)
      rw [e _ _ _ (by simp; omega)]
      simp only [List.getElem_map, List.getElem_take]

end PyGSP
