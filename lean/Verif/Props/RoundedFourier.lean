import Verif.Model.RoundedFourier
import Verif.Props.Rounding
import Verif.Props.Stability

/-!
# C143: rounding errors of the Fourier transform and of the exact filtering
-/

namespace PyGSP

open Matrix Spec Rounding

variable {n : ℕ}

namespace Rounding

theorem dotAny_near {u : ℝ} {fl : ℝ → ℝ} (hr : Rounds fl u) {ι : Type} [DecidableEq ι] {a y : ι → ℝ} {s : Finset ι} {r : ℝ} (h : DotAny fl a y s r) :
    1 ≤ s.card ∧ Near u (s.card + 1) r (∑ i ∈ s, a i * y i) (∑ i ∈ s, |a i| * |y i|) := by
  have hp : ∀ i, Near u 0 (a i * y i) (a i * y i) (|a i| * |y i|) := fun i => by rw [← abs_mul]; exact Near.refl _
  induction h with
  | product i =>
    simp only [Finset.sum_singleton, Finset.card_singleton]
    exact ⟨le_rfl, ((hp i).round hr).mono hr.nonneg (by omega) le_rfl⟩
  | register i =>
    simp only [Finset.sum_singleton, Finset.card_singleton, zero_add]
    exact ⟨le_rfl, ((hp i).round hr).round hr⟩
  | fma i hi _ ih =>
    rw [Finset.sum_insert hi, Finset.sum_insert hi, Finset.card_insert_of_notMem hi, add_comm (a i * y i), add_comm (|a i| * |y i|)]
    exact ⟨by omega, (ih.2.add ((hp i).mono hr.nonneg (by omega) le_rfl)).round hr⟩
  | add hd _ _ ih ih' =>
    rw [Finset.sum_union hd, Finset.sum_union hd, Finset.card_union_of_disjoint hd]
    refine ⟨by omega, ?_⟩
    have h1 := ih.1
    have h2 := ih'.1
    exact (((ih.2.mono hr.nonneg (m' := _) (by omega) le_rfl).add (ih'.2.mono hr.nonneg (by omega) le_rfl)).round hr)

theorem dotAny_exists (fl : ℝ → ℝ) {ι : Type} [DecidableEq ι] (a y : ι → ℝ) (s : Finset ι) (h : s.Nonempty) : ∃ r, DotAny fl a y s r := by
  induction s using Finset.induction_on with
  | empty => simp at h
  | insert i t hi ih =>
    rcases t.eq_empty_or_nonempty with rfl | ht
    · exact ⟨_, .product i⟩
    · obtain ⟨r, hr⟩ := ih ht
      exact ⟨_, .fma i hi hr⟩

theorem exact_rounds : Rounds (fun x => x) 0 := ⟨le_rfl, fun x => by simp, fun x => rfl⟩

theorem dotAny_exact {ι : Type} [DecidableEq ι] {a y : ι → ℝ} {s : Finset ι} {r : ℝ} (h : DotAny (fun x => x) a y s r) : r = ∑ i ∈ s, a i * y i := by
  have := (dotAny_near exact_rounds h).2.1
  simp only [add_zero, one_pow, sub_self, zero_mul] at this
  exact sub_eq_zero.1 (abs_nonpos_iff.1 this)

theorem sqrt_frob_add (A B : Matrix (Fin n) (Fin n) ℝ) : √(frob (A + B)) ≤ √(frob A) + √(frob B) := by
  have := sqrt_frob_sum_le (Finset.univ : Finset (Fin 2)) ![A, B]
  simpa using this

theorem len_mulVec (A : Matrix (Fin n) (Fin n) ℝ) (x : Fin n → ℝ) : len (A *ᵥ x) ≤ √(frob A) * len x := by
  unfold len
  rw [← Real.sqrt_mul (frob_nonneg A)]
  exact Real.sqrt_le_sqrt (frob_mulVec A x)

theorem frob_transpose (A : Matrix (Fin n) (Fin n) ℝ) : frob Aᵀ = frob A := by
  unfold frob
  rw [Finset.sum_comm]
  rfl

theorem frob_orth {U : Matrix (Fin n) (Fin n) ℝ} (h : Uᵀ * U = 1) : frob U = n := by
  rw [frob_trace, h, Matrix.trace_one, Fintype.card_fin]

/-- the error of a product with a matrix that is within `δ` of an orthogonal one -/
noncomputable def _root_.PyGSP.Spec.transformError (u δ : ℝ) (n : ℕ) : ℝ := roundings u (n + 1) * (√n + δ) + δ

theorem transformError_nonneg {u δ : ℝ} (hu : 0 ≤ u) (hδ : 0 ≤ δ) (n : ℕ) : 0 ≤ transformError u δ n := by
  unfold transformError
  have := roundings_nonneg hu (n + 1)
  positivity

theorem product_error {u δ : ℝ} {fl : ℝ → ℝ} (hr : Rounds fl u) {A B : Matrix (Fin n) (Fin n) ℝ} (hA : frob A = n) (hB : √(frob (B - A)) ≤ δ) {x y : Fin n → ℝ}
    (h : ∀ l, DotAny fl (B l) x Finset.univ (y l)) : len (y - A *ᵥ x) ≤ transformError u δ n * len x := by
  have hg := roundings_nonneg hr.nonneg (n + 1)
  have hB' : √(frob B) ≤ √n + δ := by
    have := sqrt_frob_add A (B - A)
    rw [add_sub_cancel, hA] at this
    linarith
  have h1 : len (y - B *ᵥ x) ≤ roundings u (n + 1) * (√n + δ) * len x := by
    have h2 : len (y - B *ᵥ x) ≤ len (roundings u (n + 1) • ((Matrix.of fun l v => |B l v|) *ᵥ fun v => |x v|)) := by
      refine len_mono fun l => ?_
      have := (dotAny_near hr (h l)).2.1
      rw [Finset.card_univ, Fintype.card_fin] at this
      refine le_trans (le_of_eq ?_) (this.trans (le_trans (le_of_eq ?_) (le_abs_self _)))
      · simp only [Pi.sub_apply, Matrix.mulVec, dotProduct]
      · simp only [Pi.smul_apply, smul_eq_mul, Matrix.mulVec, dotProduct, Matrix.of_apply, roundings]
    rw [len_smul, abs_of_nonneg hg] at h2
    have h3 := len_mulVec (Matrix.of fun l v => |B l v|) fun v => |x v|
    rw [len_abs, show frob (Matrix.of fun l v => |B l v|) = frob B by simp [frob, sq_abs]] at h3
    refine h2.trans ?_
    rw [mul_assoc]
    exact mul_le_mul_of_nonneg_left (h3.trans (mul_le_mul_of_nonneg_right hB' (len_nonneg _))) hg
  have h4 : len ((B - A) *ᵥ x) ≤ δ * len x := (len_mulVec _ _).trans (mul_le_mul_of_nonneg_right hB (len_nonneg _))
  have e : y - A *ᵥ x = (y - B *ᵥ x) + (B - A) *ᵥ x := by
    rw [Matrix.sub_mulVec]
    abel
  rw [e]
  unfold transformError
  refine (len_add _ _).trans ((add_le_add h1 h4).trans (le_of_eq (by ring)))

theorem len_orthonormal {U : Matrix (Fin n) (Fin n) ℝ} (h : Uᵀ * U = 1) (y : Fin n → ℝ) : len (U *ᵥ y) = len y :=
  len_orth (L := U * Matrix.diagonal (fun _ => 1) * Uᵀ) (e := fun _ => 1) ⟨h, by rw [Matrix.mul_assoc, h, Matrix.mul_one]⟩ y

end Rounding

section

variable {u δ : ℝ} {fl : ℝ → ℝ} {U U0 : Matrix (Fin n) (Fin n) ℝ} {ns : ℕ}

/-- **C143** Whatever the order of the additions, a dot product of `m` terms has an error of at most that of `m + 1` operations, relative to the sum of the absolute values of its terms. -/
theorem C143_dot (hr : Rounds fl u) {ι : Type} [DecidableEq ι] {a y : ι → ℝ} {s : Finset ι} {r : ℝ} (h : DotAny fl a y s r) :
    |r - ∑ i ∈ s, a i * y i| ≤ roundings u (s.card + 1) * ∑ i ∈ s, |a i * y i| := by
  have := (dotAny_near hr h).2.1
  simp only [abs_mul]
  exact this

/-- **C143** The computed Fourier transform and its inverse: with a basis that is within `δ` of an orthonormal one `U0`, each is within a relative error `transformError` of the exact
transform for `U0`; in particular the norms are preserved to that accuracy (Parseval). -/
theorem C143_transforms (hr : Rounds fl u) (h0 : U0ᵀ * U0 = 1) (hδ : √(∑ i, ∑ j, (U - U0) i j ^ 2) ≤ δ) {x y : Fin n → Fin ns → ℝ} (j : Fin ns) :
    (GftFl fl U x y → len (fun l => y l j - ∑ v, U0 v l * x v j) ≤ transformError u δ n * len (fun v => x v j) ∧
      |len (fun l => y l j) - len (fun v => x v j)| ≤ transformError u δ n * len fun v => x v j) ∧
    (IgftFl fl U y x → len (fun v => x v j - ∑ l, U0 v l * y l j) ≤ transformError u δ n * len (fun l => y l j) ∧
      |len (fun v => x v j) - len (fun l => y l j)| ≤ transformError u δ n * len fun l => y l j) := by
  have hT : U0ᵀᵀ * U0ᵀ = 1 := by rw [Matrix.transpose_transpose]; exact mul_eq_one_comm.1 h0
  have tri : ∀ (a b : Fin n → ℝ), |len a - len b| ≤ len (a - b) := fun a b => by
    have h1 := len_add (a - b) b
    have h2 := len_sub a (a - b)
    rw [sub_add_cancel] at h1
    rw [sub_sub_cancel] at h2
    rw [abs_le]
    constructor <;> linarith
  constructor
  · intro h
    have h1 := product_error hr (δ := δ) (A := U0ᵀ) (B := Uᵀ) (by rw [frob_transpose, frob_orth h0])
      (by rw [← Matrix.transpose_sub, frob_transpose]; exact hδ) (x := fun v => x v j) (y := fun l => y l j) fun l => h l j
    refine ⟨h1, ?_⟩
    have := tri (fun l => y l j) (U0ᵀ *ᵥ fun v => x v j)
    rw [len_orthonormal hT] at this
    exact this.trans h1
  · intro h
    have h1 := product_error hr (A := U0) (B := U) (frob_orth h0) hδ (x := fun l => y l j) (y := fun v => x v j) fun v => h v j
    refine ⟨h1, ?_⟩
    have := tri (fun v => x v j) (U0 *ᵥ fun l => y l j)
    rw [len_orthonormal h0] at this
    exact this.trans h1

/-- **C143** `igft(gft(s))` and `gft(igft(s))` return `s` up to rounding. -/
theorem C143_roundtrip (hr : Rounds fl u) (h0 : U0ᵀ * U0 = 1) (hδ : √(∑ i, ∑ j, (U - U0) i j ^ 2) ≤ δ) {x y z : Fin n → Fin ns → ℝ} (j : Fin ns) :
    (GftFl fl U x y → IgftFl fl U y z → len (fun v => z v j - x v j) ≤ ((1 + transformError u δ n) ^ 2 - 1) * len fun v => x v j) ∧
    (IgftFl fl U x y → GftFl fl U y z → len (fun v => z v j - x v j) ≤ ((1 + transformError u δ n) ^ 2 - 1) * len fun v => x v j) := by
  have hT : U0ᵀᵀ * U0ᵀ = 1 := by rw [Matrix.transpose_transpose]; exact mul_eq_one_comm.1 h0
  have hη := transformError_nonneg hr.nonneg ((Real.sqrt_nonneg _).trans hδ) n
  set η := transformError u δ n
  have key : ∀ {V : Matrix (Fin n) (Fin n) ℝ}, Vᵀ * V = 1 → ∀ a b c : Fin n → ℝ, len (b - Vᵀ *ᵥ a) ≤ η * len a → len b ≤ (1 + η) * len a → len (c - V *ᵥ b) ≤ η * len b →
      len (c - a) ≤ ((1 + η) ^ 2 - 1) * len a := by
    intro V hV a b c h1 h2 h3
    have e : c - a = (c - V *ᵥ b) + V *ᵥ (b - Vᵀ *ᵥ a) := by
      rw [Matrix.mulVec_sub, Matrix.mulVec_mulVec, mul_eq_one_comm.1 hV, Matrix.one_mulVec]
      abel
    rw [e]
    have h4 := len_orthonormal hV (b - Vᵀ *ᵥ a)
    have h5 := mul_le_mul_of_nonneg_left h2 hη
    have h6 := len_add (c - V *ᵥ b) (V *ᵥ (b - Vᵀ *ᵥ a))
    rw [h4] at h6
    nlinarith
  constructor
  · intro h1 h2
    have a1 := (C143_transforms hr h0 hδ (x := x) (y := y) j).1 h1
    have a2 := (C143_transforms hr h0 hδ (x := z) (y := y) j).2 h2
    exact key h0 (fun v => x v j) (fun l => y l j) (fun v => z v j) a1.1 (by linarith [(abs_le.1 a1.2).2]) a2.1
  · intro h1 h2
    have a1 := (C143_transforms hr h0 hδ (x := y) (y := x) j).2 h1
    have a2 := (C143_transforms hr h0 hδ (x := y) (y := z) j).1 h2
    refine key hT (fun v => x v j) (fun l => y l j) (fun v => z v j) ?_ (by linarith [(abs_le.1 a1.2).2]) a2.1
    rw [Matrix.transpose_transpose]
    exact a1.1

end

namespace Rounding

theorem filter_error {u δ : ℝ} {fl : ℝ → ℝ} (hr : Rounds fl u) {U U0 : Matrix (Fin n) (Fin n) ℝ} (h0 : U0ᵀ * U0 = 1) (hδ : √(∑ i, ∑ j, (U - U0) i j ^ 2) ≤ δ) {ns q : ℕ}
    {r : Fin q → Fin n → ℝ} {x : Fin n → Fin ns → ℝ} {z : Fin n → Fin ns → Fin q → ℝ} (h : ExactFl fl U r x z) {i : Fin q} {φ : Fin n → ℝ} {κ B : ℝ} (hκ : ∀ l, |r i l - φ l| ≤ κ)
    (hB : ∀ l, |φ l| ≤ B) (hκ0 : 0 ≤ κ) (hB0 : 0 ≤ B) (j : Fin ns) :
    len (fun v => z v j i - (spectralOp U0 φ *ᵥ fun v => x v j) v) ≤ ((1 + transformError u δ n) ^ 2 * (1 + u) ^ 2 * (B + κ) - B) * len fun v => x v j := by
  obtain ⟨xh, w, h1, h2, h3⟩ := h
  have hη := transformError_nonneg hr.nonneg ((Real.sqrt_nonneg _).trans hδ) n
  set η := transformError u δ n
  obtain ⟨a1, a2⟩ := (C143_transforms hr h0 hδ (x := x) (y := xh) j).1 h1
  obtain ⟨a3, -⟩ := (C143_transforms hr h0 hδ (x := fun v j => z v j i) (y := fun l j => w l j i) j).2 (h3 i)
  set X := len fun v => x v j
  have hX : 0 ≤ X := len_nonneg _
  have hxh : len (fun l => xh l j) ≤ (1 + η) * X := by linarith [(abs_le.1 a2).2]
  have hu := hr.nonneg
  have hw : ∀ l, |w l j i - xh l j * r i l| ≤ ((1 + u) ^ 2 - 1) * (|xh l j| * |r i l|) := fun l => by
    have := (dotAny_near hr (h2 l j i)).2.1
    simpa using this
  have hri : ∀ l, |r i l| ≤ B + κ := fun l => by
    have := abs_sub_abs_le_abs_sub (r i l) (φ l)
    linarith [hκ l, hB l]
  have hg : 0 ≤ (1 + u) ^ 2 - 1 := by nlinarith
  -- the product with the responses
  have e1 : len (fun l => w l j i - xh l j * φ l) ≤ (((1 + u) ^ 2 - 1) * (B + κ) + κ) * ((1 + η) * X) := by
    refine le_trans ?_ (mul_le_mul_of_nonneg_left hxh (by positivity))
    have hc : 0 ≤ ((1 + u) ^ 2 - 1) * (B + κ) + κ := by positivity
    rw [← abs_of_nonneg hc, ← len_smul]
    refine len_mono fun l => ?_
    rw [Pi.smul_apply, smul_eq_mul, abs_mul, abs_of_nonneg hc]
    have t1 : w l j i - xh l j * φ l = (w l j i - xh l j * r i l) + xh l j * (r i l - φ l) := by ring
    rw [t1]
    refine (abs_add_le _ _).trans ?_
    rw [abs_mul]
    have t2 := mul_le_mul_of_nonneg_left (hκ l) (abs_nonneg (xh l j))
    have t3 := mul_le_mul_of_nonneg_left (mul_le_mul_of_nonneg_left (hri l) (abs_nonneg (xh l j))) hg
    have t4 := hw l
    linarith
  have e2 : len (fun l => w l j i) ≤ (1 + u) ^ 2 * (B + κ) * ((1 + η) * X) := by
    refine le_trans ?_ (mul_le_mul_of_nonneg_left hxh (by positivity))
    have hc : 0 ≤ (1 + u) ^ 2 * (B + κ) := by positivity
    rw [← abs_of_nonneg hc, ← len_smul]
    refine len_mono fun l => ?_
    rw [Pi.smul_apply, smul_eq_mul, abs_mul, abs_of_nonneg hc]
    have t1 := abs_sub_abs_le_abs_sub (w l j i) (xh l j * r i l)
    rw [abs_mul] at t1
    have t3 := mul_le_mul_of_nonneg_left (mul_le_mul_of_nonneg_left (hri l) (abs_nonneg (xh l j))) (show 0 ≤ (1 + u) ^ 2 by positivity)
    have t4 := hw l
    linarith
  have e3 : len (fun l => φ l * (xh l j - ∑ v, U0 v l * x v j)) ≤ B * (η * X) := by
    refine le_trans ?_ (mul_le_mul_of_nonneg_left a1 hB0)
    rw [← abs_of_nonneg hB0, ← len_smul]
    refine len_mono fun l => ?_
    rw [Pi.smul_apply, smul_eq_mul, abs_mul, abs_mul, abs_of_nonneg hB0]
    exact mul_le_mul_of_nonneg_right (hB l) (abs_nonneg _)
  have e4 : len (U0 *ᵥ ((fun l => w l j i - xh l j * φ l) + fun l => φ l * (xh l j - ∑ v, U0 v l * x v j))) ≤ (((1 + u) ^ 2 - 1) * (B + κ) + κ) * ((1 + η) * X) + B * (η * X) := by
    rw [len_orthonormal h0]
    exact (len_add _ _).trans (add_le_add e1 e3)
  have e5 := a3.trans (mul_le_mul_of_nonneg_left e2 hη)
  have split : (fun v => z v j i - (spectralOp U0 φ *ᵥ fun v => x v j) v) = (fun v => z v j i - ∑ l, U0 v l * w l j i) +
      U0 *ᵥ ((fun l => w l j i - xh l j * φ l) + fun l => φ l * (xh l j - ∑ v, U0 v l * x v j)) := by
    have t1 : (spectralOp U0 φ *ᵥ fun v => x v j) = U0 *ᵥ fun l => φ l * ∑ v, U0 v l * x v j := by
      unfold spectralOp
      rw [← Matrix.mulVec_mulVec, ← Matrix.mulVec_mulVec]
      congr 1
      funext l
      rw [Matrix.mulVec_diagonal]
      simp only [Matrix.mulVec, dotProduct, Matrix.transpose_apply]
    have t2 : ((fun l => w l j i - xh l j * φ l) + fun l => φ l * (xh l j - ∑ v, U0 v l * x v j)) = (fun l => w l j i) - fun l => φ l * ∑ v, U0 v l * x v j := by
      funext l
      simp only [Pi.add_apply, Pi.sub_apply]
      ring
    rw [t1, t2, Matrix.mulVec_sub]
    funext v
    simp only [Pi.add_apply, Pi.sub_apply]
    simp only [Matrix.mulVec, dotProduct]
    ring
  rw [split]
  refine (len_add _ _).trans ((add_le_add e5 e4).trans (le_of_eq ?_))
  ring

end Rounding

/-- **C143** With exact arithmetic the relation is the program of the other theorems. -/
theorem C143_exact (S : Solvers n) (hn : 0 < n) {f : Bank} {s s' : GState n} {e : Fin n → ℝ} {U : Matrix (Fin n) (Fin n) ℝ} (hb : s.getBasis S = (.ok (some ⟨n, e, U⟩), s'))
    {r : Fin f.Nf → Fin n → ℝ} (hr : f.evaluate e = .ok r) {ns : ℕ} (x : Fin n → Fin ns → ℝ) (z : Fin n → Fin ns → Fin f.Nf → ℝ) :
    ExactFl (fun x => x) U r x z ↔ (f.exactAnalysis S x s).1 = .ok z := by
  rw [exactAnalysis_eq f hb rfl hr x]
  have key : ∀ v j i, (spectralOp U (r i) * Matrix.of x) v j = ∑ l, U v l * ((∑ a, U a l * x a j) * r i l) := fun v j i => by
    unfold spectralOp
    rw [Matrix.mul_assoc, Matrix.mul_apply]
    refine Finset.sum_congr rfl fun l _ => ?_
    rw [Matrix.mul_diagonal, Matrix.mul_apply]
    simp only [Matrix.transpose_apply, Matrix.of_apply]
    ring
  have hne : (Finset.univ : Finset (Fin n)).Nonempty := ⟨⟨0, hn⟩, Finset.mem_univ _⟩
  have all : ∀ {ι : Type} [DecidableEq ι] (a y : ι → ℝ) (s : Finset ι), s.Nonempty → DotAny (fun x => x) a y s (∑ i ∈ s, a i * y i) := by
    intro ι _ a y s hs
    obtain ⟨t, ht⟩ := dotAny_exists (fun x => x) a y s hs
    rwa [← dotAny_exact ht]
  constructor
  · rintro ⟨xh, w, h1, h2, h3⟩
    refine congrArg Except.ok ?_
    funext v j i
    have h4 : z v j i = _ := dotAny_exact (h3 i v j)
    rw [key, h4]
    refine Finset.sum_congr rfl fun l _ => ?_
    have h5 : w l j i = _ := dotAny_exact (h2 l j i)
    have h6 : xh l j = _ := dotAny_exact (h1 l j)
    dsimp only
    rw [h5, h6]
    simp
  · intro h
    have h := Except.ok.inj h
    refine ⟨fun l j => ∑ v, U v l * x v j, fun l j i => (∑ v, U v l * x v j) * r i l, fun l j => all _ _ _ hne, fun l j i => ?_, fun i v j => ?_⟩
    · have := all (fun _ : Fin 1 => ∑ v, U v l * x v j) (fun _ => r i l) Finset.univ ⟨0, Finset.mem_univ _⟩
      simpa using this
    · rw [← h]
      simp only [key]
      exact all _ _ _ hne

open Classical in
/-- **C143** Filtering with the exact method in floating-point arithmetic, on a computed eigendecomposition that is backward stable: the result is within a multiple of the norm of the signal
of the exact result, where the eigendecomposition costs `K * ε` for a `K`-Lipschitz kernel, the computed responses their error `κ`, and the arithmetic `transformError` twice. -/
theorem C143_filter {u ε δ : ℝ} {fl : ℝ → ℝ} (hr : Rounds fl u) {S : Solvers n} {g : Graph n ℝ} {s : GState n} (h : Ready S g s) {e : Fin n → ℝ} {U : Matrix (Fin n) (Fin n) ℝ}
    (hst : Stable ε δ s.L e U) {f : Bank} {A : Set ℝ} (hA : ∀ t, IsEigenvalue s.L t → t ∈ A) (he : ∀ l, e l ∈ A) {φ : Fin f.Nf → ℝ → ℝ}
    (hf : ∀ (k : ℕ) (x : Fin k → ℝ), 0 < k → (∀ j, x j ∈ A) → f.evaluate x = .ok fun i j => φ i (x j)) {K B κ : ℝ} (hK : 0 ≤ K)
    (hlip : ∀ i, ∀ a ∈ A, ∀ b ∈ A, |φ i a - φ i b| ≤ K * |a - b|) (hB : ∀ i, ∀ a ∈ A, |φ i a| ≤ B) {r : Fin f.Nf → Fin n → ℝ} (hκ : ∀ i l, |r i l - φ i (e l)| ≤ κ)
    (order : ℕ) (x : Fin n → ℝ) {z : Fin n → Fin 1 → Fin f.Nf → ℝ} (hz : ExactFl fl U r (fun v _ => x v) z) :
    ∃ y : Fin n → Fin 1 → Fin f.Nf → ℝ, (f.filter S (Arr.of1 x) .exact order s).1 = .ok (Arr.of3 y).squeeze ∧
      ∀ i, len (fun v => z v 0 i - y v 0 i) ≤ ((1 + transformError u δ n) ^ 2 * (1 + u) ^ 2 * (B + κ) - B + K * ε) * len x := by
  obtain ⟨e', U', b1, b2⟩ := h.basis
  have hA1 : ∀ j, e' j ∈ A := fun j => hA _ (b2.isEigenvalue j)
  obtain ⟨hε, hδ, U0, h0, hL, hU⟩ := hst
  refine ⟨_, C28_one_signal S f s _ b1 rfl _ (hf n e' h.pos hA1) order x, fun i => ?_⟩
  have hκ0 : 0 ≤ κ := (abs_nonneg _).trans (hκ i ⟨0, h.pos⟩)
  have hB0 : 0 ≤ B := (abs_nonneg _).trans (hB i _ (he ⟨0, h.pos⟩))
  have h1 := filter_error hr h0 hU hz (i := i) (φ := fun l => φ i (e l)) (hκ i) (fun l => hB i _ (he l)) hκ0 hB0 0
  have hp : IsEigenPairs (U0 * Matrix.diagonal e * U0ᵀ) e U0 := ⟨h0, by rw [Matrix.mul_assoc, h0, Matrix.mul_one]⟩
  have h2 := outputs_diff hp b2 hK (fun a b => hlip i _ (he a) _ (hA1 b)) le_rfl (ψ := φ i) (fun j => by rw [sub_self, abs_zero]) hL x
  rw [add_zero] at h2
  have h3 := len_add (fun v => z v 0 i - (spectralOp U0 (fun l => φ i (e l)) *ᵥ x) v) (fun v => (spectralOp U0 (fun l => φ i (e l)) *ᵥ x) v - (spectralOp U' (fun j => φ i (e' j)) *ᵥ x) v)
  have e1 : ((fun v => z v 0 i - (spectralOp U0 (fun l => φ i (e l)) *ᵥ x) v) + fun v => (spectralOp U0 (fun l => φ i (e l)) *ᵥ x) v - (spectralOp U' (fun j => φ i (e' j)) *ᵥ x) v) =
      fun v => z v 0 i - (spectralOp U' (fun j => φ i (e' j)) *ᵥ x) v := by
    funext v
    simp only [Pi.add_apply]
    ring
  rw [e1] at h3
  refine h3.trans ((add_le_add h1 h2).trans (le_of_eq ?_))
  unfold len
  ring

/-- the hypotheses are met: the cycle of `cycle_witness` in double precision, with the entries of the eigenvectors and the responses rounded -/
example : ∃ (S : Solvers 4) (g : Graph 4 ℝ) (s : GState 4) (e : Fin 4 → ℝ) (U : Matrix (Fin 4) (Fin 4) ℝ) (r : Fin 1 → Fin 4 → ℝ), Ready S g s ∧
    Stable 0 (2 ^ (-(53 : ℤ)) * 2) s.L e U ∧ (∀ t, IsEigenvalue s.L t → t ∈ Set.Icc (0 : ℝ) 4) ∧ (∀ l, e l ∈ Set.Icc (0 : ℝ) 4) ∧
    (∀ (k : ℕ) (x : Fin k → ℝ), 0 < k → (∀ j, x j ∈ Set.Icc (0 : ℝ) 4) → (Bank.ofArg (.one (Kernel.pointwise fun t => 3 * t))).evaluate x = .ok fun _ j => 3 * x j) ∧
    (∀ a ∈ Set.Icc (0 : ℝ) 4, |3 * a| ≤ 12) ∧ (∀ i l, |r i l - 3 * e l| ≤ 2 ^ (-(53 : ℤ)) * 12) ∧ Rounds (nearest 53) ((2 : ℝ) ^ (-(53 : ℤ))) ∧
    ∀ x : Fin 4 → ℝ, ∃ z : Fin 4 → Fin 1 → Fin 1 → ℝ, ExactFl (nearest 53) U r (fun v _ => x v) z := by
  obtain ⟨S, g, s, h, hc, hl, hup, hm, -, -, -, -, -, hr, h4, -, hsm, -⟩ := cycle_witness
  obtain ⟨e, U0, -, hE⟩ := h.basis
  have hmem : ∀ t, IsEigenvalue s.L t → t ∈ Set.Icc (0 : ℝ) 4 := fun t ht => ⟨h.eig_nonneg ht, hup t ht⟩
  have he : ∀ l, e l ∈ Set.Icc (0 : ℝ) 4 := fun l => hmem _ (hE.isEigenvalue l)
  have hu : (0 : ℝ) ≤ 2 ^ (-(53 : ℤ)) := by positivity
  refine ⟨S, g, s, e, Matrix.of fun v l => nearest 53 (U0 v l), fun _ l => nearest 53 (3 * e l), h, ⟨le_rfl, by positivity, U0, hE.orthonormal, ?_, ?_⟩, hmem, he, ?_, ?_, ?_, hr, ?_⟩
  · rw [← hE.eig, Matrix.mul_assoc, mul_eq_one_comm.1 hE.orthonormal, Matrix.mul_one]
    simp
  · have h1 : √(∑ i, ∑ j, (2 ^ (-(53 : ℤ)) * U0 i j) ^ 2) = 2 ^ (-(53 : ℤ)) * 2 := by
      have h2 := frob_orth hE.orthonormal
      unfold frob at h2
      simp only [mul_pow, ← Finset.mul_sum]
      rw [h2, Real.sqrt_mul (sq_nonneg _), Real.sqrt_sq hu, show ((4 : ℕ) : ℝ) = 2 ^ 2 by norm_num, Real.sqrt_sq (by norm_num)]
    rw [← h1]
    refine Real.sqrt_le_sqrt (Finset.sum_le_sum fun i _ => Finset.sum_le_sum fun j _ => ?_)
    rw [Matrix.sub_apply, Matrix.of_apply, ← sq_abs, ← sq_abs (_ * _), abs_mul, abs_of_nonneg hu]
    exact pow_le_pow_left₀ (abs_nonneg _) (hr.err _) 2
  · intro k x hk _
    have hp : (Bank.ofArg (.one (Kernel.pointwise fun t => 3 * t))).IsPointwise fun _ t => 3 * t := fun i => by
      change Fin 1 at i
      fin_cases i
      rfl
    exact hp.evaluate x
  · intro a ha
    rw [abs_of_nonneg (by linarith [ha.1])]
    linarith [ha.2]
  · intro i l
    refine (hr.err _).trans (mul_le_mul_of_nonneg_left ?_ hu)
    rw [abs_of_nonneg (by linarith [(he l).1])]
    linarith [(he l).2]
  · intro x
    have hne : (Finset.univ : Finset (Fin 4)).Nonempty := ⟨0, Finset.mem_univ _⟩
    choose xh hxh using fun l (j : Fin 1) => dotAny_exists (nearest 53) (fun v => nearest 53 (U0 v l)) (fun v => x v) Finset.univ hne
    choose w hw using fun l j (i : Fin 1) => dotAny_exists (nearest 53) (fun _ : Fin 1 => xh l j) (fun _ => nearest 53 (3 * e l)) Finset.univ ⟨0, Finset.mem_univ _⟩
    choose z hz using fun v j (i : Fin 1) => dotAny_exists (nearest 53) (fun l => nearest 53 (U0 v l)) (fun l => w l j i) Finset.univ hne
    exact ⟨z, xh, w, hxh, hw, fun i v j => hz v j i⟩

end PyGSP
