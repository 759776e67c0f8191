import Verif.Props.HeatFlow
import Verif.Props.Localisation
import Mathlib.Analysis.SpecialFunctions.Trigonometric.Chebyshev.Basic

/-!
# C127: waves on a graph

`s` is a graph object on which `compute_fourier_basis()` has been called: `s.basis = some ⟨n, e, U⟩`, and no frequency exceeds the `lmax` of the filter.
`Waved S s lmax c x t y` says that `Wave(g, time=t, speed=c)` is accepted and that its `filter(x, method='exact')` returns `y`.
-/

namespace PyGSP.Spec

open GState Design

/-- `Wave(g, time=t, speed=c).filter(x, method='exact')` returns `y`. -/
def Waved {n : ℕ} (S : Solvers n) (s : GState n) (lmax c : ℝ) (x : Fin n → ℝ) (t : ℝ) (y : Fin n → ℝ) : Prop :=
  ∃ f, wave lmax [t] [c] = .ok f ∧ ∀ order, (f.filter S (Arr.of1 x) .exact order s).1 = .ok (Arr.of1 y)

end PyGSP.Spec

namespace PyGSP

open Matrix Spec GState Real Filter Topology Heat Design

variable {n : ℕ} {S : Solvers n} {g : Graph n ℝ} {s : GState n} {e : Fin n → ℝ} {U : Matrix (Fin n) (Fin n) ℝ} {lmax c : ℝ}

namespace Wave

/-- the phase advance of a mode in a unit of time -/
noncomputable def phase (lmax c : ℝ) (e : Fin n → ℝ) (k : Fin n) : ℝ := arccos (1 - c ^ 2 * e k / lmax / 2)

/-- the wave operator -/
noncomputable def wop (lmax c : ℝ) (e : Fin n → ℝ) (U : Matrix (Fin n) (Fin n) ℝ) (t : ℝ) : Matrix (Fin n) (Fin n) ℝ :=
  spectralOp U fun k => cos (t * phase lmax c e k)

theorem cos_phase (hl : 0 < lmax) (hc : |c| < 2) (h0 : ∀ k, 0 ≤ e k) (h1 : ∀ k, e k ≤ lmax) (k : Fin n) : cos (phase lmax c e k) = 1 - c ^ 2 * e k / lmax / 2 := by
  obtain ⟨-, h2, h3⟩ := waveKernel_ok hl 0 hc.le (h0 k) (h1 k)
  exact cos_arccos h2 h3

theorem waved (h : Ready S g s) (hn : 2 ≤ n) (hb : s.basis = some ⟨n, e, U⟩) (hl : 0 < lmax) (hm : ∀ k, e k ≤ lmax) (hc : |c| < 2) (t : ℝ) (x : Fin n → ℝ) :
    Waved S s lmax c x t (wop lmax c e U t *ᵥ x) := by
  have hE := (h.pairs hb).1
  obtain ⟨hist, hs⟩ := h.reached
  obtain ⟨e', U', -, -, hg, hf⟩ := single_setup h.sound h.built hist hs h.nonneg hn h.known h.complete
  rw [getBasis_of hb] at hg
  simp only [Except.ok.injEq, Option.some.injEq, Basis.mk.injEq, heq_eq_eq, true_and] at hg
  obtain ⟨rfl, rfl⟩ := hg
  have hw : wave lmax [t] [c] = .ok (Bank.ofArg (.one (Kernel.orNaN (waveKernel lmax t c)))) := by
    have : ¬ (2 ≤ c) := not_le.2 (abs_lt.1 hc).2
    unfold wave broadcast
    simp [this]
    rfl
  have hv : Kernel.orNaN (waveKernel lmax t c) n e = .ok fun j => cos (t * phase lmax c e j) :=
    orNaN_ok fun j => (waveKernel_ok hl t hc.le (h.eig_nonneg (hE.isEigenvalue j)) (hm j)).1
  exact ⟨_, hw, fun order => congrArg Prod.fst (hf _ _ hv order x s (.inl rfl))⟩

theorem waved_iff (h : Ready S g s) (hn : 2 ≤ n) (hb : s.basis = some ⟨n, e, U⟩) (hl : 0 < lmax) (hm : ∀ k, e k ≤ lmax) (hc : |c| < 2) (t : ℝ) (x y : Fin n → ℝ) :
    Waved S s lmax c x t y ↔ y = wop lmax c e U t *ᵥ x := by
  constructor
  · rintro ⟨f, hf, hy⟩
    obtain ⟨f', hf', hy'⟩ := waved h hn hb hl hm hc t x
    obtain rfl : f = f' := Except.ok.inj (hf.symm.trans hf')
    have := (hy' 0).symm.trans (hy 0)
    funext v
    have h1 := congrFun (congrArg Arr.val (Except.ok.inj this)) [v.1]
    simp only [Arr.of1, v.isLt, dite_true, Fin.eta] at h1
    exact h1.symm
  · rintro rfl
    exact waved h hn hb hl hm hc t x

theorem coord_wop {L : Matrix (Fin n) (Fin n) ℝ} (hE : IsEigenPairs L e U) (t : ℝ) (x : Fin n → ℝ) (k : Fin n) :
    (Uᵀ *ᵥ (wop lmax c e U t *ᵥ x)) k = cos (t * phase lmax c e k) * (Uᵀ *ᵥ x) k := by
  unfold wop spectralOp
  rw [Matrix.mulVec_mulVec, ← Matrix.mul_assoc, ← Matrix.mul_assoc, hE.orthonormal, Matrix.one_mul, ← Matrix.mulVec_mulVec, Matrix.mulVec_diagonal]

/-- two signals with the same transform are equal -/
theorem ext_coord {L : Matrix (Fin n) (Fin n) ℝ} (hE : IsEigenPairs L e U) {x y : Fin n → ℝ} (hxy : ∀ k, (Uᵀ *ᵥ x) k = (Uᵀ *ᵥ y) k) : x = y := by
  rw [← IsEigenPairs.coord hE x, ← IsEigenPairs.coord hE y, funext hxy]

theorem coord_lap {L : Matrix (Fin n) (Fin n) ℝ} (hE : IsEigenPairs L e U) (x : Fin n → ℝ) (k : Fin n) : (Uᵀ *ᵥ (L *ᵥ x)) k = e k * (Uᵀ *ᵥ x) k := by
  rw [lap_eq hE]
  unfold spectralOp
  rw [Matrix.mulVec_mulVec, ← Matrix.mul_assoc, ← Matrix.mul_assoc, hE.orthonormal, Matrix.one_mul, ← Matrix.mulVec_mulVec, Matrix.mulVec_diagonal]

theorem dot_coord {L : Matrix (Fin n) (Fin n) ℝ} (hE : IsEigenPairs L e U) (x y : Fin n → ℝ) : x ⬝ᵥ y = ∑ k, (Uᵀ *ᵥ x) k * (Uᵀ *ᵥ y) k := by
  have : (Uᵀ *ᵥ x) ⬝ᵥ (Uᵀ *ᵥ y) = x ⬝ᵥ (U *ᵥ (Uᵀ *ᵥ y)) := by
    rw [Matrix.dotProduct_mulVec x U, ← Matrix.mulVec_transpose]
  rw [IsEigenPairs.coord hE] at this
  exact this.symm

end Wave

open Wave

/-- **C127** The wave exists at every time, starts from the signal, is the same forwards and backwards, is never larger than the signal, and moves by the discretised
wave equation. -/
theorem C127_wave (h : Ready S g s) (hn : 2 ≤ n) (hb : s.basis = some ⟨n, e, U⟩) (hl : 0 < lmax) (hm : ∀ k, e k ≤ lmax) (hc : |c| < 2) (x : Fin n → ℝ) :
    ∃ y : ℝ → Fin n → ℝ, (∀ t, Waved S s lmax c x t (y t)) ∧ y 0 = x ∧ (∀ t, y (-t) = y t) ∧ (∀ t, ∑ v, y t v ^ 2 ≤ ∑ v, x v ^ 2) ∧
      ∀ t, y (t + 1) = (2 : ℝ) • y t - y (t - 1) - (c ^ 2 / lmax) • (s.L *ᵥ y t) := by
  have hE := (h.pairs hb).1
  have hcp := cos_phase hl hc (fun k => h.eig_nonneg (hE.isEigenvalue k)) hm
  refine ⟨fun t => wop lmax c e U t *ᵥ x, fun t => waved h hn hb hl hm hc t x, ?_, fun t => ?_, fun t => ?_, fun t => ?_⟩
  · refine ext_coord hE fun k => ?_
    rw [coord_wop hE, zero_mul, cos_zero, one_mul]
  · refine ext_coord hE fun k => ?_
    rw [coord_wop hE, coord_wop hE, neg_mul, cos_neg]
  · rw [← energy_gft hE.orthonormal, ← energy_gft hE.orthonormal x]
    refine Finset.sum_le_sum fun k _ => ?_
    rw [coord_wop hE, mul_pow]
    exact mul_le_of_le_one_left (sq_nonneg _) (cos_sq_le_one _)
  · refine ext_coord hE fun k => ?_
    simp only [Matrix.mulVec_sub, Matrix.mulVec_smul, Pi.sub_apply, Pi.smul_apply, coord_wop hE, coord_lap hE, smul_eq_mul]
    have hk := hcp k
    generalize phase lmax c e k = θ at hk ⊢
    rw [show (t + 1) * θ = t * θ + θ by ring, show (t - 1) * θ = t * θ - θ by ring, cos_add, cos_sub, hk]
    ring

/-- **C127** Waves superpose: letting the wave at time `t` propagate during `u` gives the mean of the waves at times `t + u` and `t - u`. -/
theorem C127_superposition (h : Ready S g s) (hn : 2 ≤ n) (hb : s.basis = some ⟨n, e, U⟩) (hl : 0 < lmax) (hm : ∀ k, e k ≤ lmax) (hc : |c| < 2) {t u : ℝ}
    {x y z p q : Fin n → ℝ} (hy : Waved S s lmax c x t y) (hz : Waved S s lmax c y u z) (hp : Waved S s lmax c x (t + u) p) (hq : Waved S s lmax c x (t - u) q) (v : Fin n) :
    z v = (p v + q v) / 2 := by
  have hE := (h.pairs hb).1
  rw [waved_iff h hn hb hl hm hc] at hy hz hp hq
  have : (2 : ℝ) • z = p + q := by
    refine ext_coord hE fun k => ?_
    rw [Matrix.mulVec_smul, Matrix.mulVec_add, hz, hy, hp, hq]
    simp only [Pi.smul_apply, Pi.add_apply, coord_wop hE, smul_eq_mul]
    rw [add_mul, sub_mul, cos_add, cos_sub]
    ring
  have h1 := congrFun this v
  simp only [Pi.smul_apply, Pi.add_apply, smul_eq_mul] at h1
  linarith

/-- **C127** The energy is conserved: `‖y(t+1) - y(t)‖² + c² / lmax ⟨y(t+1), L y(t)⟩` does not depend on the time. -/
theorem C127_energy (h : Ready S g s) (hn : 2 ≤ n) (hb : s.basis = some ⟨n, e, U⟩) (hl : 0 < lmax) (hm : ∀ k, e k ≤ lmax) (hc : |c| < 2) {x : Fin n → ℝ}
    {y : ℝ → Fin n → ℝ} (hy : ∀ t, Waved S s lmax c x t (y t)) (t u : ℝ) :
    ∑ v, (y (t + 1) v - y t v) ^ 2 + c ^ 2 / lmax * (y (t + 1) ⬝ᵥ (s.L *ᵥ y t)) =
      ∑ v, (y (u + 1) v - y u v) ^ 2 + c ^ 2 / lmax * (y (u + 1) ⬝ᵥ (s.L *ᵥ y u)) := by
  have hE := (h.pairs hb).1
  have hcp := cos_phase hl hc (fun k => h.eig_nonneg (hE.isEigenvalue k)) hm
  have key : ∀ t, ∑ v, (y (t + 1) v - y t v) ^ 2 + c ^ 2 / lmax * (y (t + 1) ⬝ᵥ (s.L *ᵥ y t)) = ∑ k, sin (phase lmax c e k) ^ 2 * (Uᵀ *ᵥ x) k ^ 2 := by
    intro t
    have h1 := (waved_iff h hn hb hl hm hc _ _ _).1 (hy t)
    have h2 := (waved_iff h hn hb hl hm hc _ _ _).1 (hy (t + 1))
    have h3 := energy_gft hE.orthonormal (y (t + 1) - y t)
    simp only [Pi.sub_apply] at h3
    rw [← h3, dot_coord hE, Finset.mul_sum, ← Finset.sum_add_distrib]
    refine Finset.sum_congr rfl fun k _ => ?_
    rw [Matrix.mulVec_sub, Pi.sub_apply, coord_lap hE, h1, h2, coord_wop hE, coord_wop hE]
    have hk := hcp k
    have hs : c ^ 2 / lmax * e k = 2 - 2 * cos (phase lmax c e k) := by rw [hk]; ring
    generalize phase lmax c e k = θ at hk hs ⊢
    generalize (Uᵀ *ᵥ x) k = X
    have e1 : c ^ 2 / lmax * (cos ((t + 1) * θ) * X * (e k * (cos (t * θ) * X))) = (c ^ 2 / lmax * e k) * (cos ((t + 1) * θ) * X * (cos (t * θ) * X)) := by ring
    rw [e1, hs, show (t + 1) * θ = t * θ + θ by ring, cos_add]
    have s1 := sin_sq_add_cos_sq θ
    have s2 := sin_sq_add_cos_sq (t * θ)
    generalize sin θ = a at *
    generalize cos θ = b at *
    generalize sin (t * θ) = p at *
    generalize cos (t * θ) = q at *
    have : a ^ 2 * X ^ 2 = (p ^ 2 + q ^ 2) * a ^ 2 * X ^ 2 := by rw [s2, one_mul]
    rw [this]
    have hb2 : q ^ 2 * b ^ 2 * X ^ 2 = q ^ 2 * (1 - a ^ 2) * X ^ 2 := by rw [show b ^ 2 = 1 - a ^ 2 by linarith]
    nlinarith
  rw [key t, key u]

/-- **C127** The wave keeps the sum of the signal (combinatorial Laplacian). -/
theorem C127_mass (h : Ready S g s) (hlt : s.lapType = .combinatorial) (hn : 2 ≤ n) (hb : s.basis = some ⟨n, e, U⟩) (hl : 0 < lmax) (hm : ∀ k, e k ≤ lmax) (hc : |c| < 2) {t : ℝ}
    {x y : Fin n → ℝ} (hy : Waved S s lmax c x t y) : ∑ v, y v = ∑ v, x v := by
  have hE := (h.pairs hb).1
  rw [waved_iff h hn hb hl hm hc] at hy
  rw [h.comb hlt] at hE
  subst hy
  unfold wop phase
  rw [spectralOp_mass hE (fun l => cos (t * arccos (1 - c ^ 2 * l / lmax / 2)))]
  simp

/-- **C127** Finite speed: at the integer time `T` the wave has moved by at most `|T|` hops — it is exactly zero farther than `|T|` hops from the support of the
signal: both Laplacians. -/
theorem C127_finite_speed (h : Ready S g s) (hn : 2 ≤ n) (hb : s.basis = some ⟨n, e, U⟩) (hl : 0 < lmax) (hm : ∀ k, e k ≤ lmax) (hc : |c| < 2) {T : ℤ}
    {x y : Fin n → ℝ} (hy : Waved S s lmax c x T y) {v : Fin n} (hv : FarFrom g.W.dense T.natAbs x v) : y v = 0 := by
  classical
  have hE := (h.pairs hb).1
  have hcp := cos_phase hl hc (fun k => h.eig_nonneg (hE.isEigenvalue k)) hm
  rw [waved_iff h hn hb hl hm hc] at hy
  set p : Polynomial ℝ := (Polynomial.Chebyshev.T ℝ T).comp (Polynomial.C 1 - Polynomial.C (c ^ 2 / lmax / 2) * Polynomial.X) with hp
  have hdeg : p.natDegree ≤ T.natAbs := by
    refine Polynomial.natDegree_comp_le.trans ?_
    rw [Polynomial.Chebyshev.natDegree_T]
    refine (Nat.mul_le_mul_left _ ?_).trans_eq (Nat.mul_one _)
    refine (Polynomial.natDegree_sub_le _ _).trans (max_le (by simp) ?_)
    exact (Polynomial.natDegree_C_mul_le _ _).trans Polynomial.natDegree_X_le
  have hev : ∀ k, |cos (T * phase lmax c e k) - p.eval (e k)| ≤ 0 := by
    intro k
    have : p.eval (e k) = (Polynomial.Chebyshev.T ℝ T).eval (cos (phase lmax c e k)) := by
      rw [hp, Polynomial.eval_comp, hcp k]
      congr 1
      simp
      ring
    rw [this, Polynomial.Chebyshev.T_real_cos, sub_self, abs_zero]
  have h1 := Locality.spread h hE (fun k => cos (T * phase lmax c e k)) hdeg hev x
  have h2 : (U *ᵥ fun k => cos (T * phase lmax c e k) * (Uᵀ *ᵥ x) k) = y := by
    rw [hy]
    refine ext_coord hE fun k => ?_
    rw [coord_wop hE, Matrix.mulVec_mulVec, hE.orthonormal, Matrix.one_mulVec]
  rw [h2] at h1
  have h3 : ∑ v with FarFrom g.W.dense T.natAbs x v, y v ^ 2 = 0 := le_antisymm (by simpa using h1) (Finset.sum_nonneg fun _ _ => sq_nonneg _)
  have h4 := (Finset.sum_eq_zero_iff_of_nonneg fun _ _ => sq_nonneg _).1 h3 v (Finset.mem_filter.2 ⟨Finset.mem_univ v, hv⟩)
  exact sq_eq_zero_iff.1 h4

/-- The hypotheses are met: the path on four vertices, an impulse at its first vertex; two hops do not reach the last one. -/
example : ∃ (S : Solvers 4) (g : Graph 4 ℝ) (s : GState 4) (e : Fin 4 → ℝ) (U : Matrix (Fin 4) (Fin 4) ℝ) (lmax : ℝ) (y : ℝ → Fin 4 → ℝ),
    g.W.dense = path4 ∧ Ready S g s ∧ s.lapType = .combinatorial ∧ s.basis = some ⟨4, e, U⟩ ∧ 0 < lmax ∧ (∀ k, e k ≤ lmax) ∧
    (∀ t, Waved S s lmax 1 (Pi.single 0 1) t (y t)) ∧ FarFrom g.W.dense 2 (Pi.single 0 1) 3 := by
  obtain ⟨S, g, s, hd, hr, hl, -⟩ := exists_ready path4 path4_nonneg (by norm_num)
  obtain ⟨e, U, -, h2, h3, -, h5, -⟩ := C113_computed hr
  have hE := (h2.pairs h3).1
  have h0 : ∀ k, 0 ≤ e k := fun k => h2.eig_nonneg (hE.isEigenvalue k)
  have hm : ∀ k, e k ≤ ∑ j, e j + 1 := fun k => by
    have := Finset.single_le_sum (f := e) (fun i _ => h0 i) (Finset.mem_univ k)
    linarith
  have hp : 0 < ∑ j, e j + 1 := by
    have := Finset.sum_nonneg fun i (_ : i ∈ Finset.univ) => h0 i
    linarith
  refine ⟨S, g, _, e, U, _, fun t => wop _ 1 e U t *ᵥ Pi.single 0 1, hd, h2, by rw [h5, hl], h3, hp, hm,
    fun t => waved h2 (by norm_num) h3 hp hm (by norm_num) t _, ?_⟩
  intro w hw
  have : w = 0 := by
    by_contra hne
    exact hw (by rw [Pi.single_apply, if_neg hne])
  subst this
  rw [hd]
  rintro ⟨a, h1, b, h2, h3⟩
  have h3' : b = 0 := h3
  subst h3'
  revert h1 h2
  fin_cases a <;> simp [path4]

end PyGSP
