import Verif.Lemmas.Heat
import Verif.Props.Bottleneck
import Verif.Props.Diffusion
import Verif.Props.Frequency
import Mathlib.Analysis.Calculus.Deriv.MeanValue

/-!
# C126: diffusion by the heat filter is the heat equation on the graph

`s` is a graph object on which `compute_fourier_basis()` has been called: `s.basis = some ⟨n, e, U⟩`.  `Diffused S s lmax x a y` says that
`Heat(g, scale=a).filter(x, method='exact')` returns `y`, where `lmax` is the value `g.lmax` had when the filter was made.
-/

namespace PyGSP.Spec

open GState Design

/-- `Heat(g, scale=a).filter(x, method='exact')` returns `y`. -/
def Diffused {n : ℕ} (S : Solvers n) (s : GState n) (lmax : ℝ) (x : Fin n → ℝ) (a : ℝ) (y : Fin n → ℝ) : Prop :=
  ∀ order, ((heat lmax [a] none).filter S (Arr.of1 x) .exact order s).1 = .ok (Arr.of1 y)

end PyGSP.Spec

namespace PyGSP

open Matrix Spec GState Real Filter Topology Heat Design

variable {n : ℕ} {S : Solvers n} {g : Graph n ℝ} {s : GState n} {e : Fin n → ℝ} {U : Matrix (Fin n) (Fin n) ℝ} {lmax : ℝ}

namespace Heat

theorem diffused (h : Ready S g s) (hn : 2 ≤ n) (hb : s.basis = some ⟨n, e, U⟩) (hl : 0 < lmax) {a : ℝ} (ha : 0 ≤ a) (x : Fin n → ℝ) :
    Diffused S s lmax x a (op e U (a / lmax) *ᵥ x) := by
  intro order
  have hE := (h.pairs hb).1
  rw [heat_one, filter_pointwise h hn hb]
  refine congrArg (fun t => Except.ok (Arr.of1 t)) ?_
  unfold op spectralOp
  rw [← Matrix.mulVec_mulVec, ← Matrix.mulVec_mulVec]
  refine congrArg (U *ᵥ ·) ?_
  funext k
  have hk := h.eig_nonneg (hE.isEigenvalue k)
  rw [Matrix.mulVec_diagonal, heatKernel_eq (by positivity)]
  congr 2
  ring

theorem diffused_iff (h : Ready S g s) (hn : 2 ≤ n) (hb : s.basis = some ⟨n, e, U⟩) (hl : 0 < lmax) {a : ℝ} (ha : 0 ≤ a) (x y : Fin n → ℝ) :
    Diffused S s lmax x a y ↔ y = op e U (a / lmax) *ᵥ x := by
  constructor
  · intro hy
    have := hy 0
    rw [diffused h hn hb hl ha x 0] at this
    funext v
    have h1 := congrFun (congrArg Arr.val (Except.ok.inj this)) [v.1]
    simp only [Arr.of1, v.isLt, dite_true, Fin.eta] at h1
    exact h1.symm
  · rintro rfl
    exact diffused h hn hb hl ha x

/-- the transform of a diffused signal -/
theorem coord_op {L : Matrix (Fin n) (Fin n) ℝ} (hE : IsEigenPairs L e U) (t : ℝ) (x : Fin n → ℝ) (k : Fin n) :
    (Uᵀ *ᵥ (op e U t *ᵥ x)) k = exp (-(t * e k)) * (Uᵀ *ᵥ x) k := by
  unfold op spectralOp
  rw [Matrix.mulVec_mulVec, ← Matrix.mul_assoc, ← Matrix.mul_assoc, hE.orthonormal, Matrix.one_mul, ← Matrix.mulVec_mulVec, Matrix.mulVec_diagonal]

theorem quad_coord {L : Matrix (Fin n) (Fin n) ℝ} (hE : IsEigenPairs L e U) (x : Fin n → ℝ) : x ⬝ᵥ (L *ᵥ x) = ∑ k, e k * (Uᵀ *ᵥ x) k ^ 2 := by
  have := Weyl.quad_basis hE (Uᵀ *ᵥ x)
  rwa [IsEigenPairs.coord hE] at this

theorem first_zero (h : Ready S g s) (hb : s.basis = some ⟨n, e, U⟩) (hn : 0 < n) : e ⟨0, hn⟩ = 0 := by
  obtain ⟨hE, hm⟩ := h.pairs hb
  obtain ⟨hist, hs⟩ := h.reached
  obtain ⟨hi, hWs, -⟩ := reach_inv h.sound h.built hist
  rw [← hs] at hi hWs
  obtain ⟨j, hj⟩ := hE.mem_of_complete rfl (hi.zero (by rw [hWs]; exact h.nonneg) hn)
  refine le_antisymm ?_ (h.eig_nonneg (hE.isEigenvalue _))
  rw [← hj]
  exact hm (Fin.mk_le_of_le_val (Nat.zero_le _))

/-- the first coordinate of a signal orthogonal to a signal of energy zero -/
theorem coord_first (h : Ready S g s) (hb : s.basis = some ⟨n, e, U⟩) (hn : 2 ≤ n) (h1 : 0 < e ⟨1, hn⟩) {z : Fin n → ℝ} (hz : s.L *ᵥ z = 0) (hz0 : z ≠ 0)
    {x : Fin n → ℝ} (hx : ∑ v, z v * x v = 0) : (Uᵀ *ᵥ x) ⟨0, by omega⟩ = 0 := by
  obtain ⟨hE, hm⟩ := h.pairs hb
  have hzk : ∀ k : Fin n, 1 ≤ k.1 → (Uᵀ *ᵥ z) k = 0 := fun k hk =>
    (mul_eq_zero.1 (coord_ker hE hz k)).resolve_left (ne_of_gt (h1.trans_le (hm (Fin.mk_le_mk.2 hk))))
  have hz0' : (Uᵀ *ᵥ z) ⟨0, by omega⟩ ≠ 0 := fun hc => hz0 <| by
    rw [← IsEigenPairs.coord hE z, show Uᵀ *ᵥ z = 0 from funext fun k => by
      rcases Nat.eq_zero_or_pos k.1 with hk | hk
      · rw [show k = ⟨0, by omega⟩ from Fin.ext hk]; exact hc
      · exact hzk k hk, Matrix.mulVec_zero]
  have hdot : ∑ k, (Uᵀ *ᵥ z) k * (Uᵀ *ᵥ x) k = 0 := by
    have : (Uᵀ *ᵥ z) ⬝ᵥ (Uᵀ *ᵥ x) = z ⬝ᵥ (U *ᵥ (Uᵀ *ᵥ x)) := by
      rw [Matrix.dotProduct_mulVec z U, ← Matrix.mulVec_transpose]
    rw [IsEigenPairs.coord hE] at this
    exact this.trans hx
  rw [Finset.sum_eq_single (⟨0, by omega⟩ : Fin n) (fun k _ hk => by
    rw [hzk k (Nat.pos_of_ne_zero fun hh => hk (Fin.ext hh)), zero_mul]) (by simp)] at hdot
  exact (mul_eq_zero.1 hdot).resolve_left hz0'

theorem comb_offdiag {M : Matrix (Fin n) (Fin n) ℝ} (hM : NonnegW M) {i j : Fin n} (hij : i ≠ j) : combLap M i j ≤ 0 := by
  have := wsym_nonneg hM i j
  simp only [combLap, Matrix.of_apply, if_neg hij]
  linarith

theorem op_row {M : Matrix (Fin n) (Fin n) ℝ} (hE : IsEigenPairs (combLap M) e U) (t : ℝ) (v : Fin n) : ∑ w, op e U t v w = 1 := by
  have h1 := congrFun (op_ker hE t (z := fun _ => 1) (combLap_const M 1)) v
  simpa [Matrix.mulVec, dotProduct] using h1

theorem op_col {M : Matrix (Fin n) (Fin n) ℝ} (hE : IsEigenPairs (combLap M) e U) (t : ℝ) (w : Fin n) : ∑ v, op e U t v w = 1 := by
  rw [← op_row hE t w]
  exact Finset.sum_congr rfl fun v _ => op_comm e U t v w

end Heat

/-! ## the heat equation -/

/-- **C126** Diffusion never fails and does not touch the graph object, and as a function of the scale it solves the heat equation
`y' = - L y / lmax`, `y(0) = x`; it is the only solution. -/
theorem C126_heat_equation (h : Ready S g s) (hn : 2 ≤ n) (hb : s.basis = some ⟨n, e, U⟩) (hl : 0 < lmax) (x : Fin n → ℝ) :
    ∃ y : ℝ → Fin n → ℝ, (∀ a, 0 ≤ a → Diffused S s lmax x a (y a)) ∧ y 0 = x ∧
      (∀ a, 0 ≤ a → HasDerivAt y (-(1 / lmax) • (s.L *ᵥ y a)) a) ∧
      ∀ z : ℝ → Fin n → ℝ, z 0 = x → (∀ a, 0 ≤ a → HasDerivWithinAt z (-(1 / lmax) • (s.L *ᵥ z a)) (Set.Ici 0) a) → ∀ a, 0 ≤ a → Diffused S s lmax x a (z a) := by
  obtain ⟨hE, hm⟩ := h.pairs hb
  have hd : ∀ a, HasDerivAt (fun a => op e U (a / lmax) *ᵥ x) (-(1 / lmax) • (s.L *ᵥ (op e U (a / lmax) *ᵥ x))) a := by
    intro a
    have h1 : HasDerivAt (fun a : ℝ => a / lmax) (1 / lmax) a := (hasDerivAt_id a).div_const lmax
    have h2 := (op_deriv hE x (a / lmax)).scomp a h1
    rw [smul_neg, ← neg_smul] at h2
    exact h2
  refine ⟨fun a => op e U (a / lmax) *ᵥ x, fun a ha => diffused h hn hb hl ha x, ?_, fun a _ => hd a, ?_⟩
  · simp only [zero_div, op_zero hE, Matrix.one_mulVec]
  intro z hz0 hz a ha
  rw [diffused_iff h hn hb hl ha]
  -- the energy of the difference cannot grow
  set w : ℝ → Fin n → ℝ := fun a => z a - op e U (a / lmax) *ᵥ x with hw
  have hwd : ∀ a, 0 ≤ a → HasDerivWithinAt w (-(1 / lmax) • (s.L *ᵥ w a)) (Set.Ici 0) a := by
    intro a ha
    have := (hz a ha).sub (hd a).hasDerivWithinAt
    rw [← smul_sub, ← Matrix.mulVec_sub] at this
    exact this
  set E : ℝ → ℝ := fun a => ∑ v, w a v ^ 2 with hEdef
  have hEd : ∀ a, 0 ≤ a → HasDerivWithinAt E (-(2 / lmax) * (w a ⬝ᵥ (s.L *ᵥ w a))) (Set.Ici 0) a := by
    intro a ha
    have h1 : ∀ v ∈ Finset.univ, HasDerivWithinAt (fun a => w a v ^ 2) (2 * w a v * (-(1 / lmax) * (s.L *ᵥ w a) v)) (Set.Ici 0) a := by
      intro v _
      have h2 := (hasDerivWithinAt_pi.1 (hwd a ha) v).pow 2
      refine h2.congr_deriv ?_
      simp
    refine (HasDerivWithinAt.fun_sum h1).congr_deriv ?_
    simp only [dotProduct, Finset.mul_sum]
    refine Finset.sum_congr rfl fun v _ => ?_
    ring
  have hanti : AntitoneOn E (Set.Ici 0) := by
    refine antitoneOn_of_deriv_nonpos (convex_Ici 0) (fun a ha => (hEd a ha).continuousWithinAt) (fun a ha => ?_) fun a ha => ?_
    · rw [interior_Ici] at ha ⊢
      exact ((hEd a (le_of_lt ha)).mono Set.Ioi_subset_Ici_self).differentiableWithinAt
    · rw [interior_Ici] at ha
      rw [((hEd a (le_of_lt ha)).hasDerivAt (Ici_mem_nhds ha)).deriv]
      have : 0 ≤ w a ⬝ᵥ (s.L *ᵥ w a) := by
        rw [quad_coord hE]
        exact Finset.sum_nonneg fun k _ => mul_nonneg (h.eig_nonneg (hE.isEigenvalue k)) (sq_nonneg _)
      have h2 : 0 ≤ 2 / lmax := by positivity
      nlinarith
  have h0 : E 0 = 0 := by
    simp [hEdef, hw, hz0, op_zero hE]
  have hle := hanti (Set.mem_Ici.2 le_rfl) (Set.mem_Ici.2 ha) ha
  rw [h0] at hle
  have hall := (Finset.sum_eq_zero_iff_of_nonneg fun v _ => sq_nonneg (w a v)).1 (le_antisymm hle (Finset.sum_nonneg fun v _ => sq_nonneg _))
  funext v
  have := hall v (Finset.mem_univ v)
  rw [sq_eq_zero_iff] at this
  simp only [hw, Pi.sub_apply] at this
  linarith

/-! ## towards the equilibrium -/

/-- **C126** A signal orthogonal to an equilibrium `z` of the graph (`L z = 0`) loses energy at least at the rate `2 e[1] / lmax`: both Laplacians. -/
theorem C126_decay (h : Ready S g s) (hn : 2 ≤ n) (hb : s.basis = some ⟨n, e, U⟩) (hl : 0 < lmax) {z : Fin n → ℝ} (hz : s.L *ᵥ z = 0) (hz0 : z ≠ 0)
    {x y : Fin n → ℝ} (hx : ∑ v, z v * x v = 0) {a : ℝ} (ha : 0 ≤ a) (hy : Diffused S s lmax x a y) :
    ∑ v, y v ^ 2 ≤ exp (-(2 * a * e ⟨1, hn⟩ / lmax)) * ∑ v, x v ^ 2 ∧ ∑ v, z v * y v = 0 := by
  obtain ⟨hE, hm⟩ := h.pairs hb
  rw [diffused_iff h hn hb hl ha] at hy
  subst hy
  constructor
  · rw [← energy_gft hE.orthonormal, ← energy_gft hE.orthonormal x, Finset.mul_sum]
    refine Finset.sum_le_sum fun k _ => ?_
    rw [coord_op hE, mul_pow, ← exp_nsmul]
    have hk : (Uᵀ *ᵥ x) k = 0 ∨ e ⟨1, hn⟩ ≤ e k := by
      rcases Nat.eq_zero_or_pos k.1 with hk | hk
      · rcases (h.eig_nonneg (hE.isEigenvalue ⟨1, hn⟩)).lt_or_eq with h1 | h1
        · left
          rw [show k = ⟨0, by omega⟩ from Fin.ext hk]
          exact coord_first h hb hn h1 hz hz0 hx
        · right
          rw [← h1]
          exact h.eig_nonneg (hE.isEigenvalue k)
      · exact .inr (hm (Fin.mk_le_mk.2 hk))
    rcases hk with hk | hk
    · rw [hk]; simp
    · refine mul_le_mul_of_nonneg_right (exp_le_exp.2 ?_) (sq_nonneg _)
      have := mul_le_mul_of_nonneg_left hk (by positivity : 0 ≤ 2 * a / lmax)
      rw [nsmul_eq_mul]
      push_cast
      calc 2 * -(a / lmax * e k) = -(2 * a / lmax * e k) := by ring
        _ ≤ -(2 * a / lmax * e ⟨1, hn⟩) := neg_le_neg this
        _ = _ := by ring
  · have h1 : z ⬝ᵥ (op e U (a / lmax) *ᵥ x) = (op e U (a / lmax) *ᵥ z) ⬝ᵥ x := by
      rw [Matrix.dotProduct_mulVec, ← Matrix.mulVec_transpose]
      unfold op
      rw [spectralOp_symm]
    rw [op_ker hE _ hz] at h1
    exact h1.trans hx

/-- **C126** With the combinatorial Laplacian the deviation from the mean decays at least at the rate `e[1] / lmax` and the mean is kept. -/
theorem C126_mixing (h : Ready S g s) (hlt : s.lapType = .combinatorial) (hn : 2 ≤ n) (hb : s.basis = some ⟨n, e, U⟩) (hl : 0 < lmax)
    {x y : Fin n → ℝ} {a : ℝ} (ha : 0 ≤ a) (hy : Diffused S s lmax x a y) :
    ∑ v, (y v - (∑ u, x u) / n) ^ 2 ≤ exp (-(2 * a * e ⟨1, hn⟩ / lmax)) * ∑ v, (x v - (∑ u, x u) / n) ^ 2 := by
  obtain ⟨hE, hm⟩ := h.pairs hb
  have hn0 : (n : ℝ) ≠ 0 := by positivity
  rw [diffused_iff h hn hb hl ha] at hy
  subst hy
  set m := (∑ u, x u) / n with hmd
  have hk1 : s.L *ᵥ (fun _ => (1 : ℝ)) = 0 := by rw [h.comb hlt]; exact combLap_const _ 1
  have hkm : s.L *ᵥ (fun _ => m) = 0 := by rw [h.comb hlt]; exact combLap_const _ m
  have h1 := (C126_decay h hn hb hl hk1 (fun q => one_ne_zero (congrFun q ⟨0, by omega⟩)) (x := fun v => x v - m) (by
    simp only [one_mul, Finset.sum_sub_distrib, Finset.sum_const, Finset.card_univ, Fintype.card_fin, nsmul_eq_mul, hmd]
    field_simp
    ring) ha (diffused h hn hb hl ha _)).1
  have h2 : op e U (a / lmax) *ᵥ (fun v => x v - m) = fun v => (op e U (a / lmax) *ᵥ x) v - m := by
    have : (fun v => x v - m) = x - fun _ => m := rfl
    rw [this, Matrix.mulVec_sub, op_ker hE _ hkm]
    rfl
  rw [h2] at h1
  exact h1

/-- **C126** The equilibrium: as the scale grows the diffused signal tends, at every vertex, to the mean of the signal over the connected
component of the vertex (combinatorial Laplacian). -/
theorem C126_equilibrium (h : Ready S g s) (hlt : s.lapType = .combinatorial) (hn : 2 ≤ n) (hb : s.basis = some ⟨n, e, U⟩) (hl : 0 < lmax)
    {x : Fin n → ℝ} {y : ℝ → Fin n → ℝ} (hy : ∀ a, 0 ≤ a → Diffused S s lmax x a (y a)) (i : Fin n) (C : Finset (Fin n)) (hC : ∀ j, j ∈ C ↔ Linked g.W.dense i j) :
    Tendsto (fun a => y a i) atTop (𝓝 ((∑ j ∈ C, x j) / C.card)) := by
  classical
  obtain ⟨hE, hm⟩ := h.pairs hb
  have hE' := hE
  rw [h.comb hlt] at hE'
  have h1 := (tendsto_pi_nhds.1 (op_lim (U := U) (fun k => h.eig_nonneg (hE.isEigenvalue k)) x) i).comp
    (tendsto_id.atTop_div_const hl)
  rw [proj_mean h.nonneg hE'] at h1
  have hCf : (Finset.univ.filter fun j => Linked g.W.dense i j) = C := by
    ext j
    simp [hC]
  rw [hCf] at h1
  refine h1.congr' ?_
  filter_upwards [eventually_ge_atTop 0] with a ha
  rw [(diffused_iff h hn hb hl ha x (y a)).1 (hy a ha)]
  rfl

/-- **C126** The Dirichlet energy only decreases along the diffusion, at least at the rate `2 e[1] / lmax`: both Laplacians. -/
theorem C126_energy (h : Ready S g s) (hn : 2 ≤ n) (hb : s.basis = some ⟨n, e, U⟩) (hl : 0 < lmax) {x y y' : Fin n → ℝ} {a b : ℝ} (ha : 0 ≤ a) (hab : a ≤ b)
    (hy : Diffused S s lmax x a y) (hy' : Diffused S s lmax x b y') :
    ∃ E E', dirichletEnergyPy s.L ⟨n, y⟩ = .ok E ∧ dirichletEnergyPy s.L ⟨n, y'⟩ = .ok E' ∧ 0 ≤ E' ∧ E' ≤ exp (-(2 * (b - a) * e ⟨1, hn⟩ / lmax)) * E := by
  obtain ⟨hE, hm⟩ := h.pairs hb
  have h0 : ∀ k, 0 ≤ e k := fun k => h.eig_nonneg (hE.isEigenvalue k)
  have hd : ∀ y : Fin n → ℝ, dirichletEnergyPy s.L ⟨n, y⟩ = .ok (y ⬝ᵥ (s.L *ᵥ y)) := by
    intro y
    unfold dirichletEnergyPy checkSignal
    simp only [dite_true]
    rfl
  refine ⟨_, _, hd y, hd y', ?_⟩
  rw [diffused_iff h hn hb hl ha] at hy
  rw [diffused_iff h hn hb hl (ha.trans hab)] at hy'
  have hyy : y' = op e U ((b - a) / lmax) *ᵥ y := by
    rw [hy, hy', Matrix.mulVec_mulVec, ← op_add hE]
    congr 2
    ring
  rw [hyy, quad_coord hE, quad_coord hE, Finset.mul_sum]
  refine ⟨Finset.sum_nonneg fun k _ => mul_nonneg (h0 k) (sq_nonneg _), Finset.sum_le_sum fun k _ => ?_⟩
  rw [coord_op hE, mul_pow, ← exp_nsmul, nsmul_eq_mul]
  rcases Nat.eq_zero_or_pos k.1 with hk | hk
  · rw [show k = ⟨0, by omega⟩ from Fin.ext hk, first_zero h hb (by omega)]
    simp
  · have hk' : e ⟨1, hn⟩ ≤ e k := hm (Fin.mk_le_mk.2 hk)
    have hba : 0 ≤ b - a := by linarith
    have h1 := mul_le_mul_of_nonneg_left hk' (by positivity : 0 ≤ 2 * (b - a) / lmax)
    have h2 : exp (((2 : ℕ) : ℝ) * -((b - a) / lmax * e k)) ≤ exp (-(2 * (b - a) * e ⟨1, hn⟩ / lmax)) := by
      refine exp_le_exp.2 ?_
      push_cast
      calc 2 * -((b - a) / lmax * e k) = -(2 * (b - a) / lmax * e k) := by ring
        _ ≤ -(2 * (b - a) / lmax * e ⟨1, hn⟩) := neg_le_neg h1
        _ = _ := by ring
    have h3 := mul_le_mul_of_nonneg_right h2 (mul_nonneg (h0 k) (sq_nonneg ((Uᵀ *ᵥ y) k)))
    linarith

/-! ## diffusion averages -/

/-- **C126** With the combinatorial Laplacian diffusion is an averaging: the sum over the vertices of a convex function of the values never increases.
Hence all the norms, the variance, the entropy... are monotone. -/
theorem C126_convex (h : Ready S g s) (hlt : s.lapType = .combinatorial) (hn : 2 ≤ n) (hb : s.basis = some ⟨n, e, U⟩) (hl : 0 < lmax)
    {x y : Fin n → ℝ} {a : ℝ} (ha : 0 ≤ a) (hy : Diffused S s lmax x a y) {φ : ℝ → ℝ} {D : Set ℝ} (hφ : ConvexOn ℝ D φ) (hx : ∀ v, x v ∈ D) :
    (∀ v, y v ∈ D) ∧ ∑ v, φ (y v) ≤ ∑ v, φ (x v) := by
  obtain ⟨hE, hm⟩ := h.pairs hb
  rw [h.comb hlt] at hE
  rw [diffused_iff h hn hb hl ha] at hy
  subst hy
  have hpos : ∀ i j, 0 ≤ op e U (a / lmax) i j := fun i j => heat_nonneg hE (fun i j hij => comb_offdiag h.nonneg hij) (by positivity) i j
  refine ⟨fun v => ?_, convex_sum hpos (op_row hE _) (op_col hE _) hφ x hx⟩
  have := hφ.1.sum_mem (t := Finset.univ) (w := fun w => op e U (a / lmax) v w) (z := x) (fun w _ => hpos v w) (op_row hE _ v) fun w _ => hx w
  simpa [Matrix.mulVec, dotProduct] using this

/-- **C126** Heat spreads instantly and only inside the component: diffusing a unit impulse at `i` for any positive time gives a strictly positive value at
the vertices linked to `i` and exactly zero at the others. -/
theorem C126_spread (h : Ready S g s) (hlt : s.lapType = .combinatorial) (hn : 2 ≤ n) (hb : s.basis = some ⟨n, e, U⟩) (hl : 0 < lmax)
    {i : Fin n} {y : Fin n → ℝ} {a : ℝ} (ha : 0 < a) (hy : Diffused S s lmax (Pi.single i 1) a y) (v : Fin n) :
    (Linked g.W.dense i v → 0 < y v) ∧ (¬ Linked g.W.dense i v → y v = 0) := by
  classical
  obtain ⟨hE, hm⟩ := h.pairs hb
  rw [h.comb hlt] at hE
  rw [diffused_iff h hn hb hl ha.le, Matrix.mulVec_single_one] at hy
  subst hy
  have hpos : ∀ i j, 0 ≤ op e U (a / lmax) i j := fun i j => heat_nonneg hE (fun i j hij => comb_offdiag h.nonneg hij) (by positivity) i j
  simp only [Matrix.col_apply]
  constructor
  · intro hv
    rw [op_comm]
    by_cases hcase : i = v
    · subst hcase; exact op_diag_pos hE _ _
    refine op_pos hE (fun i j hij => comb_offdiag h.nonneg hij) (by positivity) ?_
    clear hcase
    induction hv with
    | refl => exact .refl
    | @tail b c _ hbc ih =>
      by_cases hbc' : b = c
      · subst hbc'; exact ih
      refine ih.tail ?_
      simp only [combLap, Matrix.of_apply, if_neg hbc']
      have h1 := h.nonneg b c
      have h2 := h.nonneg c b
      unfold wsym
      rcases hbc with h3 | h3
      · have : 0 < g.W.dense b c := lt_of_le_of_ne h1 (Ne.symm h3)
        intro q
        linarith
      · have : 0 < g.W.dense c b := lt_of_le_of_ne h2 (Ne.symm h3)
        intro q
        linarith
  · intro hv
    let c : Fin n → ℝ := fun j => if Linked g.W.dense i j then 1 else 0
    have hc0 : combLap g.W.dense *ᵥ c = 0 := by
      funext a
      rw [combLap_mulVec]
      refine Finset.sum_eq_zero fun b _ => ?_
      by_cases hab : g.W.dense a b ≠ 0 ∨ g.W.dense b a ≠ 0
      · have : Linked g.W.dense i a ↔ Linked g.W.dense i b := ⟨fun h => h.tail hab, fun h => h.tail hab.symm⟩
        simp [c, this]
      · push Not at hab
        simp [wsym, hab.1, hab.2]
    have h1 := congrFun (op_ker hE (a / lmax) hc0) i
    simp only [Matrix.mulVec, dotProduct] at h1
    rw [show c i = 1 from if_pos .refl] at h1
    have h2 := op_row hE (a / lmax) i
    have h3 : ∑ w, op e U (a / lmax) i w * (1 - c w) = 0 := by
      simp only [mul_sub, mul_one, Finset.sum_sub_distrib, h1, h2, sub_self]
    have h4 := (Finset.sum_eq_zero_iff_of_nonneg fun w _ => mul_nonneg (hpos i w) (by simp only [c]; split_ifs <;> norm_num)).1 h3 v (Finset.mem_univ v)
    rw [show c v = 0 from if_neg hv, sub_zero, mul_one] at h4
    rw [op_comm]
    exact h4

/-- **C126** What comes back: the value at `j` after a unit impulse at `i` is the value at `i` after a unit impulse at `j`; the value kept by the source never
increases with the scale; the square of the value passed from `i` to `j` is at most the product of the values kept; and the values kept by all the sources
sum to `∑ exp(-a e[k] / lmax)`: both Laplacians. -/
theorem C126_return (h : Ready S g s) (hn : 2 ≤ n) (hb : s.basis = some ⟨n, e, U⟩) (hl : 0 < lmax) {y : ℝ → Fin n → Fin n → ℝ}
    (hy : ∀ a, 0 ≤ a → ∀ i, Diffused S s lmax (Pi.single i 1) a (y a i)) {a : ℝ} (ha : 0 ≤ a) :
    (∀ i j, y a i j = y a j i) ∧ (∀ i, 0 < y a i i ∧ y a i i ≤ 1) ∧ (∀ b, a ≤ b → ∀ i, y b i i ≤ y a i i) ∧ (∀ i j, y a i j ^ 2 ≤ y a i i * y a j j) ∧
      ∑ i, y a i i = ∑ k, exp (-(a * e k / lmax)) := by
  obtain ⟨hE, hm⟩ := h.pairs hb
  have h0 : ∀ k, 0 ≤ e k := fun k => h.eig_nonneg (hE.isEigenvalue k)
  have hv : ∀ a, 0 ≤ a → ∀ i j, y a i j = op e U (a / lmax) j i := by
    intro a ha i j
    rw [(diffused_iff h hn hb hl ha _ _).1 (hy a ha i), Matrix.mulVec_single_one, Matrix.col_apply]
  have hmono : ∀ a, 0 ≤ a → ∀ b, a ≤ b → ∀ i, y b i i ≤ y a i i := by
    intro a ha b hab i
    rw [hv a ha, hv b (ha.trans hab)]
    unfold op
    rw [spectralOp_apply, spectralOp_apply]
    refine Finset.sum_le_sum fun k _ => ?_
    have h1 : exp (-(b / lmax * e k)) ≤ exp (-(a / lmax * e k)) := by
      refine exp_le_exp.2 (neg_le_neg (mul_le_mul_of_nonneg_right ?_ (h0 k)))
      gcongr
    nlinarith [mul_self_nonneg (U i k)]
  refine ⟨fun i j => ?_, fun i => ⟨?_, ?_⟩, hmono a ha, fun i j => ?_, ?_⟩
  · rw [hv a ha, hv a ha, op_comm]
  · rw [hv a ha]
    exact op_diag_pos hE _ _
  · refine (hmono 0 le_rfl a ha i).trans ?_
    rw [hv 0 le_rfl, zero_div, op_zero hE, Matrix.one_apply_eq]
  · have hh : ∀ i j, op e U (a / lmax) i j = ∑ w, op e U (a / lmax / 2) i w * op e U (a / lmax / 2) j w := by
      intro i j
      have := op_add hE (a / lmax / 2) (a / lmax / 2)
      rw [add_halves] at this
      rw [this, Matrix.mul_apply]
      exact Finset.sum_congr rfl fun w _ => by rw [op_comm e U _ w j]
    rw [hv a ha, hv a ha, hv a ha, hh j i, hh i i, hh j j, mul_comm]
    have := Finset.sum_mul_sq_le_sq_mul_sq Finset.univ (fun w => op e U (a / lmax / 2) j w) fun w => op e U (a / lmax / 2) i w
    simp only [← sq]
    exact this
  · rw [Finset.sum_congr rfl fun i _ => hv a ha i i]
    have : ∑ i, op e U (a / lmax) i i = Matrix.trace (op e U (a / lmax)) := rfl
    rw [this]
    unfold op spectralOp
    rw [Matrix.trace_mul_comm, ← Matrix.mul_assoc, hE.orthonormal, Matrix.one_mul, Matrix.trace_diagonal]
    refine Finset.sum_congr rfl fun k _ => ?_
    congr 1
    ring

/-- The hypotheses are met: the path on four vertices, an impulse at its first vertex, a sign-changing signal. -/
example : ∃ (S : Solvers 4) (g : Graph 4 ℝ) (s : GState 4) (e : Fin 4 → ℝ) (U : Matrix (Fin 4) (Fin 4) ℝ) (y : ℝ → Fin 4 → ℝ),
    g.W.dense = path4 ∧ Ready S g s ∧ s.lapType = .combinatorial ∧ s.basis = some ⟨4, e, U⟩ ∧ 0 < e 1 ∧ Linked g.W.dense 0 3 ∧
    (∀ a, 0 ≤ a → Diffused S s 4 (Pi.single 0 1) a (y a)) ∧ s.L *ᵥ (fun _ => 1) = 0 ∧ ∑ v : Fin 4, 1 * (![1, 2, -1, -2] : Fin 4 → ℝ) v = 0 := by
  obtain ⟨S, g, s, hd, hr, hl, -⟩ := exists_ready path4 path4_nonneg (by norm_num)
  obtain ⟨e, U, -, h2, h3, -, h5, -⟩ := C113_computed hr
  obtain ⟨pinv, hp⟩ := exists_pinv 4
  have hl2 : (s.computeFourierBasis S none).2.lapType = .combinatorial := by rw [h5, hl]
  obtain ⟨-, -, hpos, -⟩ := C114_bounds h2 hl2 h3 (by rw [hd]; exact path4_connected) (by norm_num) hp
  refine ⟨S, g, _, e, U, fun a => op e U (a / 4) *ᵥ Pi.single 0 1, hd, h2, hl2, h3, hpos, by rw [hd]; exact path4_connected 0 3,
    fun a ha => diffused h2 (by norm_num) h3 (by norm_num) ha _, by rw [h2.comb hl2]; exact combLap_const _ 1, ?_⟩
  simp [Fin.sum_univ_four]

end PyGSP
