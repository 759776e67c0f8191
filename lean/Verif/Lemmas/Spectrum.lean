import Verif.Props.Fourier
import Verif.Lemmas.Single
import Mathlib.LinearAlgebra.Matrix.Charpoly.Basic
import Mathlib.LinearAlgebra.Matrix.NonsingularInverse
import Mathlib.Analysis.Complex.Basic
import Mathlib.Logic.Equiv.Fintype

/-!
# The spectrum from any complete family of eigenvectors
-/

namespace PyGSP.Spectrum

open Matrix Spec Polynomial Classical

variable {n : ℕ}

theorem charpoly_of_eigen {K : Type} [Field K] {L U : Matrix (Fin n) (Fin n) K} {e : Fin n → K} (hU : U.det ≠ 0)
    (h : L * U = U * diagonal e) : L.charpoly = ∏ i, (X - C (e i)) := by
  have hu : IsUnit U := (Matrix.isUnit_iff_isUnit_det U).2 (isUnit_iff_ne_zero.2 hU)
  obtain ⟨u, rfl⟩ := hu
  have : L = u.val * diagonal e * u⁻¹.val := by
    rw [← h, mul_assoc, Units.mul_inv, mul_one]
  rw [this, Matrix.coe_units_inv, Matrix.charpoly_units_conj, Matrix.charpoly_diagonal]

/-- two complete families of eigenvectors have the same eigenvalues, with the same multiplicities -/
theorem same_spectrum {K : Type} [Field K] {L U V : Matrix (Fin n) (Fin n) K} {e f : Fin n → K} (hU : U.det ≠ 0) (h : L * U = U * diagonal e)
    (hV : V.det ≠ 0) (h' : L * V = V * diagonal f) : ∃ σ : Fin n ≃ Fin n, ∀ k, e (σ k) = f k := by
  have hp : (∏ i, (X - C (e i))) = ∏ i, (X - C (f i)) := by rw [← charpoly_of_eigen hU h, charpoly_of_eigen hV h']
  have hr : ∀ g : Fin n → K, (∏ i, (X - C (g i))).roots = (Finset.univ.val.map g) := by
    intro g
    rw [← roots_multiset_prod_X_sub_C (Finset.univ.val.map g), Multiset.map_map]
    rfl
  have hm : Finset.univ.val.map e = Finset.univ.val.map f := by rw [← hr, ← hr, hp]
  have hc : ∀ c : K, Nonempty ({k // f k = c} ≃ {k // e k = c}) := by
    intro c
    refine ⟨Fintype.equivOfCardEq ?_⟩
    rw [Fintype.card_subtype, Fintype.card_subtype]
    have := congrArg (Multiset.count c) hm
    rw [Multiset.count_map, Multiset.count_map] at this
    have e1 : ∀ g : Fin n → K, (Finset.univ.filter fun k => g k = c).card = Multiset.card (Multiset.filter (fun k => c = g k) Finset.univ.val) := by
      intro g
      rw [Finset.card_def, Finset.filter_val]
      congr 2
      ext k
      exact ⟨Eq.symm, Eq.symm⟩
    rw [e1, e1, this]
  let σ : Fin n ≃ Fin n := Equiv.ofFiberEquiv fun c => (hc c).some
  exact ⟨σ, fun k => Equiv.ofFiberEquiv_map _ k⟩

theorem det_of_orthonormal {U : Matrix (Fin n) (Fin n) ℝ} (h : Uᵀ * U = 1) : U.det ≠ 0 := by
  intro hd
  have := congrArg det h
  rw [det_mul, det_transpose, hd, det_one] at this
  norm_num at this

/-- the Laplacian of an undirected graph applied to a vector -/
theorem combLap_apply {W : Matrix (Fin n) (Fin n) ℝ} (hu : Undirected W) (V : Matrix (Fin n) (Fin n) ℂ) (i k : Fin n) :
    ((combLap W).map (fun x : ℝ => (x : ℂ)) * V) i k = ∑ j, (W i j : ℂ) * (V i k - V j k) := by
  rw [mul_apply]
  simp only [map_apply, combLap, of_apply]
  have hw : ∀ j, wsym W i j = W i j := by
    intro j; unfold wsym; rw [← hu i j]; ring
  have hd : wdeg W i = ∑ j, W i j := by
    unfold wdeg
    have : ∑ j, W j i = ∑ j, W i j := Finset.sum_congr rfl fun j _ => hu j i
    rw [this]; ring
  simp only [hw, hd]
  push_cast
  simp only [sub_mul, mul_sub, Finset.sum_sub_distrib]
  congr 1
  rw [← Finset.sum_mul]
  have : ∀ x : Fin n, (((if i = x then ∑ j, W i j else 0 : ℝ)) : ℂ) * V x k = if i = x then (∑ j, (W i j : ℂ)) * V x k else 0 := by
    intro x
    split <;> simp
  simp only [this]
  rw [Finset.sum_ite_eq]
  simp

/-- the spectrum of an undirected graph from a complete family of complex eigenvectors -/
theorem spectrum_of {W : Matrix (Fin n) (Fin n) ℝ} (hu : Undirected W) {V : Matrix (Fin n) (Fin n) ℂ} (hV : V.det ≠ 0) {f : Fin n → ℝ}
    (h : ∀ i k, ∑ j, (W i j : ℂ) * (V i k - V j k) = (f k : ℂ) * V i k) {e : Fin n → ℝ} {U : Matrix (Fin n) (Fin n) ℝ} (hU : Uᵀ * U = 1)
    (he : combLap W * U = U * diagonal e) : ∃ σ : Fin n ≃ Fin n, ∀ k, e (σ k) = f k := by
  let φ : ℝ →+* ℂ := Complex.ofRealHom
  have h1 : (combLap W).map φ * U.map φ = U.map φ * diagonal fun k => (e k : ℂ) := by
    have := congrArg (fun M => M.map φ) he
    simp only [Matrix.map_mul] at this
    rw [this]
    congr 1
    rw [Matrix.diagonal_map (map_zero φ)]
    rfl
  have h2 : (U.map φ).det ≠ 0 := by
    have : (U.map φ).det = φ U.det := (RingHom.map_det φ U).symm
    rw [this]
    exact (map_ne_zero φ).2 (det_of_orthonormal hU)
  have h3 : (combLap W).map φ * V = V * diagonal fun k => (f k : ℂ) := by
    ext i k
    rw [mul_diagonal]
    have := combLap_apply hu V i k
    have e1 : ((combLap W).map φ * V) i k = ∑ j, (W i j : ℂ) * (V i k - V j k) := this
    rw [e1, h, mul_comm]
  obtain ⟨σ, hσ⟩ := same_spectrum h2 h1 hV h3
  exact ⟨σ, fun k => by exact_mod_cast hσ k⟩

open GState in
/-- `compute_fourier_basis()` on a graph with a known complete family of eigenvectors, after any history of calls -/
theorem fourier_spectrum {S : Solvers n} (hS : Sound S) {g : Graph n ℝ} (hg : g.Built) (hW : NonnegW g.W.dense) (hu : Undirected g.W.dense) (hn : 0 < n)
    {V : Matrix (Fin n) (Fin n) ℂ} (hV : V.det ≠ 0) {f : Fin n → ℝ} (h : ∀ i k, ∑ j, (g.W.dense i j : ℂ) * (V i k - V j k) = (f k : ℂ) * V i k)
    (ops : List (Op n)) {s : GState n} (hs : s = runAll S ops (GState.ofGraph g)) (hc : s.lapType = .combinatorial) :
    (s.computeFourierBasis S none).1 = .ok () ∧ ∃ (e : Fin n → ℝ) (U : Matrix (Fin n) (Fin n) ℝ), (s.computeFourierBasis S none).2.basis = some ⟨n, e, U⟩ ∧
      Monotone e ∧ Uᵀ * U = 1 ∧ s.L * U = U * diagonal e ∧ s.L = combLap g.W.dense ∧ ∃ σ : Fin n ≃ Fin n, ∀ k, e (σ k) = f k := by
  have hL := L_combinatorial hS hg ops hs hc
  obtain ⟨h1, ⟨bk, e, U⟩, h2, h3, h4, h5, h6, h7, -⟩ := C25_fourier_basis hS hg hW ops hs (by rw [hc]; exact .inl rfl) none hn le_rfl (Or.inl rfl)
  have hk : bk = n := le_antisymm h4 h3
  subst hk
  refine ⟨h1, e, U, h2, h7, h5, h6, hL, ?_⟩
  rw [hL] at h6
  exact spectrum_of hu hV h h5 h6

/-- sorted sequences with the same values are equal -/
theorem eq_of_sorted {e f : Fin n → ℝ} (he : Monotone e) (hf : Monotone f) {σ : Fin n ≃ Fin n} (h : ∀ k, e (σ k) = f k) : e = f := by
  have hp : (List.ofFn e).Perm (List.ofFn f) := by
    have : List.ofFn f = List.ofFn (e ∘ σ) := by congr 1; funext k; exact (h k).symm
    rw [this]
    exact (Equiv.Perm.ofFn_comp_perm σ e).symm
  have := List.Perm.eq_of_pairwise (le := (· ≤ ·)) (fun a b _ _ h1 h2 => le_antisymm h1 h2) (List.pairwise_ofFn.2 fun i j hij => he hij.le)
    (List.pairwise_ofFn.2 fun i j hij => hf hij.le) hp
  exact List.ofFn_injective this

end PyGSP.Spectrum
