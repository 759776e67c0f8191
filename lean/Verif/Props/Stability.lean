import Verif.Lemmas.Frobenius
import Verif.Spec.Stability
import Verif.Props.Scale
import Verif.Props.Monotone
import Verif.Props.DesignConv

/-!
# C110: small changes of the weights, small changes of the results
-/

namespace PyGSP

open Matrix Spec GState Real

variable {n : ℕ}

theorem outputs_diff {L L' U U' : Matrix (Fin n) (Fin n) ℝ} {e e' : Fin n → ℝ} (h : IsEigenPairs L e U) (h' : IsEigenPairs L' e' U') {φ ψ : ℝ → ℝ} {K η δ : ℝ} (hK : 0 ≤ K)
    (hφ : ∀ i j, |φ (e i) - φ (e' j)| ≤ K * |e i - e' j|) (hη : 0 ≤ η) (hψ : ∀ j, |φ (e' j) - ψ (e' j)| ≤ η) (hδ : √(frob (L - L')) ≤ δ) (x : Fin n → ℝ) :
    √(∑ v, ((spectralOp U (fun j => φ (e j)) *ᵥ x) v - (spectralOp U' (fun j => ψ (e' j)) *ᵥ x) v) ^ 2) ≤ (K * δ + η) * √(∑ v, x v ^ 2) := by
  have split : ∀ v, (spectralOp U (fun j => φ (e j)) *ᵥ x) v - (spectralOp U' (fun j => ψ (e' j)) *ᵥ x) v =
      ((spectralOp U (fun j => φ (e j)) - spectralOp U' fun j => φ (e' j)) *ᵥ x) v + (spectralOp U' (fun j => φ (e' j) - ψ (e' j)) *ᵥ x) v := by
    intro v
    have : spectralOp U' (fun j => φ (e' j) - ψ (e' j)) = spectralOp U' (fun j => φ (e' j)) - spectralOp U' fun j => ψ (e' j) := by
      unfold spectralOp
      rw [← Matrix.sub_mul, ← Matrix.mul_sub, Matrix.diagonal_sub]
    rw [this, Matrix.sub_mulVec, Matrix.sub_mulVec, Pi.sub_apply, Pi.sub_apply]
    ring
  simp only [split]
  refine (sqrt_sum_sq_add_le _ _).trans ?_
  rw [add_mul]
  refine add_le_add ?_ ?_
  · have h1 := (frob_mulVec (spectralOp U (fun j => φ (e j)) - spectralOp U' fun j => φ (e' j)) x).trans
      (mul_le_mul_of_nonneg_right (frob_function h h' hφ) (Finset.sum_nonneg fun _ _ => sq_nonneg _))
    refine (sqrt_le_sqrt h1).trans ?_
    rw [sqrt_mul (mul_nonneg (sq_nonneg _) (frob_nonneg _)), sqrt_mul (sq_nonneg _), sqrt_sq hK]
    exact mul_le_mul_of_nonneg_right (mul_le_mul_of_nonneg_left hδ hK) (sqrt_nonneg _)
  · rw [energy_spectralOp h'.orthonormal, ← energy_gft h'.orthonormal x, ← sqrt_sq hη, ← sqrt_mul (sq_nonneg _), Finset.mul_sum]
    refine sqrt_le_sqrt (Finset.sum_le_sum fun j _ => mul_le_mul_of_nonneg_right ?_ (sq_nonneg _))
    rw [← sq_abs]
    exact pow_le_pow_left₀ (abs_nonneg _) (hψ j) 2

theorem weightChange_comm (M M' : Matrix (Fin n) (Fin n) ℝ) : weightChange M M' = weightChange M' M := by
  unfold weightChange
  exact Finset.sum_congr rfl fun i _ => Finset.sum_congr rfl fun j _ => abs_sub_comm _ _

theorem weightChange_nonneg (M M' : Matrix (Fin n) (Fin n) ℝ) : 0 ≤ weightChange M M' :=
  Finset.sum_nonneg fun _ _ => Finset.sum_nonneg fun _ _ => abs_nonneg _

theorem dirichlet_sub (M M' : Matrix (Fin n) (Fin n) ℝ) (x : Fin n → ℝ) : dirichlet M x - dirichlet M' x = dirichlet (M - M') x := by
  unfold dirichlet
  rw [← mul_sub, ← Finset.sum_sub_distrib]
  congr 1
  refine Finset.sum_congr rfl fun i _ => ?_
  rw [← Finset.sum_sub_distrib]
  exact Finset.sum_congr rfl fun j _ => by rw [Matrix.sub_apply]; ring

theorem dirichlet_abs_le (M : Matrix (Fin n) (Fin n) ℝ) (x : Fin n → ℝ) : |dirichlet M x| ≤ (∑ i, ∑ j, |M i j|) * ∑ v, x v ^ 2 := by
  unfold dirichlet
  rw [abs_mul, abs_of_pos (by norm_num : (0 : ℝ) < 1 / 2)]
  have h2 : ∀ i j, |M i j * (x i - x j) ^ 2| ≤ 2 * (|M i j| * ∑ v, x v ^ 2) := by
    intro i j
    rw [abs_mul, abs_of_nonneg (sq_nonneg (x i - x j)), mul_left_comm]
    refine mul_le_mul_of_nonneg_left ?_ (abs_nonneg _)
    have hx : ∀ i, x i ^ 2 ≤ ∑ v, x v ^ 2 := fun i => Finset.single_le_sum (f := fun v => x v ^ 2) (fun _ _ => sq_nonneg _) (Finset.mem_univ i)
    by_cases hij : i = j
    · subst hij
      rw [sub_self]
      have := (sq_nonneg (x i)).trans (hx i)
      nlinarith
    · have : x i ^ 2 + x j ^ 2 ≤ ∑ v, x v ^ 2 := by
        rw [← Finset.sum_pair (f := fun v => x v ^ 2) hij]
        exact Finset.sum_le_sum_of_subset_of_nonneg (Finset.subset_univ _) fun _ _ _ => sq_nonneg _
      nlinarith [sq_nonneg (x i + x j)]
  have h3 : |∑ i, ∑ j, M i j * (x i - x j) ^ 2| ≤ 2 * ((∑ i, ∑ j, |M i j|) * ∑ v, x v ^ 2) := by
    refine (Finset.abs_sum_le_sum_abs _ _).trans ?_
    rw [Finset.sum_mul, Finset.mul_sum]
    refine Finset.sum_le_sum fun i _ => (Finset.abs_sum_le_sum_abs _ _).trans ?_
    rw [Finset.sum_mul, Finset.mul_sum]
    exact Finset.sum_le_sum fun j _ => h2 i j
  linarith

section

variable {S S' : Solvers n} {g g' : Graph n ℝ} {s s' : GState n} (h : Ready S g s) (h' : Ready S' g' s')
  (hl : s.lapType = .combinatorial) (hl' : s'.lapType = .combinatorial)

include h h' hl hl'

/-- **C110** The energy of a signal changes by at most the total change of the weights times its squared norm. -/
theorem C110_energy (x : Fin n → ℝ) : |dirichletEnergy s.L x - dirichletEnergy s'.L x| ≤ weightChange g.W.dense g'.W.dense * ∑ v, x v ^ 2 := by
  unfold dirichletEnergy
  rw [h.comb hl, h'.comb hl', combLap_quad, combLap_quad, dirichlet_sub]
  exact dirichlet_abs_le _ x

omit h h' hl hl' in
theorem shift_pairs {L U : Matrix (Fin n) (Fin n) ℝ} {e : Fin n → ℝ} (h : IsEigenPairs L e U) (d : ℝ) : IsEigenPairs (L + d • 1) (fun j => e j + d) U := by
  refine ⟨h.orthonormal, ?_⟩
  rw [Matrix.add_mul, h.eig, Matrix.smul_mul, Matrix.one_mul]
  ext i j
  rw [Matrix.add_apply, Matrix.mul_diagonal, Matrix.mul_diagonal, Matrix.smul_apply, smul_eq_mul]
  ring

theorem spectrum_step {e e' : Fin n → ℝ} {U U' : Matrix (Fin n) (Fin n) ℝ} (he : IsEigenPairs s.L e U) (he' : IsEigenPairs s'.L e' U') (hm : Monotone e) (hm' : Monotone e')
    (k : Fin n) : e k ≤ e' k + weightChange g.W.dense g'.W.dense := by
  refine Weyl.le_of_quad_le he (shift_pairs he' (weightChange g.W.dense g'.W.dense)) hm (fun a b hab => add_le_add_left (hm' hab) _) (fun x => ?_) k
  have := (abs_le.1 (C110_energy h h' hl hl' x)).2
  unfold dirichletEnergy at this
  rw [Matrix.add_mulVec, Matrix.smul_mulVec, Matrix.one_mulVec, dotProduct_add, dotProduct_smul, smul_eq_mul]
  have hx : x ⬝ᵥ x = ∑ v, x v ^ 2 := Finset.sum_congr rfl fun i _ => (sq _).symm
  rw [hx]
  linarith

/-- **C110** The graph frequencies, in the order returned by `compute_fourier_basis`, and the exact `lmax` change by at most the total change of the weights. -/
theorem C110_spectrum :
    (s.computeFourierBasis S none).1 = .ok () ∧ (s'.computeFourierBasis S' none).1 = .ok () ∧
    ∃ (e e' : Fin n → ℝ) (U U' : Matrix (Fin n) (Fin n) ℝ), (s.computeFourierBasis S none).2.basis = some ⟨n, e, U⟩ ∧
      (s'.computeFourierBasis S' none).2.basis = some ⟨n, e', U'⟩ ∧ (∀ k, |e k - e' k| ≤ weightChange g.W.dense g'.W.dense) ∧
      (s.basis = none → s'.basis = none → ∃ l l', ((s.computeFourierBasis S none).2.getLmax S).1 = .ok (some (.fin l)) ∧
        ((s'.computeFourierBasis S' none).2.getLmax S').1 = .ok (some (.fin l')) ∧ |l - l'| ≤ weightChange g.W.dense g'.W.dense) := by
  obtain ⟨h1, e, U, h2, h3, h4, h5⟩ := h.fourier
  obtain ⟨h1', e', U', h2', h3', h4', h5'⟩ := h'.fourier
  have key : ∀ k, |e k - e' k| ≤ weightChange g.W.dense g'.W.dense := by
    intro k
    have a := spectrum_step h h' hl hl' h3 h3' h4 h4' k
    have b := spectrum_step h' h hl' hl h3' h3 h4' h4 k
    rw [weightChange_comm] at b
    rw [abs_le]
    constructor <;> linarith
  exact ⟨h1, h1', e, e', U, U', h2, h2', key, fun h0 h0' => ⟨_, _, h5 h0, h5' h0', key _⟩⟩

theorem frob_weights : √(frob (s.L - s'.L)) ≤ weightChange g.W.dense g'.W.dense := by
  rw [h.comb hl, h'.comb hl', combLap_sub]
  exact frob_combLap _

/-- **C110** Filtering with user-given kernels that are `K`-Lipschitz on the frequencies of the two graphs: the outputs change by at most `K` times the total change of the weights times
the norm of the signal. -/
theorem C110_filter {f : Bank} {A : Set ℝ} (hA : ∀ l, IsEigenvalue s.L l ∨ IsEigenvalue s'.L l → l ∈ A) {φ : Fin f.Nf → ℝ → ℝ}
    (hf : ∀ (k : ℕ) (x : Fin k → ℝ), 0 < k → (∀ j, x j ∈ A) → f.evaluate x = .ok fun i j => φ i (x j)) {K : ℝ} (hK : 0 ≤ K)
    (hlip : ∀ i, ∀ a ∈ A, ∀ b ∈ A, |φ i a - φ i b| ≤ K * |a - b|) (order : ℕ) (x : Fin n → ℝ) :
    OutputsWithin f.Nf S f s S' f s' order x (K * weightChange g.W.dense g'.W.dense) := by
  obtain ⟨e, U, b1, b2⟩ := h.basis
  obtain ⟨e', U', b1', b2'⟩ := h'.basis
  have hA1 : ∀ j, e j ∈ A := fun j => hA _ (.inl (b2.isEigenvalue j))
  have hA2 : ∀ j, e' j ∈ A := fun j => hA _ (.inr (b2'.isEigenvalue j))
  refine ⟨_, _, C28_one_signal S f s _ b1 rfl _ (hf n e h.pos hA1) order x, C28_one_signal S' f s' _ b1' rfl _ (hf n e' h.pos hA2) order x, fun i => ?_⟩
  have := outputs_diff b2 b2' hK (fun a b => hlip i _ (hA1 a) _ (hA2 b)) le_rfl (ψ := φ i) (fun j => by rw [sub_self, abs_zero]) (frob_weights h h' hl hl') x
  rwa [add_zero] at this

end

theorem of3_reindex {m a b c : ℕ} (h : c = b) (G : Fin m → Fin a → Fin b → ℝ) : Arr.of3 (fun v t (i : Fin c) => G v t (i.cast h)) = Arr.of3 G := by
  subst h
  rfl

/-- **C110** The same for every built-in design but `Rectangular`: there is a constant that only depends on the bank (design, parameters, `lmax`), such that for all pairs of graphs, the
outputs of the design on the two graphs (for the second graph, the same design made for its own `lmax`, see `C103_designs`) differ by at most this constant times the change of the weights
plus the change of `lmax`, times the norm of the signal. -/
theorem C110_designs {l : ℝ} (hl : 0 < l) {f : Bank} (hf : BuiltIn l f) :
    ∃ K, 0 ≤ K ∧ ∀ (n : ℕ) (S S' : Solvers n) (g g' : Graph n ℝ) (s s' : GState n), Ready S g s → Ready S' g' s' → s.lapType = .combinatorial → s'.lapType = .combinatorial →
      ∀ l', 0 < l' → (∀ v, IsEigenvalue s.L v → v ≤ l) → (∀ v, IsEigenvalue s'.L v → v ≤ l') → ∀ (order : ℕ) (x : Fin n → ℝ),
        OutputsWithin f.Nf S f s S' (f.scaled (l' / l)) s' order x (K * (weightChange g.W.dense g'.W.dense + |l - l'|)) := by
  obtain ⟨φ, hlip, hev⟩ := builtIn_lip hl hf
  choose K hK0 hK using hlip
  have hKi : ∀ i, K i ≤ ∑ i, K i := fun i => Finset.single_le_sum (fun i _ => hK0 i) (Finset.mem_univ i)
  refine ⟨∑ i, K i, Finset.sum_nonneg fun i _ => hK0 i, fun n S S' g g' s s' h h' hc hc' l' hl' hb hb' order x => ?_⟩
  obtain ⟨e, U, b1, b2⟩ := h.basis
  obtain ⟨e', U', b1', b2'⟩ := h'.basis
  have psd : ∀ {S : Solvers n} {g : Graph n ℝ} {s : GState n}, Ready S g s → ∀ v, IsEigenvalue s.L v → 0 ≤ v := by
    intro S g s h v hv
    obtain ⟨hist, hs⟩ := h.reached
    obtain ⟨hi', hWs, -⟩ := reach_inv h.sound h.built hist
    rw [← hs] at hi' hWs
    exact eig_nonneg (hi'.psd (show NonnegW s.W.dense by rw [hWs]; exact h.nonneg)) hv
  have m1 : ∀ j, e j ∈ Set.Icc 0 l := fun j => ⟨psd h _ (b2.isEigenvalue j), hb _ (b2.isEigenvalue j)⟩
  have m2 : ∀ j, e' j ∈ Set.Icc 0 l' := fun j => ⟨psd h' _ (b2'.isEigenvalue j), hb' _ (b2'.isEigenvalue j)⟩
  have hcl : 0 < l' / l := div_pos hl' hl
  have sc : ∀ {t}, t ∈ Set.Icc 0 l' → t / (l' / l) ∈ Set.Icc 0 l := by
    intro t ht
    refine ⟨div_nonneg ht.1 hcl.le, ?_⟩
    rw [div_le_iff₀ hcl, mul_div_cancel₀ _ hl.ne']
    exact ht.2
  have m3 : ∀ j, e' j / (l' / l) ∈ Set.Icc 0 l := fun j => sc (m2 j)
  have ev' : (f.scaled (l' / l)).evaluate e' = .ok fun i j => φ (i.cast (f.scaled_Nf _)) (e' j / (l' / l)) := by
    rw [Bank.scaled_evaluate, hev n (fun j => e' j / (l' / l)) h.pos m3]
    rfl
  refine ⟨_, fun v _ i => (spectralOp U' (fun j => φ i (e' j / (l' / l))) *ᵥ x) v, C28_one_signal S f s _ b1 rfl _ (hev n e h.pos m1) order x, ?_, fun i => ?_⟩
  · rw [C28_one_signal S' _ s' _ b1' rfl _ ev' order x]
    exact congrArg (fun a => Except.ok (Arr.squeeze a)) (of3_reindex (f.scaled_Nf (l' / l)) fun v (_ : Fin 1) (i : Fin f.Nf) => (spectralOp U' (fun j => φ i (e' j / (l' / l))) *ᵥ x) v)
  · have hW := weightChange_nonneg g.W.dense g'.W.dense
    have fin : ∀ {t : ℝ}, t ≤ (K i * weightChange g.W.dense g'.W.dense + K i * |l - l'|) * √(∑ v, x v ^ 2) →
        t ≤ (∑ i, K i) * (weightChange g.W.dense g'.W.dense + |l - l'|) * √(∑ v, x v ^ 2) := by
      intro t ht
      refine ht.trans (mul_le_mul_of_nonneg_right ?_ (sqrt_nonneg _))
      rw [← mul_add]
      exact mul_le_mul_of_nonneg_right (hKi i) (by positivity)
    have hδ := frob_weights h h' hc hc'
    have rel : ∀ t, t - t / (l' / l) = t / l' * (l' - l) := fun t => by field_simp
    rcases le_total l' l with hle | hle
    · refine fin (outputs_diff (φ := φ i) (ψ := fun t => φ i (t / (l' / l))) b2 b2' (hK0 i) (fun a b => ?_) (mul_nonneg (hK0 i) (abs_nonneg _)) (fun j => ?_) hδ x)
      · exact hK i _ _ (m1 a).1 (m1 a).2 (m2 b).1 ((m2 b).2.trans hle)
      · refine (hK i _ _ (m2 j).1 ((m2 j).2.trans hle) (m3 j).1 (m3 j).2).trans (mul_le_mul_of_nonneg_left ?_ (hK0 i))
        rw [rel, abs_mul, abs_sub_comm l' l, abs_of_nonneg (div_nonneg (m2 j).1 hl'.le)]
        exact mul_le_of_le_one_left (abs_nonneg _) ((div_le_one hl').2 (m2 j).2)
    · have hδ' := frob_weights h' h hc' hc
      rw [weightChange_comm] at hδ'
      have swap : ∀ v, ((spectralOp U (fun j => φ i (e j)) *ᵥ x) v - (spectralOp U' (fun j => φ i (e' j / (l' / l))) *ᵥ x) v) ^ 2 =
          ((spectralOp U' (fun j => φ i (e' j / (l' / l))) *ᵥ x) v - (spectralOp U (fun j => φ i (e j)) *ᵥ x) v) ^ 2 := fun v => by ring
      simp only [swap]
      have m4 : ∀ j, e j ∈ Set.Icc 0 l' := fun j => ⟨(m1 j).1, (m1 j).2.trans hle⟩
      refine fin (outputs_diff (φ := fun t => φ i (t / (l' / l))) (ψ := φ i) b2' b2 (hK0 i) (fun a b => ?_) (mul_nonneg (hK0 i) (abs_nonneg _)) (fun j => ?_) hδ' x)
      · refine (hK i _ _ (m3 a).1 (m3 a).2 (sc (m4 b)).1 (sc (m4 b)).2).trans (mul_le_mul_of_nonneg_left ?_ (hK0 i))
        rw [← sub_div, abs_div, abs_of_pos hcl]
        exact div_le_self (abs_nonneg _) ((one_le_div hl).2 hle)
      · refine (hK i _ _ (sc (m4 j)).1 (sc (m4 j)).2 (m1 j).1 (m1 j).2).trans (mul_le_mul_of_nonneg_left ?_ (hK0 i))
        rw [abs_sub_comm, rel, abs_mul, abs_sub_comm l' l, abs_of_nonneg (div_nonneg (m1 j).1 hl'.le)]
        exact mul_le_of_le_one_left (abs_nonneg _) ((div_le_one hl').2 (m4 j).2)

/-- **C110** With an eigensolver that is only approximate: if the basis in use is orthonormal and diagonalises the Laplacian up to `ε` in Frobenius norm, filtering with kernels that are
`K`-Lipschitz (on a set that contains the computed and the true frequencies) is within `K ε` of the exact result, relatively to the norm of the signal. -/
theorem C110_inexact {S : Solvers n} {s : GState n} (hn : 0 < n) {e e' : Fin n → ℝ} {U U' : Matrix (Fin n) (Fin n) ℝ} (hb : (s.getBasis S).1 = .ok (some ⟨n, e, U⟩))
    (ho : Uᵀ * U = 1) {ε : ℝ} (hε : √(∑ i, ∑ j, (U * Matrix.diagonal e * Uᵀ - s.L) i j ^ 2) ≤ ε) (htrue : IsEigenPairs s.L e' U')
    {f : Bank} {A : Set ℝ} (hA : ∀ j, e j ∈ A ∧ e' j ∈ A) {φ : Fin f.Nf → ℝ → ℝ}
    (hf : ∀ (k : ℕ) (x : Fin k → ℝ), 0 < k → (∀ j, x j ∈ A) → f.evaluate x = .ok fun i j => φ i (x j)) {K : ℝ} (hK : 0 ≤ K)
    (hlip : ∀ i, ∀ a ∈ A, ∀ b ∈ A, |φ i a - φ i b| ≤ K * |a - b|) (order : ℕ) (x : Fin n → ℝ) :
    ∃ y : Fin n → Fin 1 → Fin f.Nf → ℝ, (f.filter S (Arr.of1 x) .exact order s).1 = .ok (Arr.of3 y).squeeze ∧
      ∀ i, √(∑ v, (y v 0 i - ((U' * Matrix.diagonal (fun j => φ i (e' j)) * U'ᵀ) *ᵥ x) v) ^ 2) ≤ K * ε * √(∑ v, x v ^ 2) := by
  refine ⟨_, C28_one_signal S f s _ hb rfl _ (hf n e hn fun j => (hA j).1) order x, fun i => ?_⟩
  have hp : IsEigenPairs (U * Matrix.diagonal e * Uᵀ) e U := ⟨ho, by rw [Matrix.mul_assoc, ho, Matrix.mul_one]⟩
  have := outputs_diff hp htrue hK (fun a b => hlip i _ (hA a).1 _ (hA b).2) le_rfl (ψ := φ i) (fun j => by rw [sub_self, abs_zero]) hε x
  rwa [add_zero] at this

/-! ### the hypotheses are met -/

/-- An edge whose weight goes from 3 to 5, a Lipschitz kernel and a heat filter. -/
example : ∃ (S S' : Solvers 2) (g g' : Graph 2 ℝ) (s s' : GState 2), Ready S g s ∧ Ready S' g' s' ∧ s.lapType = .combinatorial ∧ s'.lapType = .combinatorial ∧
    s.basis = none ∧ s'.basis = none ∧ weightChange g.W.dense g'.W.dense = 4 ∧ BuiltIn 6 (Design.heat 6 [10] none) ∧
    (∀ v, IsEigenvalue s.L v → v ≤ 6) ∧ (∀ v, IsEigenvalue s'.L v → v ≤ 10) ∧
    (∀ (k : ℕ) (x : Fin k → ℝ), 0 < k → (∀ j, x j ∈ (Set.univ : Set ℝ)) →
      (Bank.ofArg (.one (Kernel.pointwise fun t => 3 * t))).evaluate x = .ok fun _ j => 3 * x j) := by
  set M : Matrix (Fin 2) (Fin 2) ℝ := !![0, 3; 3, 0] with hM
  set M' : Matrix (Fin 2) (Fin 2) ℝ := !![0, 5; 5, 0] with hM'
  have hnn : NonnegW M := by intro i j; fin_cases i <;> fin_cases j <;> simp [hM]
  have hnn' : NonnegW M' := by intro i j; fin_cases i <;> fin_cases j <;> simp [hM']
  obtain ⟨S, g, s, h1, h2, h3, h4⟩ := exists_ready M hnn (by norm_num)
  obtain ⟨S', g', s', h1', h2', h3', h4'⟩ := exists_ready M' hnn' (by norm_num)
  have top : ∀ {S : Solvers 2} {g : Graph 2 ℝ} {s : GState 2}, Ready S g s → s.lapType = .combinatorial → ∀ w, (∀ i, wdeg g.W.dense i ≤ w) →
      ∀ v, IsEigenvalue s.L v → v ≤ 2 * w := by
    intro S g s h hl w hw v hv
    rw [h.comb hl] at hv
    obtain ⟨i, hi⟩ := eig_le_gershgorin h.nonneg hv
    linarith [hw i]
  refine ⟨S, S', g, g', s, s', h2, h2', h3, h3', h4, h4', ?_, .heat (by simp) none, ?_, ?_, ?_⟩
  · unfold weightChange
    rw [h1, h1']
    simp only [Fin.sum_univ_two, hM, hM']
    norm_num
  · refine fun v hv => (top h2 h3 3 (fun i => ?_) v hv).trans (by norm_num)
    rw [h1, ← sum_wsym]
    fin_cases i <;> simp [hM, wsym]
  · refine fun v hv => (top h2' h3' 5 (fun i => ?_) v hv).trans (by norm_num)
    rw [h1', ← sum_wsym]
    fin_cases i <;> simp [hM', wsym]
  · intro k x hk _
    have hp : (Bank.ofArg (.one (Kernel.pointwise fun t => 3 * t))).IsPointwise fun _ t => 3 * t := fun i => by
      change Fin 1 at i
      fin_cases i
      rfl
    exact hp.evaluate x

end PyGSP
