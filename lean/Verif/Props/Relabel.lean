import Verif.Lemmas.Relabel
import Verif.Spec.Ready
import Verif.Props.Utils
import Verif.Props.Learning
import Verif.Props.FilterWitness

/-!
# C102: renaming the vertices renames the results

Frequencies, filters (exact and Chebyshev), resistances and regressions do not depend on the order of the vertices, whatever eigenvectors the
solver returns; so they commute with the symmetries of the graph.
-/

namespace PyGSP

open Matrix Spec GState Polynomial Real Learning

variable {n : ℕ}

/-- The bank evaluates its filters as functions of the frequency, at frequencies in `A`. -/
def Spec.RespondsOn (f : Bank) (A : Set ℝ) : Prop :=
  ∃ φ : Fin f.Nf → ℝ → ℝ, ∀ (k : ℕ) (x : Fin k → ℝ), 0 < k → (∀ j, x j ∈ A) → f.evaluate x = .ok fun i j => φ i (x j)

theorem Spec.Ready.basis {S : Solvers n} {g : Graph n ℝ} {s : GState n} (h : Ready S g s) :
    ∃ (e : Fin n → ℝ) (U : Matrix (Fin n) (Fin n) ℝ), (s.getBasis S).1 = .ok (some ⟨n, e, U⟩) ∧ IsEigenPairs s.L e U := by
  obtain ⟨hist, hs⟩ := h.reached
  obtain ⟨⟨k, e, U⟩, h1, h2, h3⟩ := GState.complete_basis h.sound h.built hist hs h.nonneg h.pos h.known h.complete
  simp only at h2
  subst h2
  exact ⟨e, U, h1, h3⟩

theorem Spec.Ready.lap {S : Solvers n} {g : Graph n ℝ} {s : GState n} (h : Ready S g s) : laplacian g.W s.lapType = .ok s.L := by
  obtain ⟨hist, hs⟩ := h.reached
  exact (C18_laplacian h.sound h.built hist hs).2 h.known

/-- Exact filtering with a bank that responds to the frequencies of the graph. -/
theorem Spec.Ready.ops {S : Solvers n} {g : Graph n ℝ} {s : GState n} (h : Ready S g s) {f : Bank} {A : Set ℝ} {φ : Fin f.Nf → ℝ → ℝ}
    (hφ : ∀ (k : ℕ) (x : Fin k → ℝ), 0 < k → (∀ j, x j ∈ A) → f.evaluate x = .ok fun i j => φ i (x j)) (hA : ∀ l, IsEigenvalue s.L l → l ∈ A) (order : ℕ) :
    ∃ (e : Fin n → ℝ) (U : Matrix (Fin n) (Fin n) ℝ), IsEigenPairs s.L e U ∧ (f.ops S .exact order s).1 = .ok fun i => spectralOp U fun j => φ i (e j) := by
  obtain ⟨e, U, h1, h2⟩ := h.basis
  refine ⟨e, U, h2, ?_⟩
  rw [Bank.ops_exact_intro order (getBasis_split h1) rfl (hφ n e h.pos fun j => hA _ (h2.isEigenvalue j))]

section

variable {S S' : Solvers n} {g g' : Graph n ℝ} {s s' : GState n} (h : Ready S g s) (h' : Ready S' g' s') {σ : Equiv.Perm (Fin n)}
  (hσ : Relabel σ g.W.dense g'.W.dense) (ht : s'.lapType = s.lapType)

include h h' hσ ht

theorem relabel_L (i j : Fin n) : s'.L (σ i) (σ j) = s.L i j := by
  obtain ⟨-, L', h1, h2, -⟩ := C23_laplacian σ g.W g'.W hσ s.lapType s.L h.lap
  have h3 := h'.lap
  rw [ht, h1] at h3
  rw [← Except.ok.inj h3]
  exact h2 i j

theorem relabel_Q : s'.L * permQ σ = permQ σ * s.L := by
  ext i j
  rw [mul_permQ, permQ_mul, ← relabel_L h h' hσ ht, Equiv.apply_symm_apply]

/-- **C102** The two graphs have the same frequencies, and `compute_fourier_basis` returns them in the same order; with no basis before, `lmax` becomes the same. -/
theorem C102_spectrum :
    (∀ l, IsEigenvalue s'.L l ↔ IsEigenvalue s.L l) ∧
    (s.computeFourierBasis S none).1 = .ok () ∧ (s'.computeFourierBasis S' none).1 = .ok () ∧
    ∃ (e : Fin n → ℝ) (U U' : Matrix (Fin n) (Fin n) ℝ), (s.computeFourierBasis S none).2.basis = some ⟨n, e, U⟩ ∧
      (s'.computeFourierBasis S' none).2.basis = some ⟨n, e, U'⟩ ∧
      (s.basis = none → s'.basis = none → ∃ l, ((s.computeFourierBasis S none).2.getLmax S).1 = .ok (some (.fin l)) ∧
        ((s'.computeFourierBasis S' none).2.getLmax S').1 = .ok (some (.fin l))) := by
  have hQ := relabel_Q h h' hσ ht
  refine ⟨fun l => ?_, ?_⟩
  · have key : ∀ {τ : Equiv.Perm (Fin n)} {L L' : Matrix (Fin n) (Fin n) ℝ}, (∀ i j, L' (τ i) (τ j) = L i j) → IsEigenvalue L l → IsEigenvalue L' l := by
      rintro τ L L' hL ⟨x, hx, hx2⟩
      refine ⟨fun v => x (τ.symm v), fun h0 => hx (funext fun v => ?_), ?_⟩
      · have := congrFun h0 (τ v)
        simpa using this
      · funext v
        have := congrFun hx2 (τ.symm v)
        simp only [Matrix.mulVec, dotProduct, Pi.smul_apply, smul_eq_mul] at this ⊢
        rw [← this, ← Equiv.sum_comp τ]
        refine Finset.sum_congr rfl fun w _ => ?_
        rw [Equiv.symm_apply_apply, ← hL, Equiv.apply_symm_apply]
    have hL := relabel_L h h' hσ ht
    refine ⟨key (τ := σ.symm) fun i j => ?_, key (τ := σ) hL⟩
    rw [← hL, Equiv.apply_symm_apply, Equiv.apply_symm_apply]
  · obtain ⟨hist, hs⟩ := h.reached
    obtain ⟨hist', hs'⟩ := h'.reached
    obtain ⟨h1, b, hb, hb1, hb2, o1, o2, m1, -⟩ := C25_fourier_basis h.sound h.built h.nonneg hist hs h.known none h.pos le_rfl (.inl rfl)
    obtain ⟨h1', b', hb', hb1', hb2', o1', o2', m1', -⟩ := C25_fourier_basis h'.sound h'.built h'.nonneg hist' hs' h'.known none h'.pos le_rfl (.inl rfl)
    have hbk : b.k = n := le_antisymm hb2 hb1
    have hbk' : b'.k = n := le_antisymm hb2' hb1'
    refine ⟨h1, h1', ?_⟩
    have hl : s.basis = none → s'.basis = none → ∀ (hk : 0 < b.k) (hk' : 0 < b'.k), ((s.computeFourierBasis S none).2.getLmax S).1 = .ok (some (.fin (b.e ⟨b.k - 1, by omega⟩))) ∧
        ((s'.computeFourierBasis S' none).2.getLmax S').1 = .ok (some (.fin (b'.e ⟨b'.k - 1, by omega⟩))) := by
      intro hn hn' hk hk'
      obtain ⟨-, B, hB, hB1, -, hB3, -⟩ := C20_lmax_exact h.sound h.built h.nonneg h.pos hist hs h.known (by rw [hn]; intro b hb; cases hb)
      obtain ⟨-, B', hB', hB1', -, hB3', -⟩ := C20_lmax_exact h'.sound h'.built h'.nonneg h'.pos hist' hs' h'.known (by rw [hn']; intro b hb; cases hb)
      rw [hb] at hB1
      rw [hb'] at hB1'
      obtain rfl := Option.some.inj hB1
      obtain rfl := Option.some.inj hB1'
      exact ⟨hB3, hB3'⟩
    obtain ⟨k, e, U⟩ := b
    obtain ⟨k', e', U'⟩ := b'
    simp only at hbk hbk' o1 o1' o2 o2' m1 m1'
    subst hbk hbk'
    have he : e' = e := funext fun j => by
      have := sorted_intertwine (L := s.L) (L' := s'.L) ⟨o1, o2⟩ ⟨o1', o2'⟩ (permQ_det σ) (zero_le_one) (by rw [one_smul]; exact hQ) m1 m1' j
      rw [this, one_mul]
    subst he
    exact ⟨e', U, U', hb, hb', fun hn hn' => ⟨_, hl hn hn' h.pos h.pos⟩⟩

/-- **C102** Exact filtering of the relabelled signal on the relabelled graph gives the relabelled output, for every shape of input. -/
theorem C102_filter {f : Bank} {A : Set ℝ} (hf : RespondsOn f A) (hA : ∀ l, IsEigenvalue s.L l → l ∈ A) (order : ℕ) (a : Arr) :
    (f.filter S' (Spec.Arr.relabel σ a) .exact order s').1 = ((f.filter S a .exact order s).1).map (Spec.Arr.relabel σ) := by
  obtain ⟨φ, hφ⟩ := hf
  obtain ⟨e, U, h1, h2⟩ := h.ops hφ hA order
  obtain ⟨e', U', h1', h2'⟩ := h'.ops hφ (fun l hl => hA l (((C102_spectrum h h' hσ ht).1 l).1 hl)) order
  refine relabel_filter σ (.inr ⟨_, _, h2, h2', fun i => ?_⟩) a
  refine spectral_intertwine (c := 1) h1 h1' (by rw [one_smul]; exact relabel_Q h h' hσ ht) fun j j' hj => ?_
  rw [hj, one_mul]

/-- **C102** The same for the Chebyshev method, with any kernels, when the two graphs have the same `lmax`: same values, or the same exception. -/
theorem C102_chebyshev {l : ℝ} (hl : (s.getLmax S).1 = .ok (some (.fin l))) (hl' : (s'.getLmax S').1 = .ok (some (.fin l))) (f : Bank) (order : ℕ) (a : Arr) :
    (f.filter S' (Spec.Arr.relabel σ a) .chebyshev order s').1 = ((f.filter S a .chebyshev order s).1).map (Spec.Arr.relabel σ) := by
  have e1 : ∃ t, Bank.lmaxNum S s = (.ok l, t) := by
    unfold Bank.lmaxNum
    revert hl
    cases s.getLmax S with
    | mk r t => intro hl; dsimp only at hl; subst hl; exact ⟨t, rfl⟩
  have e2 : ∃ t, Bank.lmaxNum S' s' = (.ok l, t) := by
    unfold Bank.lmaxNum
    revert hl'
    cases s'.getLmax S' with
    | mk r t => intro hl'; dsimp only at hl'; subst hl'; exact ⟨t, rfl⟩
  obtain ⟨t, e1⟩ := e1
  obtain ⟨t', e2⟩ := e2
  refine relabel_filter σ ?_ a
  unfold Bank.ops
  dsimp only
  rw [e1, e2]
  dsimp only
  split
  · exact .inl ⟨_, rfl, rfl⟩
  · cases f.evaluate (chebNode l (order + 1)) with
    | error e => exact .inl ⟨_, rfl, rfl⟩
    | ok y =>
      dsimp only
      split
      · exact .inl ⟨_, rfl, rfl⟩
      · split
        · exact .inl ⟨_, rfl, rfl⟩
        · refine .inr ⟨_, _, rfl, rfl, fun i => aeval_intertwine ?_ _⟩
          unfold rescaled
          rw [(lmaxNum_stored e1).2.1, (lmaxNum_stored e2).2.1, Matrix.sub_mul, Matrix.mul_sub, Matrix.smul_mul, relabel_Q h h' hσ ht, Matrix.mul_smul, Matrix.one_mul, Matrix.mul_one]

/-- **C102** Effective resistances are relabelled too. -/
theorem C102_resistance (hl : s.lapType = .combinatorial) (hc : Connected g.W.dense) {pinv pinv' : Matrix (Fin n) (Fin n) ℝ → Matrix (Fin n) (Fin n) ℝ}
    (hp : ∀ A, Aᵀ = A → IsPinv A (pinv A)) (hp' : ∀ A, Aᵀ = A → IsPinv A (pinv' A)) :
    ∃ R R', resistanceDistance pinv s = .ok R ∧ resistanceDistance pinv' s' = .ok R' ∧ ∀ i j, R' (σ i) (σ j) = R i j := by
  have hc' : Connected g'.W.dense := by
    have key : ∀ i j, Linked g.W.dense i j → Linked g'.W.dense (σ i) (σ j) := by
      intro i j hij
      refine Relation.ReflTransGen.lift σ (fun a b hab => ?_) _ _ hij
      dsimp only [Function.onFun]
      rw [hσ, hσ]
      exact hab
    intro i j
    have := key _ _ (hc (σ.symm i) (σ.symm j))
    simpa using this
  obtain ⟨hist, hs⟩ := h.reached
  obtain ⟨hist', hs'⟩ := h'.reached
  obtain ⟨R, h1, h2⟩ := C55_effective_resistance h.sound h.built hist hs hl h.nonneg hc hp
  obtain ⟨R', h1', h2'⟩ := C55_effective_resistance h'.sound h'.built hist' hs' (ht.trans hl) h'.nonneg hc' hp'
  refine ⟨R, R', h1, h1', fun i j => ?_⟩
  obtain ⟨⟨v, hv⟩, hr⟩ := h2 i j
  have hw : ∀ a b, wsym g'.W.dense (σ a) (σ b) = wsym g.W.dense a b := fun a b => by unfold wsym; rw [hσ, hσ]
  have := (h2' (σ i) (σ j)).2 (fun x => v (σ.symm x)) fun x => by
    have := hv (σ.symm x)
    rw [← Equiv.sum_comp σ]
    have e1 : ∀ y, wsym g'.W.dense x (σ y) = wsym g.W.dense (σ.symm x) y := fun y => by rw [← hw, Equiv.apply_symm_apply]
    simp only [e1, Equiv.symm_apply_apply]
    rw [this]
    simp only [Equiv.symm_apply_eq]
  rw [← this, ← hr v hv]
  simp

/-- **C102** So are the results of `regression_tikhonov`, with or without constraints. -/
theorem C102_regression (hl : s.lapType = .combinatorial) {cg cg'} (hcg : ExactCG cg) (hcg' : ExactCG cg') (y : Fin n → ℝ) (m : Fin n → Bool)
    (ha : Anchored g.W.dense m) (hu : ∃ v, m v = false) (tau : ℝ) :
    ∃ x, regression1 cg false s.L y m tau = .ok x ∧
      regression1 cg' false s'.L (fun v => y (σ.symm v)) (fun v => m (σ.symm v)) tau = .ok fun v => x (σ.symm v) := by
  obtain ⟨hist, hs⟩ := h.reached
  obtain ⟨hist', hs'⟩ := h'.reached
  have hL := relabel_L h h' hσ ht
  have hsm : ∀ x : Fin n → ℝ, smoothness s'.L x = smoothness s.L fun v => x (σ v) := by
    intro x
    unfold smoothness
    simp only [dotProduct, Matrix.mulVec]
    rw [← Equiv.sum_comp σ]
    refine Finset.sum_congr rfl fun i _ => ?_
    rw [← Equiv.sum_comp σ]
    simp only [hL]
  have ha' : Anchored g'.W.dense fun v => m (σ.symm v) := by
    have key : ∀ i j, Linked g.W.dense i j → Linked g'.W.dense (σ i) (σ j) := by
      intro i j hij
      refine Relation.ReflTransGen.lift σ (fun a b hab => ?_) _ _ hij
      dsimp only [Function.onFun]
      rw [hσ, hσ]
      exact hab
    intro v
    obtain ⟨b, hb, hb2⟩ := ha (σ.symm v)
    refine ⟨σ b, by simpa using hb, ?_⟩
    have := key _ _ hb2
    simpa using this
  rcases le_or_gt tau 0 with h0 | h0
  · obtain ⟨x, h1, h2, h3, -⟩ := C58_interpolation h.sound h.built hist hs h.nonneg hl cg y m ha hu h0
    obtain ⟨x', h1', h2', h3', -⟩ := C58_interpolation h'.sound h'.built hist' hs' h'.nonneg (ht.trans hl) cg' (fun v => y (σ.symm v)) _ ha'
      (by obtain ⟨v, hv⟩ := hu; exact ⟨σ v, by simpa using hv⟩) h0
    refine ⟨x, h1, h1'.trans (congrArg _ ?_)⟩
    have e1 := h3 (fun v => x' (σ v)) fun v hv => by rw [h2' (σ v) (by simpa using hv)]; simp
    have e2 := (h3' (fun v => x (σ.symm v)) fun v hv => h2 _ hv).1
    rw [hsm, hsm] at e2
    simp only [Equiv.symm_apply_apply] at e2
    have e3 := e1.2 (le_antisymm e2 e1.1)
    funext v
    rw [← e3]
    simp
  · obtain ⟨x, h1, h2, -⟩ := C59_unique_bounded h.sound h.built hist hs h.nonneg hl hcg false y m ha h0
    obtain ⟨x', h1', h2', -⟩ := C59_unique_bounded h'.sound h'.built hist' hs' h'.nonneg (ht.trans hl) hcg' false (fun v => y (σ.symm v)) _ ha' h0
    obtain ⟨z, hz, hz2⟩ := C59_minimises h'.sound h'.built hist' hs' h'.nonneg hcg' false (fun v => y (σ.symm v)) (fun v => m (σ.symm v)) h0
    rw [h1'] at hz
    obtain rfl := Except.ok.inj hz
    refine ⟨x, h1, h1'.trans (congrArg _ ?_)⟩
    have ho : ∀ z : Fin n → ℝ, objective s'.L (fun v => m (σ.symm v)) (fun v => y (σ.symm v)) tau z = objective s.L m y tau fun v => z (σ v) := by
      intro z
      unfold objective
      rw [hsm, ← Equiv.sum_comp σ]
      simp only [Equiv.symm_apply_apply]
    have e1 := h2 (fun v => x' (σ v)) (by
      have := hz2 fun v => x (σ.symm v)
      rw [ho, ho] at this
      simpa using this)
    funext v
    rw [← e1]
    simp

end

/-- **C102** Filters commute with the symmetries of the graph: on a ring a filter is a circular convolution. -/
theorem C102_symmetry {S : Solvers n} {g : Graph n ℝ} {s : GState n} (h : Ready S g s) {σ : Equiv.Perm (Fin n)}
    (hσ : ∀ i j, g.W.dense (σ i) (σ j) = g.W.dense i j) {f : Bank} {A : Set ℝ} (hf : RespondsOn f A) (hA : ∀ l, IsEigenvalue s.L l → l ∈ A) (order : ℕ) (a : Arr) :
    (f.filter S (Spec.Arr.relabel σ a) .exact order s).1 = ((f.filter S a .exact order s).1).map (Spec.Arr.relabel σ) :=
  C102_filter h h hσ rfl hf hA order a

/-! ### the hypotheses are met -/

/-- Every matrix of non-negative weights is that of a graph object, fresh or in use. -/
theorem exists_ready (M : Matrix (Fin n) (Fin n) ℝ) (hM : NonnegW M) (hn : 0 < n) :
    ∃ (S : Solvers n) (g : Graph n ℝ) (s : GState n), g.W.dense = M ∧ Ready S g s ∧ s.lapType = .combinatorial ∧ s.basis = none := by
  obtain ⟨g, hg, hd, hlt⟩ := Graph.exists_built (K := ℝ) M
  obtain ⟨S, hS, -⟩ := exists_sound n
  have h0 := GState.ofGraph_inv (S := S) g hg
  have hl : (GState.ofGraph g).lapType = .combinatorial := by rw [h0.2.2.1, hlt]
  exact ⟨S, g, GState.ofGraph g, hd, ⟨hS, hg, by rw [hd]; exact hM, hn, ⟨[], rfl⟩, .inl hl, by rw [h0.2.2.2.2.2]; intro b hb; cases hb⟩, hl, h0.2.2.2.2.2⟩

theorem respondsOn_pointwise {f : Bank} {k : Fin f.Nf → ℝ → ℝ} (h : f.IsPointwise k) (A : Set ℝ) : RespondsOn f A :=
  ⟨k, fun _ x _ _ => h.evaluate x⟩

theorem respondsOn_builtIn {l : ℝ} (hl : 0 < l) {f : Bank} (hf : BuiltIn l f) : RespondsOn f (Set.Icc 0 l) := by
  obtain ⟨φ, -, h⟩ := builtIn_lip hl hf
  exact ⟨φ, h⟩

/-- a weighted path and the same path with its vertices renamed (not a symmetry), a Meyer filter bank on them -/
example : ∃ (S S' : Solvers 3) (g g' : Graph 3 ℝ) (s s' : GState 3) (σ : Equiv.Perm (Fin 3)) (f : Bank) (l : ℝ), Ready S g s ∧ Ready S' g' s' ∧
    Relabel σ g.W.dense g'.W.dense ∧ s'.lapType = s.lapType ∧ s.lapType = .combinatorial ∧ RespondsOn f (Set.Icc 0 l) ∧
    (∀ v, IsEigenvalue s.L v → v ∈ Set.Icc 0 l) ∧ Connected g.W.dense ∧ g'.W.dense ≠ g.W.dense := by
  set M : Matrix (Fin 3) (Fin 3) ℝ := !![0, 1, 0; 1, 0, 2; 0, 2, 0] with hM
  have hnn : NonnegW M := by intro i j; fin_cases i <;> fin_cases j <;> simp [hM]
  set σ : Equiv.Perm (Fin 3) := Equiv.swap 0 1
  obtain ⟨S, g, s, h1, h2, h3, -⟩ := exists_ready M hnn (by norm_num)
  obtain ⟨S', g', s', h1', h2', h3', -⟩ := exists_ready (M.submatrix σ.symm σ.symm) (fun i j => hnn _ _) (by norm_num)
  obtain ⟨e, U, he, heig⟩ := h2.basis
  obtain ⟨hist, hs⟩ := h2.reached
  obtain ⟨hi, hWs, -⟩ := reach_inv h2.sound h2.built hist
  rw [← hs] at hi hWs
  have hpsd := hi.psd (show NonnegW s.W.dense by rw [hWs]; exact h2.nonneg)
  -- every eigenvalue is one of the `e j`
  have hev : ∀ v, IsEigenvalue s.L v → ∃ j, e j = v := by
    rintro v ⟨x, hx, hx2⟩
    have hU : U * Uᵀ = 1 := mul_eq_one_comm.1 heig.orthonormal
    have hy : Uᵀ *ᵥ x ≠ 0 := fun h0 => hx (by rw [← Matrix.one_mulVec x, ← hU, ← Matrix.mulVec_mulVec, h0, Matrix.mulVec_zero])
    obtain ⟨j, hj⟩ := Function.ne_iff.1 hy
    refine ⟨j, ?_⟩
    have hd : diagonal e * Uᵀ = Uᵀ * s.L := by
      have : s.L = U * diagonal e * Uᵀ := by rw [← heig.eig, Matrix.mul_assoc, hU, Matrix.mul_one]
      rw [this, ← Matrix.mul_assoc, ← Matrix.mul_assoc, heig.orthonormal, Matrix.one_mul]
    have : (diagonal e *ᵥ (Uᵀ *ᵥ x)) j = (v • (Uᵀ *ᵥ x)) j := by
      rw [Matrix.mulVec_mulVec, hd, ← Matrix.mulVec_mulVec, hx2, Matrix.mulVec_smul]
    rw [Matrix.mulVec_diagonal, Pi.smul_apply, smul_eq_mul] at this
    exact mul_right_cancel₀ hj this
  set l := 1 + ∑ j, |e j| with hl
  have hl0 : 0 < l := by positivity
  refine ⟨S, S', g, g', s, s', σ, Design.heat l [10] none, l, h2, h2', ?_, by rw [h3', h3], h3, respondsOn_builtIn hl0 (.heat (by simp) none), ?_, ?_, ?_⟩
  · intro i j
    rw [h1, h1', Matrix.submatrix_apply, Equiv.symm_apply_apply, Equiv.symm_apply_apply]
  · intro v hv
    refine ⟨eig_nonneg hpsd hv, ?_⟩
    obtain ⟨j, rfl⟩ := hev v hv
    have := Finset.single_le_sum (fun i _ => abs_nonneg (e i)) (Finset.mem_univ j)
    linarith [le_abs_self (e j)]
  · rw [h1]
    have a : ∀ i j : Fin 3, M i j ≠ 0 → Linked M i j := fun i j h => .single (.inl h)
    have h01 := a 0 1 (by simp [hM])
    have h10 := a 1 0 (by simp [hM])
    have h12 := a 1 2 (by simp [hM])
    have h21 := a 2 1 (by simp [hM])
    intro i j
    fin_cases i <;> fin_cases j
    exacts [.refl, h01, h01.trans h12, h10, .refl, h12, h21.trans h10, h21, .refl]
  · rw [h1, h1']
    intro h
    have := congrFun (congrFun h 0) 2
    simp [hM, σ, Equiv.swap_apply_def] at this

end PyGSP
