import Verif.Lemmas.Weyl
import Verif.Props.Relabel

/-!
# C104: more weight, more of everything — except resistance
-/

namespace PyGSP

open Matrix Spec GState Real

variable {n : ℕ}

/-- What `compute_fourier_basis()` leaves behind. -/
theorem Spec.Ready.fourier {S : Solvers n} {g : Graph n ℝ} {s : GState n} (h : Ready S g s) :
    (s.computeFourierBasis S none).1 = .ok () ∧ ∃ (e : Fin n → ℝ) (U : Matrix (Fin n) (Fin n) ℝ),
      (s.computeFourierBasis S none).2.basis = some ⟨n, e, U⟩ ∧ IsEigenPairs s.L e U ∧ Monotone e ∧
      (s.basis = none → ((s.computeFourierBasis S none).2.getLmax S).1 = .ok (some (.fin (e ⟨n - 1, by have := h.pos; omega⟩)))) := by
  obtain ⟨hist, hs⟩ := h.reached
  obtain ⟨h1, b, hb, hb1, hb2, o1, o2, m1, -⟩ := C25_fourier_basis h.sound h.built h.nonneg hist hs h.known none h.pos le_rfl (.inl rfl)
  have hbk : b.k = n := le_antisymm hb2 hb1
  have hl : s.basis = none → ∀ hk : 0 < b.k, ((s.computeFourierBasis S none).2.getLmax S).1 = .ok (some (.fin (b.e ⟨b.k - 1, by omega⟩))) := by
    intro hn hk
    obtain ⟨-, B, hB, hB1, -, hB3, -⟩ := C20_lmax_exact h.sound h.built h.nonneg h.pos hist hs h.known (by rw [hn]; intro b hb; cases hb)
    rw [hb] at hB1
    obtain rfl := Option.some.inj hB1
    exact hB3
  obtain ⟨k, e, U⟩ := b
  simp only at hbk o1 o2 m1
  subst hbk
  exact ⟨h1, e, U, hb, ⟨o1, o2⟩, m1, fun h0 => hl h0 h.pos⟩

theorem Spec.Ready.comb {S : Solvers n} {g : Graph n ℝ} {s : GState n} (h : Ready S g s) (hl : s.lapType = .combinatorial) : s.L = combLap g.W.dense := by
  obtain ⟨hist, hs⟩ := h.reached
  exact L_combinatorial h.sound h.built hist hs hl

section

variable {S S' : Solvers n} {g g' : Graph n ℝ} {s s' : GState n} (h : Ready S g s) (h' : Ready S' g' s')
  (hW : ∀ i j, g.W.dense i j ≤ g'.W.dense i j)

theorem dirichlet_mono {M M' : Matrix (Fin n) (Fin n) ℝ} (hM : ∀ i j, M i j ≤ M' i j) (x : Fin n → ℝ) : dirichlet M x ≤ dirichlet M' x := by
  unfold dirichlet
  refine mul_le_mul_of_nonneg_left (Finset.sum_le_sum fun i _ => Finset.sum_le_sum fun j _ => ?_) (by norm_num)
  exact mul_le_mul_of_nonneg_right (hM i j) (sq_nonneg _)

include h h' hW

/-- **C104** Connectivity is never lost by adding weight: if `is_connected()` says yes for the lighter graph, it does for the heavier one. -/
theorem C104_connected (pop pop' : Pop n) (hc : (s.isConnected pop).1 = .ok true) : (s'.isConnected pop').1 = .ok true := by
  obtain ⟨hist, hs⟩ := h.reached
  obtain ⟨hist', hs'⟩ := h'.reached
  obtain ⟨b, h1, h2⟩ := C18_connected h.sound h.built hist hs h.pos pop
  obtain ⟨b', h1', h2'⟩ := C18_connected h'.sound h'.built hist' hs' h'.pos pop'
  rw [hc] at h1
  obtain rfl := Except.ok.inj h1
  have h3 := h2.1 rfl
  rw [h1', h2'.2]
  have key : ∀ i j, Arc g.W.dense i j → Arc g'.W.dense i j := fun i j hij =>
    (lt_of_lt_of_le (lt_of_le_of_ne (h.nonneg i j) (Ne.symm hij)) (hW i j)).ne'
  exact fun i j => Relation.ReflTransGen.mono key _ _ (h3 i j)

variable (hl : s.lapType = .combinatorial) (hl' : s'.lapType = .combinatorial)

include hl hl'

/-- **C104** For the combinatorial Laplacian, the Dirichlet energy of every signal grows with the weights. -/
theorem C104_energy (x : Fin n → ℝ) : dirichletEnergy s.L x ≤ dirichletEnergy s'.L x := by
  unfold dirichletEnergy
  rw [h.comb hl, h'.comb hl', combLap_quad, combLap_quad]
  exact dirichlet_mono hW x

/-- **C104** So does every graph frequency, one by one in the order returned by `compute_fourier_basis`, and `lmax`. -/
theorem C104_spectrum :
    (s.computeFourierBasis S none).1 = .ok () ∧ (s'.computeFourierBasis S' none).1 = .ok () ∧
    ∃ (e e' : Fin n → ℝ) (U U' : Matrix (Fin n) (Fin n) ℝ), (s.computeFourierBasis S none).2.basis = some ⟨n, e, U⟩ ∧
      (s'.computeFourierBasis S' none).2.basis = some ⟨n, e', U'⟩ ∧ (∀ k, e k ≤ e' k) ∧
      (s.basis = none → s'.basis = none → ∃ l l', ((s.computeFourierBasis S none).2.getLmax S).1 = .ok (some (.fin l)) ∧
        ((s'.computeFourierBasis S' none).2.getLmax S').1 = .ok (some (.fin l')) ∧ l ≤ l') := by
  obtain ⟨h1, e, U, h2, h3, h4, h5⟩ := h.fourier
  obtain ⟨h1', e', U', h2', h3', h4', h5'⟩ := h'.fourier
  have key := Weyl.le_of_quad_le h3 h3' h4 h4' (C104_energy h h' hW hl hl')
  exact ⟨h1, h1', e, e', U, U', h2, h2', key, fun h0 h0' => ⟨_, _, h5 h0, h5' h0', key _⟩⟩

/-- **C104** Rayleigh's monotonicity law: effective resistances can only decrease. -/
theorem C104_resistance (hc : Connected g.W.dense) {pinv pinv' : Matrix (Fin n) (Fin n) ℝ → Matrix (Fin n) (Fin n) ℝ}
    (hp : ∀ A, Aᵀ = A → IsPinv A (pinv A)) (hp' : ∀ A, Aᵀ = A → IsPinv A (pinv' A)) :
    ∃ R R', resistanceDistance pinv s = .ok R ∧ resistanceDistance pinv' s' = .ok R' ∧ ∀ i j, R' i j ≤ R i j := by
  have key : ∀ i j, g.W.dense i j ≠ 0 → g'.W.dense i j ≠ 0 := fun i j hij =>
    (lt_of_lt_of_le (lt_of_le_of_ne (h.nonneg i j) (Ne.symm hij)) (hW i j)).ne'
  have hc' : Connected g'.W.dense := fun i j => Relation.ReflTransGen.mono (fun a b => Or.imp (key _ _) (key _ _)) _ _ (hc i j)
  obtain ⟨hist, hs⟩ := h.reached
  obtain ⟨hist', hs'⟩ := h'.reached
  obtain ⟨R, h1, h2⟩ := C55_effective_resistance h.sound h.built hist hs hl h.nonneg hc hp
  obtain ⟨R', h1', h2'⟩ := C55_effective_resistance h'.sound h'.built hist' hs' hl' h'.nonneg hc' hp'
  refine ⟨R, R', h1, h1', fun i j => ?_⟩
  obtain ⟨⟨v, hv⟩, hr⟩ := h2 i j
  obtain ⟨⟨v', hv'⟩, hr'⟩ := h2' i j
  have hδ : ∀ u : Fin n → ℝ, u ⬝ᵥ (fun x => (if x = i then (1 : ℝ) else 0) - if x = j then 1 else 0) = u i - u j := by
    intro u
    simp [dotProduct, mul_sub, Finset.sum_sub_distrib]
  have hL : combLap g.W.dense *ᵥ v = fun x => (if x = i then (1 : ℝ) else 0) - if x = j then 1 else 0 := funext fun x => by rw [combLap_mulVec, hv]
  have hL' : combLap g'.W.dense *ᵥ v' = fun x => (if x = i then (1 : ℝ) else 0) - if x = j then 1 else 0 := funext fun x => by rw [combLap_mulVec, hv']
  have a1 : v ⬝ᵥ (combLap g.W.dense *ᵥ v) = R i j := by rw [hL, hδ, hr v hv]
  have a2 : v' ⬝ᵥ (combLap g.W.dense *ᵥ v) = R' i j := by rw [hL, hδ, hr' v' hv']
  have a3 : v ⬝ᵥ (combLap g.W.dense *ᵥ v') = R' i j := by
    rw [Matrix.dotProduct_mulVec, ← Matrix.mulVec_transpose, combLap_isSymm, dotProduct_comm, a2]
  have a4 : v' ⬝ᵥ (combLap g.W.dense *ᵥ v') ≤ R' i j := by
    have : v' ⬝ᵥ (combLap g'.W.dense *ᵥ v') = R' i j := by rw [hL', hδ, hr' v' hv']
    rw [← this, combLap_quad, combLap_quad]
    exact dirichlet_mono hW v'
  have a5 : 0 ≤ (v - v') ⬝ᵥ (combLap g.W.dense *ᵥ (v - v')) := by
    rw [combLap_quad]
    exact dirichlet_nonneg h.nonneg _
  rw [Matrix.mulVec_sub, sub_dotProduct, dotProduct_sub, dotProduct_sub, a1, a2, a3] at a5
  linarith

end

/-- The hypotheses of C104 are satisfiable: an edge of weight 3, raised to 5. -/
example : ∃ (S S' : Solvers 2) (g g' : Graph 2 ℝ) (s s' : GState 2), Ready S g s ∧ Ready S' g' s' ∧
    (∀ i j, g.W.dense i j ≤ g'.W.dense i j) ∧ s.lapType = .combinatorial ∧ s'.lapType = .combinatorial ∧ s.basis = none ∧ s'.basis = none ∧ Connected g.W.dense ∧
    ∀ pop, (s.isConnected pop).1 = .ok true := by
  set M : Matrix (Fin 2) (Fin 2) ℝ := !![0, 3; 3, 0] with hM
  set M' : Matrix (Fin 2) (Fin 2) ℝ := !![0, 5; 5, 0] with hM'
  have hnn : NonnegW M := by intro i j; fin_cases i <;> fin_cases j <;> simp [hM]
  have hnn' : NonnegW M' := by intro i j; fin_cases i <;> fin_cases j <;> simp [hM']
  obtain ⟨S, g, s, h1, h2, h3, h4⟩ := exists_ready M hnn (by norm_num)
  obtain ⟨S', g', s', h1', h2', h3', h4'⟩ := exists_ready M' hnn' (by norm_num)
  refine ⟨S, S', g, g', s, s', h2, h2', ?_, h3, h3', h4, h4', ?_, ?_⟩
  · intro i j
    rw [h1, h1']
    fin_cases i <;> fin_cases j <;> simp [hM, hM'] <;> norm_num
  · rw [h1]
    intro i j
    fin_cases i <;> fin_cases j
    exacts [.refl, .single (.inl (by simp [hM])), .single (.inl (by simp [hM])), .refl]
  · intro pop
    obtain ⟨hist, hs⟩ := h2.reached
    obtain ⟨b, b1, b2⟩ := C18_connected h2.sound h2.built hist hs h2.pos pop
    rw [b1, b2.2]
    rw [h1]
    intro i j
    fin_cases i <;> fin_cases j
    exacts [.refl, .single (by change M 0 1 ≠ 0; simp [hM]), .single (by change M 1 0 ≠ 0; simp [hM]), .refl]

end PyGSP
