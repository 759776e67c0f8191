import Verif.Lemmas.Interlace
import Verif.Lemmas.Generators
import Verif.Props.Kron
import Verif.Props.Monotone

/-!
# C111: interlacing of the frequencies
-/

namespace PyGSP

open Matrix Spec GState Real Learning Reduction

variable {n k : ℕ}

theorem dot_sum_sq {m : ℕ} (x : Fin m → ℝ) : x ⬝ᵥ x = ∑ i, x i ^ 2 := Finset.sum_congr rfl fun i _ => (sq _).symm

theorem Spec.Ready.eig_nonneg {S : Solvers n} {g : Graph n ℝ} {s : GState n} (h : Ready S g s) {v : ℝ} (hv : IsEigenvalue s.L v) : 0 ≤ v := by
  obtain ⟨hist, hs⟩ := h.reached
  obtain ⟨hi', hWs, -⟩ := reach_inv h.sound h.built hist
  rw [← hs] at hi' hWs
  exact PyGSP.eig_nonneg (hi'.psd (show NonnegW s.W.dense by rw [hWs]; exact h.nonneg)) hv

/-! ### changing a few edges -/

section

variable {S S' : Solvers n} {g g' : Graph n ℝ} {s s' : GState n}

theorem edges_step (h : Ready S g s) (h' : Ready S' g' s') (hl : s.lapType = .combinatorial) (hl' : s'.lapType = .combinatorial) {r : ℕ} {p : Fin r → Fin n × Fin n}
    (hp : ∀ i j, g.W.dense i j ≠ g'.W.dense i j → ∃ a, p a = (i, j) ∨ p a = (j, i)) {e e' : Fin n → ℝ} {U U' : Matrix (Fin n) (Fin n) ℝ} (he : IsEigenPairs s.L e U)
    (he' : IsEigenPairs s'.L e' U') (hm : Monotone e) (hm' : Monotone e') (k : ℕ) (hk : k + r < n) : e ⟨k, by omega⟩ ≤ e' ⟨k + r, hk⟩ := by
  refine Weyl.interlace he he' hm hm' (fun i => h.eig_nonneg (he.isEigenvalue i)) 1
    (Matrix.of fun a v => (if v = (p a).1 then (1 : ℝ) else 0) - if v = (p a).2 then 1 else 0) (fun x hx => ?_) (fun x _ => by rw [Matrix.one_mulVec]) (by omega) hk
  rw [Matrix.one_mulVec, h.comb hl, h'.comb hl', combLap_quad, combLap_quad]
  refine le_of_eq ?_
  unfold dirichlet
  congr 1
  refine Finset.sum_congr rfl fun i _ => Finset.sum_congr rfl fun j _ => ?_
  by_cases hij : g.W.dense i j = g'.W.dense i j
  · rw [hij]
  · obtain ⟨a, ha⟩ := hp i j hij
    have hxa : x (p a).1 - x (p a).2 = 0 := by
      have := congrFun hx a
      simpa [Matrix.mulVec, dotProduct, sub_mul, Finset.sum_sub_distrib] using this
    have : x i - x j = 0 := by
      rcases ha with ha | ha
      · rw [ha] at hxa; exact hxa
      · rw [ha] at hxa
        dsimp only at hxa
        linarith
    rw [this]
    ring

/-- **C111** If the weights of two graphs differ on at most `r` pairs of vertices, their frequencies interlace: `e[k] <= e'[k + r]` and `e'[k] <= e[k + r]`. -/
theorem C111_edges (h : Ready S g s) (h' : Ready S' g' s') (hl : s.lapType = .combinatorial) (hl' : s'.lapType = .combinatorial) {r : ℕ} {p : Fin r → Fin n × Fin n}
    (hp : ∀ i j, g.W.dense i j ≠ g'.W.dense i j → ∃ a, p a = (i, j) ∨ p a = (j, i)) :
    (s.computeFourierBasis S none).1 = .ok () ∧ (s'.computeFourierBasis S' none).1 = .ok () ∧
    ∃ (e e' : Fin n → ℝ) (U U' : Matrix (Fin n) (Fin n) ℝ), (s.computeFourierBasis S none).2.basis = some ⟨n, e, U⟩ ∧
      (s'.computeFourierBasis S' none).2.basis = some ⟨n, e', U'⟩ ∧
      ∀ k (hk : k + r < n), e ⟨k, by omega⟩ ≤ e' ⟨k + r, hk⟩ ∧ e' ⟨k, by omega⟩ ≤ e ⟨k + r, hk⟩ := by
  obtain ⟨h1, e, U, h2, h3, h4, -⟩ := h.fourier
  obtain ⟨h1', e', U', h2', h3', h4', -⟩ := h'.fourier
  refine ⟨h1, h1', e, e', U, U', h2, h2', fun k hk => ⟨edges_step h h' hl hl' hp h3 h3' h4 h4' k hk, edges_step h' h hl' hl (fun i j hij => hp i j (Ne.symm hij)) h3' h3 h4' h4 k hk⟩⟩

end

/-! ### Kron reduction -/

section

variable {S : Solvers n} {g : Graph n ℝ} {s : GState n} (h : Ready S g s) (hl : s.lapType = .combinatorial) {ind : Fin k → Fin n} (hi : Function.Injective ind)

/-- The coordinates that are not kept. -/
theorem exists_removed (hi : Function.Injective ind) : ∃ p : Fin (n - k) → Fin n, ∀ v, kept ind v = false → ∃ a, p a = v := by
  classical
  have hc : (Finset.univ.filter fun v => kept ind v = false).card = n - k := by
    have h1 : (Finset.univ.filter fun v => kept ind v = true) = Finset.univ.image ind := by
      ext v
      simp only [Finset.mem_filter, Finset.mem_univ, true_and, Finset.mem_image]
      exact kept_iff ind v
    have h2 := Finset.card_filter_add_card_filter_not (s := (Finset.univ : Finset (Fin n))) (fun v => kept ind v = true)
    rw [h1, Finset.card_image_of_injective _ hi, Finset.card_univ, Finset.card_univ, Fintype.card_fin, Fintype.card_fin] at h2
    simp only [Bool.not_eq_true] at h2
    omega
  refine ⟨fun a => ((Finset.univ.filter fun v => kept ind v = false).equivFinOfCardEq hc).symm a, fun v hv => ?_⟩
  exact ⟨((Finset.univ.filter fun v => kept ind v = false).equivFinOfCardEq hc) ⟨v, by simpa using hv⟩, by simp⟩

/-- Restricting to the kept vertices. -/
theorem restrict_mulVec (ind : Fin k → Fin n) (x : Fin n → ℝ) : (Matrix.of fun a v => if v = ind a then (1 : ℝ) else 0) *ᵥ x = fun a => x (ind a) := by
  funext a
  simp [Matrix.mulVec, dotProduct]

include h hl hi

theorem upper_step {K : Matrix (Fin k) (Fin k) ℝ} (hK : ∀ x : Fin n → ℝ, (∀ v, kept ind v = false → x v = 0) →
      (fun a => x (ind a)) ⬝ᵥ (K *ᵥ fun a => x (ind a)) ≤ x ⬝ᵥ (s.L *ᵥ x)) {e : Fin n → ℝ} {U : Matrix (Fin n) (Fin n) ℝ} {e' : Fin k → ℝ} {U' : Matrix (Fin k) (Fin k) ℝ}
    (he : IsEigenPairs s.L e U) (he' : IsEigenPairs K e' U') (hm : Monotone e) (hm' : Monotone e') (h0 : ∀ i, 0 ≤ e' i) (hkn : k ≤ n) (j : Fin k) :
    e' j ≤ e ⟨j + (n - k), by omega⟩ := by
  obtain ⟨p, hp⟩ := exists_removed hi
  have hC : ∀ x : Fin n → ℝ, (Matrix.of fun a v => if v = p a then (1 : ℝ) else 0) *ᵥ x = 0 → ∀ v, kept ind v = false → x v = 0 := by
    intro x hx v hv
    obtain ⟨a, rfl⟩ := hp v hv
    have := congrFun hx a
    rwa [restrict_mulVec] at this
  refine Weyl.interlace he' he hm' hm h0 (Matrix.of fun a v => if v = ind a then (1 : ℝ) else 0) (Matrix.of fun a v => if v = p a then (1 : ℝ) else 0)
    (fun x hx => ?_) (fun x hx => ?_) j.2 _
  · rw [restrict_mulVec]
    exact hK x (hC x hx)
  · rw [restrict_mulVec, dot_sum_sq, dot_sum_sq, sum_kept hi]
    refine le_of_eq (add_eq_left.2 (Finset.sum_eq_zero fun u _ => ?_))
    rw [hC x hx u.1 u.2]
    norm_num

/-- **C111** The frequencies of the Kron reduction to `k` of the `n` vertices interlace with those of the graph: `e[j] <= e_r[j] <= e[j + n - k]`.  So the reduction never lowers a frequency,
and never raises the largest one. -/
theorem C111_kron (hu : Undirected g.W.dense) (hk : 2 ≤ k) (he : ∃ v, ∀ a, ind a ≠ v) (ha : ∀ v, ∃ a, Linked g.W.dense v (ind a)) {R : Type} (c : Coords n R) (hcm : c ≠ .missing)
    {S' : Solvers k} (hS' : Sound S') :
    ∃ (g' : Graph k ℝ) (c' : Coords k R), kronGraph s c ind = .ok (g', c') ∧ (s.computeFourierBasis S none).1 = .ok () ∧
      ((GState.ofGraph g').computeFourierBasis S' none).1 = .ok () ∧
      ∃ (e : Fin n → ℝ) (e' : Fin k → ℝ) (U : Matrix (Fin n) (Fin n) ℝ) (U' : Matrix (Fin k) (Fin k) ℝ), (s.computeFourierBasis S none).2.basis = some ⟨n, e, U⟩ ∧
        ((GState.ofGraph g').computeFourierBasis S' none).2.basis = some ⟨k, e', U'⟩ ∧
        ∀ (j : ℕ) (hj : j < k) (hj1 : j < n) (hj2 : j + (n - k) < n), e ⟨j, hj1⟩ ≤ e' ⟨j, hj⟩ ∧ e' ⟨j, hj⟩ ≤ e ⟨j + (n - k), hj2⟩ := by
  obtain ⟨hist, hs⟩ := h.reached
  obtain ⟨hsch, g', ⟨c', h1, -⟩, hb', hlt', -, hn', -, hL'⟩ := kronGraph_core h.sound h.built hist hs hl hu h.nonneg hi hk he ha c hcm
  have hi0 := GState.ofGraph_inv (S := S') g' hb'
  have hr' : Ready S' g' (GState.ofGraph g') := ⟨hS', hb', hn', by omega, ⟨[], rfl⟩, .inl (by rw [hi0.2.2.1, hlt']), by rw [hi0.2.2.2.2.2]; intro b hb; cases hb⟩
  have hc' : (GState.ofGraph g').lapType = .combinatorial := by rw [hi0.2.2.1, hlt']
  have hLr := (hr'.comb hc').trans hL'
  obtain ⟨f1, e, U, f2, f3, f4, -⟩ := h.fourier
  obtain ⟨f1', e', U', f2', f3', f4', -⟩ := hr'.fourier
  have hkn : k ≤ n := by simpa using Fintype.card_le_of_injective ind hi
  have hLs := h.comb hl
  refine ⟨g', c', h1, f1, f1', e, e', U, U', f2, f2', fun j hj hj1 hj2 => ⟨?_, ?_⟩⟩
  · -- harmonic extension
    choose v hv hv0 using fun b : Fin k => hsch.extend (Pi.single b 1)
    have hT : ∀ x : Fin k → ℝ, (∀ a, ((Matrix.of fun u b => v b u) *ᵥ x) (ind a) = x a) ∧ ∀ u, kept ind u = false → (combLap g.W.dense *ᵥ ((Matrix.of fun u b => v b u) *ᵥ x)) u = 0 := by
      intro x
      constructor
      · intro a
        simp only [Matrix.mulVec, dotProduct, Matrix.of_apply, hv]
        rw [Finset.sum_eq_single a (fun b _ hb => by simp [Ne.symm hb]) (by simp)]
        simp
      · intro u hu0
        rw [Matrix.mulVec_mulVec]
        simp only [Matrix.mulVec, dotProduct]
        refine Finset.sum_eq_zero fun b _ => ?_
        have : (combLap g.W.dense * Matrix.of fun u b => v b u) u b = (combLap g.W.dense *ᵥ v b) u := rfl
        rw [this, hv0 b u hu0, zero_mul]
    refine Weyl.interlace (r := 0) f3 f3' f4 f4' (fun i => h.eig_nonneg (f3.isEigenvalue i)) (Matrix.of fun u b => v b u) 0 (fun x _ => ?_) (fun x _ => ?_) hj1 hj
    · have e2 : (fun a => ((Matrix.of fun u b => v b u) *ᵥ x) (ind a)) = x := funext (hT x).1
      have := hsch.bilin hi ((Matrix.of fun u b => v b u) *ᵥ x) ((Matrix.of fun u b => v b u) *ᵥ x) (hT x).2
      rw [e2] at this
      rw [hLs, hLr]
      exact this.symm.le
    · rw [dot_sum_sq, dot_sum_sq, sum_kept hi]
      simp only [(hT x).1]
      exact le_add_of_nonneg_right (Finset.sum_nonneg fun _ _ => sq_nonneg _)
  · refine upper_step h hl hi (fun x _ => ?_) f3 f3' f4 f4' (fun i => hr'.eig_nonneg (f3'.isEigenvalue i)) hkn ⟨j, hj⟩
    rw [hLr, hLs]
    exact (hsch.energy hi (combLap_isSymm _) (combLap_psd h.nonneg) fun a => x (ind a)).2 x fun a => rfl

end

/-! ### subgraphs -/

/-- **C111** The frequencies of the subgraph on `k` of the `n` vertices: `e_sub[j] <= e[j + n - k]`.  So keeping a part of a graph never raises its largest frequency. -/
theorem C111_subgraph {R : Type} (o : GraphObj n ℝ R) (hs : (o.signals.map Prod.fst).Nodup) {l : List (Fin n)} (hnd : l.Nodup) (hne : l ≠ [])
    {S : Solvers n} {s : GState n} (h : Ready S o.graph s) (hl : s.lapType = .combinatorial) :
    ∃ o', o.subgraph (.idx l) = .ok o' ∧ o'.graph.Built ∧ o'.graph.lapType = o.graph.lapType ∧
      ∀ (S' : Solvers l.length) (s' : GState l.length), Ready S' o'.graph s' → s'.lapType = .combinatorial →
        (s.computeFourierBasis S none).1 = .ok () ∧ (s'.computeFourierBasis S' none).1 = .ok () ∧
        ∃ (e : Fin n → ℝ) (e' : Fin l.length → ℝ) (U : Matrix (Fin n) (Fin n) ℝ) (U' : Matrix (Fin l.length) (Fin l.length) ℝ),
          (s.computeFourierBasis S none).2.basis = some ⟨n, e, U⟩ ∧ (s'.computeFourierBasis S' none).2.basis = some ⟨l.length, e', U'⟩ ∧
          ∀ (j : ℕ) (hj : j < l.length) (hj2 : j + (n - l.length) < n), e' ⟨j, hj⟩ ≤ e ⟨j + (n - l.length), hj2⟩ := by
  have ho := h.built
  have hlt := ho.lapType_known
  obtain ⟨g', h1, h2⟩ := subgraph_eq o (.idx l) hs hlt
  obtain ⟨g'', h3, h4, h5, h6⟩ := Graph.ofCsr_canonical (o.graph.W.fancyIndex l l) (ho.canonical.fancyIndex _ _) hlt
  have : g'' = g' := Except.ok.inj (h3.symm.trans h1)
  subst this
  have hi : Function.Injective (fun a : Fin l.length => l.get a) := List.nodup_iff_injective_get.1 hnd
  have hkn : l.length ≤ n := by simpa using Fintype.card_le_of_injective _ hi
  refine ⟨_, h2, h4, h6, fun S' s' h' hl' => ?_⟩
  obtain ⟨f1, e, U, f2, f3, f4, -⟩ := h.fourier
  obtain ⟨f1', e', U', f2', f3', f4', -⟩ := h'.fourier
  refine ⟨f1, f1', e, e', U, U', f2, f2', fun j hj hj2 => ?_⟩
  refine upper_step h hl hi (fun x _ => ?_) f3 f3' f4 f4' (fun i => h'.eig_nonneg (f3'.isEigenvalue i)) hkn ⟨j, hj⟩
  have hW' : ∀ a b, g''.W.dense a b = o.graph.W.dense (l.get a) (l.get b) := fun a b => by rw [h5, Sp.dense_fancyIndex]
  have hc' : s'.L = combLap g''.W.dense := h'.comb hl'
  rw [h.comb hl, hc', combLap_quad, combLap_quad]
  unfold dirichlet
  refine mul_le_mul_of_nonneg_left ?_ (by norm_num)
  simp only [hW']
  have hnn : ∀ i j, 0 ≤ o.graph.W.dense i j * (x i - x j) ^ 2 := fun i j => mul_nonneg (h.nonneg i j) (sq_nonneg _)
  rw [sum_kept hi]
  refine (Finset.sum_le_sum fun a _ => ?_).trans (le_add_of_nonneg_right (Finset.sum_nonneg fun _ _ => Finset.sum_nonneg fun _ _ => hnn _ _))
  rw [sum_kept hi]
  exact le_add_of_nonneg_right (Finset.sum_nonneg fun _ _ => hnn _ _)

/-! ### the hypotheses are satisfiable -/

/-- Two graphs on three vertices that differ in the weight of one pair. -/
example : ∃ (S S' : Solvers 3) (g g' : Graph 3 ℝ) (s s' : GState 3), Ready S g s ∧ Ready S' g' s' ∧ s.lapType = .combinatorial ∧ s'.lapType = .combinatorial ∧
    g.W.dense ≠ g'.W.dense ∧
    (∀ i j, g.W.dense i j ≠ g'.W.dense i j → ∃ a, (![(0, 2)] : Fin 1 → Fin 3 × Fin 3) a = (i, j) ∨ (![(0, 2)] : Fin 1 → Fin 3 × Fin 3) a = (j, i)) := by
  set M : Matrix (Fin 3) (Fin 3) ℝ := !![0, 3, 0; 3, 0, 2; 0, 2, 0] with hM
  set M' : Matrix (Fin 3) (Fin 3) ℝ := !![0, 3, 7; 3, 0, 2; 7, 2, 0] with hM'
  have hnn : NonnegW M := by intro i j; fin_cases i <;> fin_cases j <;> simp [hM]
  have hnn' : NonnegW M' := by intro i j; fin_cases i <;> fin_cases j <;> simp [hM']
  obtain ⟨S, g, s, h2, h1, h3, h4⟩ := exists_ready M hnn (by norm_num)
  obtain ⟨S', g', s', h2', h1', h3', h4'⟩ := exists_ready M' hnn' (by norm_num)
  refine ⟨S, S', g, g', s, s', h1, h1', h3, h3', ?_, ?_⟩
  · rw [h2, h2']
    intro he
    have := congrFun (congrFun he 0) 2
    simp [hM, hM'] at this
  · rw [h2, h2']
    intro i j
    fin_cases i <;> fin_cases j <;> simp [hM, hM']

/-- A connected graph reduced to three of its four vertices, and its subgraph on them. -/
example : ∃ (g : Graph 4 ℝ) (S : Solvers 4) (s : GState 4), Ready S g s ∧ s.lapType = .combinatorial ∧ Undirected g.W.dense ∧
    Function.Injective (![0, 1, 3] : Fin 3 → Fin 4) ∧ (∃ v, ∀ a, (![0, 1, 3] : Fin 3 → Fin 4) a ≠ v) ∧
    (∀ v, ∃ a, Linked g.W.dense v ((![0, 1, 3] : Fin 3 → Fin 4) a)) ∧ (∃ S' : Solvers 3, Sound S') ∧
    ([0, 1, 3] : List (Fin 4)).Nodup := by
  obtain ⟨S, g, s, hd, h1, h3, h4⟩ := exists_ready path4 path4_nonneg (by norm_num)
  have hcon : ∀ v w, Linked g.W.dense v w := by rw [hd]; exact path4_connected
  obtain ⟨S', hS', -⟩ := exists_sound 3
  refine ⟨g, S, s, h1, h3, ?_, by decide, ⟨2, by decide⟩, fun v => ⟨0, hcon _ _⟩, ⟨S', hS'⟩, by decide⟩
  rw [hd]; intro i j; fin_cases i <;> fin_cases j <;> simp [path4]

end PyGSP
