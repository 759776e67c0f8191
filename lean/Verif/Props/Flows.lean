import Verif.Props.ResistanceId
import Mathlib.LinearAlgebra.Matrix.Rank
import Mathlib.LinearAlgebra.Dimension.Constructions

/-!
# C124: flows along the edges

`div` and `grad` on edge signals: every edge signal is a gradient plus a circulation, how many independent circulations there are, which
demands can be met by a flow, and the flow of least energy (Thomson's principle), whose energy is the value of `resistance_distance`.
-/

namespace PyGSP.Spec

variable {n : ℕ}

/-- What accumulates at the vertex `v` when `f k` flows along the `k`-th edge `(source, target, weight)` from its source to its target. -/
noncomputable def inflow (es : List (Fin n × Fin n × ℝ)) (f : Fin es.length → ℝ) (v : Fin n) : ℝ :=
  ∑ k, ((if (es.get k).2.1 = v then f k else 0) - if (es.get k).1 = v then f k else 0)

/-- The power lost by a flow: an edge of weight `w` is a wire of resistance `1 / w`. -/
noncomputable def power_lost (es : List (Fin n × Fin n × ℝ)) (f : Fin es.length → ℝ) : ℝ := ∑ k, f k ^ 2 / (es.get k).2.2

/-- A walk that follows edges, forwards (`true`) or backwards (`false`). -/
inductive Walk (es : List (Fin n × Fin n × ℝ)) : Fin n → List (Fin es.length × Bool) → Fin n → Prop
  | nil (i : Fin n) : Walk es i [] i
  | forward (k : Fin es.length) {p : List (Fin es.length × Bool)} {j : Fin n} : Walk es (es.get k).2.1 p j → Walk es (es.get k).1 ((k, true) :: p) j
  | backward (k : Fin es.length) {p : List (Fin es.length × Bool)} {j : Fin n} : Walk es (es.get k).1 p j → Walk es (es.get k).2.1 ((k, false) :: p) j

/-- The sum of the values of the edges of a walk, negated when the edge is followed backwards. -/
noncomputable def along {m : ℕ} (f : Fin m → ℝ) (p : List (Fin m × Bool)) : ℝ := (p.map fun e => if e.2 then f e.1 else -f e.1).sum

end PyGSP.Spec

namespace PyGSP

open Matrix Spec GState Real

variable {n : ℕ} {S : Solvers n} {g : Graph n ℝ} {s : GState n} {pinv : Matrix (Fin n) (Fin n) ℝ → Matrix (Fin n) (Fin n) ℝ}

namespace Flow

variable {m : ℕ}

/-- the range of `D` is the range of `D Dᵀ` -/
theorem solve (D : Matrix (Fin n) (Fin m) ℝ) (y : Fin m → ℝ) : ∃ x, D *ᵥ (Dᵀ *ᵥ x) = D *ᵥ y := by
  have h : LinearMap.range (D * Dᵀ).mulVecLin = LinearMap.range D.mulVecLin := by
    refine Submodule.eq_of_le_of_finrank_eq ?_ ?_
    · rintro _ ⟨x, rfl⟩
      exact ⟨Dᵀ *ᵥ x, by rw [Matrix.mulVecLin_apply, Matrix.mulVecLin_apply, Matrix.mulVec_mulVec]⟩
    · exact Matrix.rank_self_mul_transpose D
  have h1 : D *ᵥ y ∈ LinearMap.range (D * Dᵀ).mulVecLin := by rw [h]; exact ⟨y, rfl⟩
  obtain ⟨x, hx⟩ := h1
  exact ⟨x, by rw [Matrix.mulVec_mulVec]; exact hx⟩

theorem orth (D : Matrix (Fin n) (Fin m) ℝ) (x : Fin n → ℝ) {z : Fin m → ℝ} (hz : D *ᵥ z = 0) : ∑ k, (Dᵀ *ᵥ x) k * z k = 0 := by
  change (Dᵀ *ᵥ x) ⬝ᵥ z = 0
  rw [Matrix.mulVec_transpose, ← Matrix.dotProduct_mulVec, hz, dotProduct_zero]

theorem pythagoras (D : Matrix (Fin n) (Fin m) ℝ) (x : Fin n → ℝ) {z : Fin m → ℝ} (hz : D *ᵥ z = 0) :
    ∑ k, ((Dᵀ *ᵥ x) k + z k) ^ 2 = ∑ k, (Dᵀ *ᵥ x) k ^ 2 + ∑ k, z k ^ 2 := by
  have h : ∀ k, ((Dᵀ *ᵥ x) k + z k) ^ 2 = (Dᵀ *ᵥ x) k ^ 2 + z k ^ 2 + 2 * ((Dᵀ *ᵥ x) k * z k) := fun k => by ring
  rw [Finset.sum_congr rfl fun k _ => h k, Finset.sum_add_distrib, Finset.sum_add_distrib, ← Finset.mul_sum, orth D x hz]
  ring

open Classical in
/-- the differential operator of a reached state, with the list of the edges -/
theorem core (h : Ready S g s) : ∃ (es : List (Fin n × Fin n × ℝ)) (D : Sp n es.length ℝ), s.getEdgeList.1 = .ok es ∧
    s.getDiff.1 = .ok (some ⟨es.length, D⟩) ∧ D.dense * D.denseᵀ = s.L ∧ es.length = g.nEdges ∧
    (∀ k, 0 < (es.get k).2.2) ∧
    (s.lapType = .combinatorial → ∀ (x : Fin n → ℝ) (k : Fin es.length), grad D x k =
      √((es.get k).2.2) * (x (es.get k).2.1 - x (es.get k).1) / (if Undirected g.W.dense then 1 else √2)) := by
  obtain ⟨hist, hs⟩ := h.reached
  obtain ⟨hi, hWs, -⟩ := reach_inv h.sound h.built hist
  have hl := (C18_laplacian h.sound h.built hist hs).2 h.known
  obtain ⟨-, -, -, -, he⟩ := C18_structure h.sound h.built hist hs
  rw [← hs] at hi hWs
  have hb : s.base = g := by rw [hs, runAll_base, ofGraph_base]
  have hcur : s.cur = { g with lapType := s.lapType } := by unfold cur; rw [hb]
  have hB : s.cur.Built := by rw [hcur]; exact h.built.withLapType _ h.known
  have hN : NonnegW s.cur.W.dense := by rw [hcur]; exact h.nonneg
  obtain ⟨m, D', L, h1, h2, h3, h4⟩ := C13_diff_operator s.cur hB hN
  obtain ⟨es, h5, D, h6, h7⟩ := C14_grad s.cur hB hN
  have hm := h1.symm.trans h6
  injection hm with hm
  have hlen : m = es.length := congrArg Sigma.fst hm
  subst hlen
  have hD : D' = D := by simpa using hm
  subst hD
  have h8 : s.cur.getEdgeList = g.getEdgeList := by rw [hcur]; rfl
  refine ⟨es, D', by rw [he, ← h8, h5], (getDiff_spec hi).2 _ h1, ?_, by rw [h2, hcur], ?_, ?_⟩
  · rw [hcur] at h3
    change laplacian g.W s.lapType = .ok L at h3
    rw [hl] at h3
    cases h3
    exact h4
  · intro k
    obtain ⟨l, k1, -, -, k4⟩ := C04_edge_list g h.built
    have : l = es := Except.ok.inj (k1.symm.trans (h8.symm.trans h5))
    subst this
    obtain ⟨q1, q2, -⟩ := (k4 (l.get k).1 (l.get k).2.1 (l.get k).2.2).1 (List.get_mem l k)
    exact lt_of_le_of_ne (q1 ▸ h.nonneg _ _) (Ne.symm q2)
  · intro hc x k
    have := (h7 x k).1 (by rw [hcur]; exact hc)
    rw [this, hcur]

end Flow

/-- **C124** Helmholtz: every edge signal is, in one way, a gradient plus a signal of zero divergence, and the energies add up. -/
theorem C124_helmholtz (h : Ready S g s) : ∃ (m : ℕ) (D : Sp n m ℝ), s.getDiff.1 = .ok (some ⟨m, D⟩) ∧ m = g.nEdges ∧ ∀ y : Fin m → ℝ,
    ∃ (x : Fin n → ℝ) (z : Fin m → ℝ), y = grad D x + z ∧ div D z = 0 ∧ ∑ k, y k ^ 2 = ∑ k, grad D x k ^ 2 + ∑ k, z k ^ 2 ∧
      ∀ (x' : Fin n → ℝ) (z' : Fin m → ℝ), y = grad D x' + z' → div D z' = 0 → grad D x' = grad D x ∧ z' = z := by
  obtain ⟨es, D, -, h2, -, h3, -, -⟩ := Flow.core h
  refine ⟨_, D, h2, h3, fun y => ?_⟩
  obtain ⟨x, hx⟩ := Flow.solve D.dense y
  have hz : D.dense *ᵥ (y - D.denseᵀ *ᵥ x) = 0 := by rw [Matrix.mulVec_sub, hx, sub_self]
  have hy : y = grad D x + (y - grad D x) := by abel
  refine ⟨x, y - grad D x, hy, hz, ?_, fun x' z' h1 h2 => ?_⟩
  · refine Eq.trans (Finset.sum_congr rfl fun k _ => ?_) (Flow.pythagoras D.dense x hz)
    change y k ^ 2 = (grad D x k + (y k - grad D x k)) ^ 2
    rw [add_sub_cancel]
  · have hd : D.dense *ᵥ (y - grad D x - z') = 0 := by rw [Matrix.mulVec_sub]; unfold div at h2; rw [h2, sub_zero]; exact hz
    have he : D.denseᵀ *ᵥ (x' - x) = y - grad D x - z' := by
      rw [Matrix.mulVec_sub]
      change grad D x' - grad D x = _
      rw [h1]
      abel
    have h0 := Flow.orth D.dense (x' - x) hd
    rw [he] at h0
    have h4 : y - grad D x - z' = 0 := by
      funext k
      have := (Finset.sum_eq_zero_iff_of_nonneg fun k _ => mul_self_nonneg ((y - grad D x - z') k)).1 h0 k (Finset.mem_univ k)
      exact mul_self_eq_zero.1 this
    have h5 : z' = y - grad D x := (sub_eq_zero.1 h4).symm
    refine ⟨?_, h5⟩
    rw [h5] at h1
    have : grad D x' = y - (y - grad D x) := by rw [eq_sub_iff_add_eq]; exact h1.symm
    rw [this]; abel

namespace Flow

theorem ker_combLap (hW : NonnegW g.W.dense) (x : Fin n → ℝ) :
    combLap g.W.dense *ᵥ x = 0 ↔ ∃ φ : Quot (Arc g.W.dense) → ℝ, ∀ i, x i = φ (Quot.mk _ i) := by
  obtain ⟨L, h1, h2⟩ := C27_kernel g.W hW
  rw [laplacian_comb] at h1
  cases h1
  rw [h2]
  constructor
  · intro h
    exact ⟨Quot.lift x fun i j hij => h i j (.rel _ _ hij), fun i => rfl⟩
  · rintro ⟨φ, hφ⟩ i j hij
    rw [hφ, hφ, Quot.eqvGen_sound hij]

theorem finrank_ker (hW : NonnegW g.W.dense) :
    Module.finrank ℝ (LinearMap.ker (combLap g.W.dense).mulVecLin) = Nat.card (Quot (Arc g.W.dense)) := by
  classical
  haveI : Fintype (Quot (Arc g.W.dense)) := Fintype.ofFinite _
  let F : (Quot (Arc g.W.dense) → ℝ) →ₗ[ℝ] (Fin n → ℝ) := LinearMap.funLeft ℝ ℝ (Quot.mk _)
  have hF : LinearMap.range F = LinearMap.ker (combLap g.W.dense).mulVecLin := by
    ext x
    rw [LinearMap.mem_ker, Matrix.mulVecLin_apply, ker_combLap hW]
    constructor
    · rintro ⟨φ, rfl⟩
      exact ⟨φ, fun i => rfl⟩
    · rintro ⟨φ, hφ⟩
      exact ⟨φ, by funext i; rw [hφ]; rfl⟩
  have hi : Function.Injective F := LinearMap.funLeft_injective_of_surjective ℝ ℝ _ Quot.mk_surjective
  rw [← hF, LinearMap.finrank_range_of_inj hi, Module.finrank_fintype_fun_eq_card, Nat.card_eq_fintype_card]

end Flow

/-- **C124** The edge signals of zero divergence have dimension (number of edges) - (number of vertices) + (number of components). -/
theorem C124_circulations (h : Ready S g s) (hl : s.lapType = .combinatorial) : ∃ (m : ℕ) (D : Sp n m ℝ), s.getDiff.1 = .ok (some ⟨m, D⟩) ∧
    ∃ V : Submodule ℝ (Fin m → ℝ), (∀ y, y ∈ V ↔ div D y = 0) ∧ Module.finrank ℝ V + n = g.nEdges + Nat.card (Quot (Arc g.W.dense)) := by
  obtain ⟨es, D, -, h2, hDD, h3, -, -⟩ := Flow.core h
  refine ⟨_, D, h2, LinearMap.ker D.dense.mulVecLin, fun y => by rw [LinearMap.mem_ker, Matrix.mulVecLin_apply]; rfl, ?_⟩
  rw [h.comb hl] at hDD
  have k1 := LinearMap.finrank_range_add_finrank_ker D.dense.mulVecLin
  have k2 := LinearMap.finrank_range_add_finrank_ker (combLap g.W.dense).mulVecLin
  have k3 : Module.finrank ℝ (LinearMap.range (combLap g.W.dense).mulVecLin) = Module.finrank ℝ (LinearMap.range D.dense.mulVecLin) := by
    rw [← hDD]; exact Matrix.rank_self_mul_transpose D.dense
  rw [Flow.finrank_ker h.nonneg, k3] at k2
  rw [Module.finrank_fintype_fun_eq_card, Fintype.card_fin] at k1 k2
  omega

open Classical in
/-- **C124** A flow with prescribed divergence `b` exists exactly when `b` sums to zero on every component. -/
theorem C124_demands (h : Ready S g s) (hl : s.lapType = .combinatorial) : ∃ (m : ℕ) (D : Sp n m ℝ), s.getDiff.1 = .ok (some ⟨m, D⟩) ∧
    ∀ b : Fin n → ℝ, (∃ y, div D y = b) ↔ ∀ q : Quot (Arc g.W.dense), ∑ v with Quot.mk _ v = q, b v = 0 := by
  obtain ⟨es, D, -, h2, hDD, h3, -, -⟩ := Flow.core h
  rw [h.comb hl] at hDD
  refine ⟨_, D, h2, fun b => ?_⟩
  have hsum : ∀ (c : Fin n → ℝ) (q : Quot (Arc g.W.dense)), (combLap g.W.dense *ᵥ fun v => if Quot.mk _ v = q then (1 : ℝ) else 0) = 0 ∧
      ∑ v with Quot.mk _ v = q, c v = (fun v => if Quot.mk (Arc g.W.dense) v = q then (1 : ℝ) else 0) ⬝ᵥ c := fun c q => by
    refine ⟨(Flow.ker_combLap h.nonneg _).2 ⟨fun q' => if q' = q then 1 else 0, fun i => rfl⟩, ?_⟩
    simp [dotProduct, Finset.sum_filter]
  constructor
  · rintro ⟨y, rfl⟩ q
    obtain ⟨x, hx⟩ := Flow.solve D.dense y
    rw [(hsum _ q).2]
    unfold div
    rw [← hx, Matrix.mulVec_mulVec, hDD, Matrix.dotProduct_mulVec, ← Matrix.mulVec_transpose, combLap_isSymm, (hsum 0 q).1, zero_dotProduct]
  · intro hb
    obtain ⟨pinv, hp⟩ := exists_pinv n
    have hP := hp (combLap g.W.dense) (combLap_isSymm _)
    set L := combLap g.W.dense with hLdef
    set P := pinv L
    have hLt : Lᵀ = L := combLap_isSymm _
    have hLP : L * (L * P) = L := by
      rw [← hP.ap, Matrix.transpose_mul, hLt]
      have := congrArg Matrix.transpose hP.apa
      rw [Matrix.transpose_mul, Matrix.transpose_mul, hLt] at this
      exact this
    set d := b - L *ᵥ (P *ᵥ b) with hd
    have hk : L *ᵥ d = 0 := by
      rw [hd, Matrix.mulVec_sub, Matrix.mulVec_mulVec, Matrix.mulVec_mulVec, Matrix.mul_assoc L, hLP, sub_self]
    have hds : ∀ q : Quot (Arc g.W.dense), ∑ v with Quot.mk _ v = q, d v = 0 := fun q => by
      rw [(hsum _ q).2, hd, dotProduct_sub, ← (hsum b q).2, hb, Matrix.dotProduct_mulVec, ← Matrix.mulVec_transpose, hLt, (hsum 0 q).1,
        zero_dotProduct, sub_zero]
    obtain ⟨φ, hφ⟩ := (Flow.ker_combLap h.nonneg d).1 hk
    have h0 : ∑ v, d v * d v = 0 := by
      haveI : Fintype (Quot (Arc g.W.dense)) := Fintype.ofFinite _
      rw [← Finset.sum_fiberwise (s := Finset.univ) (g := fun v => Quot.mk (Arc g.W.dense) v)]
      refine Finset.sum_eq_zero fun q _ => ?_
      have hq : ∀ v ∈ Finset.univ.filter (fun v => Quot.mk (Arc g.W.dense) v = q), d v * d v = φ q * d v := fun v hv => by
        rw [← (Finset.mem_filter.1 hv).2, ← hφ v]
      rw [Finset.sum_congr rfl hq, ← Finset.mul_sum, hds q, mul_zero]
    have hd0 : d = 0 := by
      funext k
      exact mul_self_eq_zero.1 ((Finset.sum_eq_zero_iff_of_nonneg fun k _ => mul_self_nonneg (d k)).1 h0 k (Finset.mem_univ k))
    refine ⟨D.denseᵀ *ᵥ (P *ᵥ b), ?_⟩
    unfold div
    rw [Matrix.mulVec_mulVec, hDD]
    exact (sub_eq_zero.1 hd0).symm

open Classical in
/-- **C124** What `div` computes: `div y` is what accumulates when `√w y` flows along every edge (divided by `√2` in a directed graph). -/
theorem C124_div (h : Ready S g s) (hl : s.lapType = .combinatorial) : ∃ (es : List (Fin n × Fin n × ℝ)) (D : Sp n es.length ℝ),
    s.getEdgeList.1 = .ok es ∧ s.getDiff.1 = .ok (some ⟨es.length, D⟩) ∧
    ∀ (y : Fin es.length → ℝ) (v : Fin n), div D y v = inflow es (fun k => √((es.get k).2.2) * y k / if Undirected g.W.dense then 1 else √2) v := by
  obtain ⟨es, D, h1, h2, -, -, -, h6⟩ := Flow.core h
  refine ⟨es, D, h1, h2, fun y v => ?_⟩
  have hg := h6 hl (Pi.single v 1)
  have h0 := C14_div_adjoint D (Pi.single v 1) y
  rw [single_one_dotProduct] at h0
  rw [← h0]
  unfold inflow dotProduct
  refine Finset.sum_congr rfl fun k _ => ?_
  rw [hg k]
  simp only [Pi.single_apply]
  split_ifs <;> ring

/-- **C124** Thomson's principle: among the edge signals with the divergence of a gradient, the gradient has the least energy, strictly. -/
theorem C124_thomson (h : Ready S g s) : ∃ (m : ℕ) (D : Sp n m ℝ), s.getDiff.1 = .ok (some ⟨m, D⟩) ∧
    ∀ (x : Fin n → ℝ) (y : Fin m → ℝ), div D y = s.L *ᵥ x →
      dirichletEnergy s.L x ≤ ∑ k, y k ^ 2 ∧ (∑ k, y k ^ 2 = dirichletEnergy s.L x ↔ y = grad D x) := by
  obtain ⟨es, D, h1, h2, hDD, -, -, -⟩ := Flow.core h
  refine ⟨_, D, h2, fun x y hy => ?_⟩
  have hz : D.dense *ᵥ (y - D.denseᵀ *ᵥ x) = 0 := by
    rw [Matrix.mulVec_sub, Matrix.mulVec_mulVec, hDD, ← hy]; exact sub_self _
  have hE : dirichletEnergy s.L x = ∑ k, (D.denseᵀ *ᵥ x) k ^ 2 := by
    unfold dirichletEnergy
    rw [← hDD, ← Matrix.mulVec_mulVec, Matrix.dotProduct_mulVec, ← Matrix.mulVec_transpose]
    simp only [dotProduct, pow_two]
  have hp := Flow.pythagoras D.dense x hz
  have hs : ∑ k, ((D.denseᵀ *ᵥ x) k + (y - D.denseᵀ *ᵥ x) k) ^ 2 = ∑ k, y k ^ 2 :=
    Finset.sum_congr rfl fun k _ => by rw [Pi.sub_apply, add_sub_cancel]
  rw [hs, ← hE] at hp
  have hn : 0 ≤ ∑ k, (y - D.denseᵀ *ᵥ x) k ^ 2 := Finset.sum_nonneg fun k _ => sq_nonneg _
  refine ⟨by linarith, fun he => ?_, fun he => ?_⟩
  · have h0 : ∑ k, (y - D.denseᵀ *ᵥ x) k ^ 2 = 0 := by linarith
    funext k
    have := (Finset.sum_eq_zero_iff_of_nonneg fun k _ => sq_nonneg ((y - D.denseᵀ *ᵥ x) k)).1 h0 k (Finset.mem_univ k)
    exact sub_eq_zero.1 (pow_eq_zero_iff two_ne_zero |>.1 this)
  · rw [hE, he]; rfl

namespace Flow

open Classical in
theorem quot_of_linked {M : Matrix (Fin n) (Fin n) ℝ} {i j : Fin n} (h : Linked M i j) : Quot.mk (Arc M) i = Quot.mk (Arc M) j := by
  induction h with
  | refl => rfl
  | tail _ h ih =>
    rw [ih]
    rcases h with h | h
    · exact Quot.sound h
    · exact (Quot.sound (r := Arc M) h).symm

theorem resistance_potential (hn : 0 < n) {M : Matrix (Fin n) (Fin n) ℝ} (hp : ∀ A, Aᵀ = A → IsPinv A (pinv A)) {i j : Fin n} {v : Fin n → ℝ}
    (hv : combLap M *ᵥ v = Pi.single i 1 - Pi.single j 1) :
    resistanceOfMatrix pinv (combLap M) i j = dirichletEnergy (combLap M) v ∧ resistanceOfMatrix pinv (combLap M) i j = v i - v j := by
  have hP := hp _ (combLap_isSymm M)
  have hinv : invOrPinv pinv (combLap M) = pinv (combLap M) := if_pos (det_combLap hn _)
  have hE : dirichletEnergy (combLap M) v = v i - v j := by
    unfold dirichletEnergy
    rw [hv, dotProduct_sub, dotProduct_single_one, dotProduct_single_one]
  suffices hs : resistanceOfMatrix pinv (combLap M) i j = dirichletEnergy (combLap M) v from ⟨hs, hs.trans hE⟩
  have h1 : dirichletEnergy (combLap M) v = (Pi.single i 1 - Pi.single j 1) ⬝ᵥ (pinv (combLap M) *ᵥ (Pi.single i 1 - Pi.single j 1)) := by
    unfold dirichletEnergy
    rw [← hv, Matrix.mulVec_mulVec]
    conv_lhs => rw [← hP.apa]
    rw [Matrix.mul_assoc, ← Matrix.mulVec_mulVec, Matrix.dotProduct_mulVec, ← Matrix.mulVec_transpose, combLap_isSymm]
  rw [h1]
  unfold resistanceOfMatrix
  simp only [hinv, Matrix.sub_apply, Matrix.add_apply, Matrix.transpose_apply, Matrix.of_apply]
  rw [Matrix.mulVec_sub, sub_dotProduct, dotProduct_sub, dotProduct_sub]
  simp
  ring

end Flow

/-- **C124** The value of `resistance_distance` between two linked vertices `i`, `j` of an undirected graph is the least power lost by a flow of one
unit from `j` to `i`; the least power is lost by one flow only, the one that follows Ohm's law. -/
theorem C124_resistance (h : Ready S g s) (hl : s.lapType = .combinatorial) (hu : Undirected g.W.dense) (hp : ∀ A, Aᵀ = A → IsPinv A (pinv A))
    {i j : Fin n} (hij : Linked g.W.dense i j) : ∃ es R, s.getEdgeList.1 = .ok es ∧ resistanceDistance pinv s = .ok R ∧
    ∃ (f : Fin es.length → ℝ) (v : Fin n → ℝ), inflow es f = Pi.single i 1 - Pi.single j 1 ∧ power_lost es f = R i j ∧
      (∀ k, f k = (es.get k).2.2 * (v (es.get k).2.1 - v (es.get k).1)) ∧ R i j = v i - v j ∧
      ∀ f', inflow es f' = Pi.single i 1 - Pi.single j 1 → f' ≠ f → R i j < power_lost es f' := by
  classical
  obtain ⟨es, D, h1, h2, hDD, -, hw, h6⟩ := Flow.core h
  obtain ⟨es', D', h1', h2', hdiv⟩ := C124_div h hl
  have : es' = es := Except.ok.inj (h1'.symm.trans h1)
  subst this
  have : D' = D := by simpa using h2'.symm.trans h2
  subst this
  obtain ⟨m, D2, h3, hdem⟩ := C124_demands h hl
  have hm := h3.symm.trans h2
  injection hm with hm
  injection hm with hm
  have hlen : m = es'.length := congrArg Sigma.fst hm
  subst hlen
  have : D2 = D' := by simpa using hm
  subst this
  obtain ⟨m, D3, h4, hth⟩ := C124_thomson h
  have hm := h4.symm.trans h2
  injection hm with hm
  injection hm with hm
  have hlen : m = es'.length := congrArg Sigma.fst hm
  subst hlen
  have : D3 = D2 := by simpa using hm
  subst this
  obtain ⟨y, hy⟩ := (hdem (Pi.single i 1 - Pi.single j 1)).2 fun q => by
    have hq := Flow.quot_of_linked hij
    simp only [Pi.sub_apply, Pi.single_apply, Finset.sum_filter]
    rw [Finset.sum_congr rfl fun v _ => show (if Quot.mk (Arc g.W.dense) v = q then ((if v = i then (1 : ℝ) else 0) - if v = j then 1 else 0) else 0) =
      (if v = i then if Quot.mk (Arc g.W.dense) i = q then (1 : ℝ) else 0 else 0) - if v = j then if Quot.mk (Arc g.W.dense) j = q then 1 else 0 else 0 by
        by_cases hi : v = i
        · subst hi
          by_cases hj : v = j
          · subst hj; simp
          · simp [hj]
        · by_cases hj : v = j
          · subst hj; simp [hi]; split_ifs <;> simp
          · simp [hi, hj]]
    rw [Finset.sum_sub_distrib]
    simp [hq]
  obtain ⟨v, hv⟩ := Flow.solve D3.dense y
  rw [Matrix.mulVec_mulVec, hDD] at hv
  have hv' : s.L *ᵥ v = Pi.single i 1 - Pi.single j 1 := hv.trans hy
  have hv'' := hv'
  rw [h.comb hl] at hv''
  obtain ⟨r1, r2⟩ := Flow.resistance_potential (pinv := pinv) h.pos hp hv''
  rw [← h.comb hl] at r1 r2
  have hg := h6 hl v
  simp only [if_pos hu, div_one] at hg hdiv
  -- from a flow to an edge signal
  have hflow : ∀ f : Fin es'.length → ℝ, inflow es' f = div D3 (fun k => f k / √((es'.get k).2.2)) := fun f => by
    funext v
    rw [hdiv]
    congr 1
    funext k
    rw [mul_div_cancel₀ _ (Real.sqrt_pos.2 (hw k)).ne']
  have hpow : ∀ f : Fin es'.length → ℝ, power_lost es' f = ∑ k, (f k / √((es'.get k).2.2)) ^ 2 := fun f => by
    unfold power_lost
    refine Finset.sum_congr rfl fun k _ => ?_
    rw [div_pow, Real.sq_sqrt (hw k).le]
  have hf0 : (fun k => (es'.get k).2.2 * (v (es'.get k).2.1 - v (es'.get k).1) / √((es'.get k).2.2)) = grad D3 v := by
    funext k
    rw [hg k, mul_div_right_comm, Real.div_sqrt]
  refine ⟨es', _, h1, (C55_lap_type s).2 hl, fun k => (es'.get k).2.2 * (v (es'.get k).2.1 - v (es'.get k).1), v, ?_, ?_, fun k => rfl, r2, ?_⟩
  · rw [hflow, hf0]
    unfold div grad
    rw [Matrix.mulVec_mulVec, hDD, hv']
  · rw [hpow, r1]
    refine (hth v (grad D3 v) ?_).2.2 rfl |>.symm ▸ ?_
    · unfold div grad
      rw [Matrix.mulVec_mulVec, hDD]
    · exact congrArg (fun y : Fin es'.length → ℝ => ∑ k, y k ^ 2) hf0
  · intro f' hf' hne
    rw [r1, hpow]
    rw [hflow] at hf'
    obtain ⟨t1, t2⟩ := hth v _ (hf'.trans hv'.symm)
    refine lt_of_le_of_ne t1 fun he => hne ?_
    have := t2.1 he.symm
    rw [← hf0] at this
    funext k
    have hk := congrFun this k
    rwa [div_left_inj' (Real.sqrt_pos.2 (hw k)).ne'] at hk

namespace Flow

variable {es : List (Fin n × Fin n × ℝ)}

theorem along_append {m : ℕ} (f : Fin m → ℝ) (p q : List (Fin m × Bool)) : along f (p ++ q) = along f p + along f q := by
  simp [along]

theorem walk_append {i j k : Fin n} {p q : List (Fin es.length × Bool)} (hp : Walk es i p j) (hq : Walk es j q k) : Walk es i (p ++ q) k := by
  induction hp with
  | nil => exact hq
  | forward e _ ih => exact .forward e (ih hq)
  | backward e _ ih => exact .backward e (ih hq)

theorem walk_reverse (f : Fin es.length → ℝ) {i j : Fin n} {p : List (Fin es.length × Bool)} (hp : Walk es i p j) :
    ∃ q, Walk es j q i ∧ along f q = -along f p := by
  induction hp with
  | nil i => exact ⟨[], .nil i, by simp [along]⟩
  | forward e _ ih =>
    obtain ⟨q, h1, h2⟩ := ih
    exact ⟨q ++ [(e, false)], walk_append h1 (.backward e (.nil _)), by rw [along_append, h2]; simp [along, add_comm]⟩
  | backward e _ ih =>
    obtain ⟨q, h1, h2⟩ := ih
    exact ⟨q ++ [(e, true)], walk_append h1 (.forward e (.nil _)), by rw [along_append, h2]; simp [along, add_comm]⟩

/-- differences of potentials add up along a walk -/
theorem along_potential (x : Fin n → ℝ) (f : Fin es.length → ℝ) (hf : ∀ k, f k = x (es.get k).2.1 - x (es.get k).1) {i j : Fin n}
    {p : List (Fin es.length × Bool)} (hp : Walk es i p j) : along f p = x j - x i := by
  induction hp with
  | nil i => simp [along]
  | forward e _ ih =>
    simp only [along, List.map_cons, List.sum_cons, if_true] at ih ⊢
    rw [ih, hf]; ring
  | backward e _ ih =>
    simp only [along, List.map_cons, List.sum_cons] at ih ⊢
    rw [ih, if_neg (by simp), hf]; ring

/-- values that sum to zero around every closed walk are differences of potentials -/
theorem potential_iff (f : Fin es.length → ℝ) :
    (∃ x : Fin n → ℝ, ∀ k, f k = x (es.get k).2.1 - x (es.get k).1) ↔ ∀ i p, Walk es i p i → along f p = 0 := by
  constructor
  · rintro ⟨x, hx⟩ i p hp
    rw [along_potential x f hx hp, sub_self]
  · intro h0
    have hun : ∀ {i j p q}, Walk es i p j → Walk es i q j → along f p = along f q := fun {i j p q} hp hq => by
      obtain ⟨r, h1, h2⟩ := walk_reverse f hq
      have := h0 i _ (walk_append hp h1)
      rw [along_append, h2] at this
      linarith
    let rel : Setoid (Fin n) := ⟨fun i j => ∃ p, Walk es i p j, fun i => ⟨[], .nil i⟩, fun ⟨p, hp⟩ => by
      obtain ⟨q, hq, -⟩ := walk_reverse f hp
      exact ⟨q, hq⟩, fun ⟨p, hp⟩ ⟨q, hq⟩ => ⟨_, walk_append hp hq⟩⟩
    have hrep : ∀ v : Fin n, ∃ p, Walk es (Quotient.out (Quotient.mk rel v)) p v := fun v => Quotient.exact (Quotient.out_eq (Quotient.mk rel v))
    choose p hp using hrep
    refine ⟨fun v => along f (p v), fun k => ?_⟩
    have hw : Walk es (es.get k).1 [(k, true)] (es.get k).2.1 := .forward k (.nil _)
    have hq : Quotient.mk rel (es.get k).1 = Quotient.mk rel (es.get k).2.1 := Quotient.sound ⟨_, hw⟩
    have h1 := walk_append (hp (es.get k).1) hw
    rw [hq] at h1
    have := hun h1 (hp (es.get k).2.1)
    rw [along_append] at this
    change f k = along f (p (es.get k).2.1) - along f (p (es.get k).1)
    rw [← this]
    simp [along]

end Flow

/-- **C124** An edge signal is a gradient exactly when its values (each divided by the square root of its weight) cancel around every closed walk. -/
theorem C124_gradients (h : Ready S g s) (hl : s.lapType = .combinatorial) : ∃ (es : List (Fin n × Fin n × ℝ)) (D : Sp n es.length ℝ),
    s.getEdgeList.1 = .ok es ∧ s.getDiff.1 = .ok (some ⟨es.length, D⟩) ∧
    ∀ y : Fin es.length → ℝ, (∃ x, grad D x = y) ↔ ∀ i p, Walk es i p i → along (fun k => y k / √((es.get k).2.2)) p = 0 := by
  classical
  obtain ⟨es, D, h1, h2, -, -, hw, h6⟩ := Flow.core h
  refine ⟨es, D, h1, h2, fun y => ?_⟩
  rw [← Flow.potential_iff]
  set c : ℝ := if Undirected g.W.dense then 1 else √2 with hc
  have hc0 : c ≠ 0 := by rw [hc]; split_ifs <;> simp
  constructor
  · rintro ⟨x, rfl⟩
    refine ⟨fun v => x v / c, fun k => ?_⟩
    rw [h6 hl x k, ← sub_div]
    rw [div_right_comm, mul_div_cancel_left₀ _ (Real.sqrt_pos.2 (hw k)).ne']
  · rintro ⟨x, hx⟩
    refine ⟨fun v => c * x v, ?_⟩
    funext k
    have := hx k
    rw [div_eq_iff (Real.sqrt_pos.2 (hw k)).ne'] at this
    rw [h6 hl _ k, this, ← mul_sub]
    field_simp

/-- The hypotheses are met: the path on four vertices. -/
example : ∃ (S : Solvers 4) (g : Graph 4 ℝ) (s : GState 4) (pinv : Matrix (Fin 4) (Fin 4) ℝ → Matrix (Fin 4) (Fin 4) ℝ),
    g.W.dense = path4 ∧ Ready S g s ∧ s.lapType = .combinatorial ∧ Undirected g.W.dense ∧ Linked g.W.dense 0 3 ∧ ∀ A, Aᵀ = A → IsPinv A (pinv A) := by
  obtain ⟨S, g, s, hd, hr, hl, -⟩ := exists_ready path4 path4_nonneg (by norm_num)
  obtain ⟨pinv, hp⟩ := exists_pinv 4
  refine ⟨S, g, s, pinv, hd, hr, hl, ?_, by rw [hd]; exact path4_connected 0 3, hp⟩
  rw [hd]
  intro i j
  fin_cases i <;> fin_cases j <;> rfl

end PyGSP
