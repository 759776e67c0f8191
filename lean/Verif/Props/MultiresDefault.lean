import Verif.Props.Multires
import Verif.Lemmas.LiveFilter

/-!
# C65: one level with the default options
-/

namespace PyGSP

open Matrix Reduction Spec GState

variable {n : ℕ}

namespace Reduction

/-- `estimate_lmax` succeeds on a fresh graph. -/
theorem prepare_default {E : Env} (hE : ∀ n, Sound (E.S n)) (hconv : ∀ n, Converges (E.S n)) {o : MrOptions} (h4 : o.fullEigen = false) {g : Graph n ℝ} (hg : g.Built) (hW : NonnegW g.W.dense)
    (hl : g.lapType = .combinatorial) (hn : 2 ≤ n) :
    ∃ s, prepare E o.fullEigen (GState.ofGraph g) = (.ok (), s) ∧ s = runAll (E.S n) [.estimateLmax .lanczos] (GState.ofGraph g) ∧ s.basis = none ∧ s.lapType = .combinatorial ∧
      s.L = combLap g.W.dense := by
  obtain ⟨h0, hb0, hl0, hm0, hmm0, hbas⟩ := ofGraph_inv (S := E.S n) g hg
  have hW0 : NonnegW (ofGraph g).W.dense := by unfold GState.W; rw [hb0]; exact hW
  have hk0 : Known (ofGraph g).lapType := by rw [hl0]; exact hg.lapType_known
  obtain ⟨-, h2, h3⟩ := estimateLmax_ready (hE n) (hconv n).1 h0 hW0 hn hk0 (by intro h; rw [hmm0] at h; simp at h) .lanczos
  have hc : ((ofGraph g).estimateLmax (E.S n) .lanczos).2.lapType = .combinatorial := by rw [h2, hl0, hl]
  refine ⟨((ofGraph g).estimateLmax (E.S n) .lanczos).2, ?_, rfl, ?_, hc, L_combinatorial (hE n) hg [.estimateLmax .lanczos] rfl hc⟩
  · unfold prepare
    rw [if_neg (by simp [h4])]
    exact Prod.ext (h3 rfl).1 rfl
  · rw [estimateLmax_basis]; exact hbas

end Reduction

/-- **With the default options of `compute_full_eigen`** and without sparsification, on a connected undirected graph with at least three vertices: one level is computed as soon as the vector of
`eigs`, with the sign that makes its first entry positive, is non-negative at another vertex and negative at some vertex; the kept vertices are those where it is non-negative. -/
theorem C65_one_level_default {R : Type} {E : Env} (hE : ∀ n, Sound (E.S n)) (hconv : ∀ n, Converges (E.S n)) {o : MrOptions} (h1 : o.sparsify = false)
    (h2 : o.knownDownsampling = true) (h3 : o.knownReduction = true) (h4 : o.fullEigen = false) (h5 : 0 < o.regEps)
    {g : Graph n ℝ} (hg : g.Built) (hl : g.lapType = .combinatorial) (hu : Undirected g.W.dense) (hW : NonnegW g.W.dense) (hcon : Connected g.W.dense)
    (c : Fin n → R) (hn : 3 ≤ n) {v : Fin n → ℝ} (hv : ∀ t, E.eigs n t (combLap g.W.dense) = some v)
    (hpos : ∃ i : Fin n, i.1 ≠ 0 ∧ 0 ≤ v i * npSign (v ⟨0, by omega⟩)) (hneg : ∃ i : Fin n, v i * npSign (v ⟨0, by omega⟩) < 0) :
    ∃ (g0 g1 : Node R) (f : Fin g1.n → Fin n), graphMultiresolution E o 1 (GState.ofGraph g) (.rows c) = ([g0, g1], none) ∧ StrictMono f ∧
      (∀ i, (∃ a, f a = i) ↔ 0 ≤ v i * npSign (v ⟨0, by omega⟩)) ∧ g1.idx = (fun a => (f a).1) ∧ g1.coords = .rows (fun a => c (f a)) := by
  have hn0 : 0 < n := by omega
  obtain ⟨s, hpr0, hs, hbas, hc, hL⟩ := prepare_default hE hconv h4 hg hW hl (by omega)
  obtain ⟨V, s1, hp, hV⟩ : ∃ V s1, polarity E s = (.ok V, s1) ∧ V = fun i => v i * npSign (v ⟨0, hn0⟩) := by
    unfold polarity
    rw [dif_pos hn0, hbas]
    simp only
    rw [if_neg (by omega), hL, hv]
    exact ⟨_, _, rfl, rfl⟩
  obtain ⟨-, e1, e2, e3, e4⟩ := polarity_spec hp
  have hmono := positives_strictMono V
  have hinj := hmono.injective
  have hran : ∀ i, (∃ a, (positives V).get a = i) ↔ 0 ≤ v i * npSign (v ⟨0, hn0⟩) := fun i => by
    have : (0 ≤ V i) ↔ 0 ≤ v i * npSign (v ⟨0, hn0⟩) := by rw [hV]
    rw [← this, ← mem_positives]
    exact ⟨fun ⟨a, ha⟩ => ha ▸ List.get_mem _ _, fun h => List.get_of_mem h⟩
  obtain ⟨v1, hv1, hv1'⟩ := hpos
  have hlen : 2 ≤ (positives V).length := by
    obtain ⟨a, ha⟩ := (hran ⟨0, hn0⟩).2 (npSign_mul_self _)
    obtain ⟨a1, ha1⟩ := (hran v1).2 hv1'
    have : a ≠ a1 := by
      rintro rfl
      rw [ha] at ha1
      exact hv1 (by rw [← ha1])
    have h1 := a.2
    have h2 := a1.2
    by_contra hc
    exact this (Fin.ext (by omega))
  obtain ⟨v2, hv2⟩ := hneg
  have hex : ∀ a, (positives V).get a ≠ v2 := fun a ha => absurd hv2 (not_lt.2 ((hran v2).1 ⟨a, ha⟩))
  obtain ⟨hsch, g2, ⟨c', q1, q1'⟩, b2, l2, u2, p2, -, s2⟩ := kronGraph_core (hE n) hg _ hs hc hu hW hinj hlen ⟨v2, hex⟩
    (fun v => ⟨⟨0, by omega⟩, hcon v _⟩) (.rows c) (by simp)
  have hkg : kronGraph s1 (.rows c) (positives V).get = .ok (g2, c') := by
    rw [kronGraph_congr e1 e2 e3 e4]; exact q1
  have hkm : ∃ m, kronMatrix (s1.L + o.regEps • (1 : Matrix (Fin n) (Fin n) ℝ)) (positives V).get = .ok m := by
    rw [e1, hL]
    have hdet : (Learning.uu (combLap g.W.dense + o.regEps • (1 : Matrix (Fin n) (Fin n) ℝ)) (kept (positives V).get)).det ≠ 0 := by
      refine det_uu_posdef fun x hx => ?_
      rw [Matrix.add_mulVec, dotProduct_add, Matrix.smul_mulVec, Matrix.one_mulVec, dotProduct_smul]
      have q1 := Learning.combLap_psd hW x
      obtain ⟨u, hu⟩ := Function.ne_iff.1 hx
      have q2 : 0 < x ⬝ᵥ x := by
        unfold dotProduct
        exact Finset.sum_pos' (fun _ _ => mul_self_nonneg _) ⟨u, Finset.mem_univ _, mul_self_pos.2 hu⟩
      have q3 : 0 < o.regEps • (x ⬝ᵥ x) := by rw [smul_eq_mul]; positivity
      have : (0 : ℝ) ≤ x ⬝ᵥ (combLap g.W.dense *ᵥ x) := q1
      linarith
    exact ⟨_, kronMatrix_ok hinj (reg_symm (combLap_isSymm _) _) (by omega) ⟨v2, (kept_false_iff _ _).2 hex⟩ hdet⟩
  obtain ⟨m, hm⟩ := hkm
  obtain ⟨st, hst, -⟩ := prepare_default hE hconv h4 b2 p2 l2 hlen
  refine ⟨⟨n, s1, .rows c, fun i => i.1, fun i => i.1⟩, ⟨(positives V).length, st, c', fun a => ((positives V).get a).1, fun a => ((positives V).get a).1⟩, (positives V).get, ?_, hmono, hran, rfl, q1' c rfl⟩
  unfold graphMultiresolution
  rw [hpr0]
  simp only [mrLoop]
  have hstep : ∀ eps, mrStep E o eps 0 (⟨n, s, .rows c, fun i => i.1, fun i => i.1⟩ : Node R) =
      (.ok ⟨(positives V).length, st, c', fun a => ((positives V).get a).1, fun a => ((positives V).get a).1⟩,
        ⟨n, s1, .rows c, fun i => i.1, fun i => i.1⟩) := by
    intro eps
    unfold mrStep
    rw [if_neg (by simp [h2])]
    simp only [hp]
    rw [if_neg (by simp [h3])]
    simp only [hkg]
    have : sparsifyLevel E o.sparsify eps 0 g2 c' = .ok (g2, c') := by
      unfold sparsifyLevel
      rw [if_neg (by simp [h1])]
    simp only [this, hst, hm]
  rw [hstep]

/-- **With the default options the multiresolution of a graph with two vertices fails** (TypeError from `eigs`); when ARPACK does not converge its exception is passed on. -/
theorem C65_default_errors {R : Type} {E : Env} (hE : ∀ n, Sound (E.S n)) (hconv : ∀ n, Converges (E.S n)) {o : MrOptions} (h2 : o.knownDownsampling = true) (h4 : o.fullEigen = false)
    {g : Graph n ℝ} (hg : g.Built) (hl : g.lapType = .combinatorial) (hW : NonnegW g.W.dense) (c : Coords n R) (levels : ℕ) (hn : 2 ≤ n) :
    (n = 2 → (graphMultiresolution E o (levels + 1) (GState.ofGraph g) c).2 = some .typeError) ∧
      (3 ≤ n → (∀ t, E.eigs n t (combLap g.W.dense) = none) → (graphMultiresolution E o (levels + 1) (GState.ofGraph g) c).2 = some .arpackNoConvergence) := by
  obtain ⟨s, hpr0, hs, hbas, hc, hL⟩ := prepare_default hE hconv h4 hg hW hl hn
  unfold graphMultiresolution
  rw [hpr0]
  simp only [mrLoop]
  refine ⟨fun h => ?_, fun h hnone => ?_⟩
  · have hp : polarity E s = (.error .typeError, s) := by
      unfold polarity
      rw [dif_pos (by omega), hbas]
      simp only
      rw [if_pos (by omega)]
    unfold mrStep
    rw [if_neg (by simp [h2])]
    simp only [hp]
  · have hp : ∃ s', polarity E s = (.error .arpackNoConvergence, s') := by
      unfold polarity
      rw [dif_pos (by omega), hbas]
      simp only
      rw [if_neg (by omega), hL, hnone]
      exact ⟨_, rfl⟩
    obtain ⟨s', hp⟩ := hp
    unfold mrStep
    rw [if_neg (by simp [h2])]
    simp only [hp]

/-- the hypotheses of `C65_one_level_default` are met: the path with three vertices, when `eigs` returns the last eigenvector -/
example (pop : (n : ℕ) → Pop n) : ∃ (E : Env) (g : Graph 3 ℝ) (g0 g1 : Node ℕ) (f : Fin g1.n → Fin 3), (∀ n, Sound (E.S n)) ∧ g.W.dense = path3 ∧
    graphMultiresolution E { sparsify := false } 1 (GState.ofGraph g) (.rows fun i => i.1) = ([g0, g1], none) ∧ StrictMono f ∧ ∀ i, (∃ a, f a = i) ↔ i ≠ 1 := by
  choose S hS using fun n => exists_sound n
  let w : (n : ℕ) → Fin n → ℝ := fun n i => if i.1 = 1 then -2 else 1
  let E : Env := ⟨S, fun n _ _ => some (w n), fun n L => 0, pop, fun _ _ _ => []⟩
  obtain ⟨g, hg, hd, hl⟩ := Graph.exists_built (K := ℝ) path3
  have h0 : npSign (w 3 ⟨0, by omega⟩) = 1 := by unfold npSign; simp [w]
  obtain ⟨g0, g1, f, r1, r2, r3, -⟩ := C65_one_level_default (R := ℕ) (E := E) (fun n => (hS n).1) (fun n => (hS n).2) (o := { sparsify := false }) rfl rfl rfl rfl (by norm_num) hg hl
    (by rw [hd]; exact path3_undirected) (by rw [hd]; exact path3_nonneg) (by rw [hd]; exact path3_connected) (fun i => i.1) le_rfl (v := w 3) (fun _ => rfl) ⟨2, by decide, by rw [h0]; norm_num [w]⟩
    ⟨1, by rw [h0]; norm_num [w]⟩
  refine ⟨E, g, g0, g1, f, fun n => (hS n).1, hd, r1, r2, fun i => (r3 i).trans ?_⟩
  rw [h0]
  fin_cases i <;> norm_num [w]

end PyGSP
