import Verif.Props.Designs
import Verif.Props.FilterWitness
import Verif.Props.Community
import Verif.Props.PointClouds
import Verif.Props.Layout

/-!
# More concrete cases that meet the hypotheses of theorems

The examples of this file instantiate theorems of other files whose hypotheses mention the results of calls (a bank has been analysed, inverted, ...): they show that
these calls return, on concrete graphs.
-/

namespace PyGSP

open Matrix Spec GState

/-- the identity filter -/
noncomputable def identityBank : Bank := ⟨[Kernel.pointwise fun _ => 1]⟩

theorem identityBank_pointwise : identityBank.IsPointwise ![fun _ => 1] := by
  intro i
  fin_cases i
  rfl

theorem identityBank_tight : identityBank.TightOn 1 Set.univ := fun k x _ _ => ⟨_, identityBank_pointwise.evaluate x, fun j => by
  show ∑ i : Fin 1, _ = _
  simp⟩

theorem tightBank2_tight : tightBank2.TightOn 1 Set.univ := fun k x _ _ => ⟨_, tightBank2_pointwise.evaluate x, fun j =>
  (Fin.sum_univ_two _).trans (Real.cos_sq_add_sin_sq _)⟩

/-- the bounds computed without argument exist too, for a tight bank -/
theorem Bank.TightOn.inverse {n : ℕ} {f : Bank} {c : ℝ} (h : f.TightOn c Set.univ) {S : Solvers n} {s : GState n} {l : ℝ}
    (hl : (s.getLmax S).1 = .ok (some (.fin l))) : ∃ g s', f.inverse S s = (.ok g, s') := by
  have h1 : ∃ s', Bank.lmaxNum S s = (.ok l, s') := by
    unfold Bank.lmaxNum
    rcases hq : s.getLmax S with ⟨r, s'⟩
    rw [hq] at hl
    obtain rfl : r = _ := hl
    exact ⟨s', rfl⟩
  obtain ⟨s', h1⟩ := h1
  have h2 : f.boundsAt (Bank.linspace1000 l) = .ok (c, c) := h.bounds S s (by norm_num : 0 < 1000) _ fun _ => trivial
  have h3 : f.inverse S s = (.ok (Bank.ofArg (.many (List.ofFn f.inverseKernel))), s') := by
    unfold Bank.inverse Bank.estimateFrameBounds
    simp only [h1, h2]
  exact ⟨_, _, h3⟩

/-- C29_adjoint, C29_single_selfadjoint, C31_tight_reconstruction, C31_tight_single, C31_single_synthesize_violated, C33_inverse, C33_inverse_single, C33_pseudo,
C38_independent, C39_add_filter, C39_getitem_filter, C40_accepted, C40_chebyshev: on the path with four vertices, the bank `cos, sin` and the identity filter can be analysed with both methods,
have frame bounds 1 and 1, and can be inverted. -/
example : ∃ (g : Graph 4 ℝ) (S : Solvers 4) (s : GState 4) (b : Basis 4) (l : ℝ), g.Built ∧ g.W.dense = path4 ∧ Sound S ∧
    s = runAll S [.computeFourierBasis none] (GState.ofGraph g) ∧ (s.getBasis S).1 = .ok (some b) ∧ b.k = 4 ∧ 0 < l ∧ (s.getLmax S).1 = .ok (some (.fin l)) ∧
    ∀ f : Bank, f = tightBank2 ∨ f = identityBank →
      (f.estimateFrameBounds S (some ⟨b.k, b.e⟩) s).1 = .ok (1, 1) ∧ (∃ h s', f.inverse S s = (.ok h, s')) ∧
      (∀ x : Fin 4 → ℝ, (∃ A s', f.analyze S (Arr.of1 x) .exact 30 s = (.ok A, s')) ∧ ∃ A, (f.filter S (Arr.of1 x) .chebyshev 30 s).1 = .ok A) ∧
      ∀ {k : ℕ} (x : Fin 4 → Fin k → Fin 1 → ℝ), ∃ A s', f.filter S (Arr.of3 x) .exact 30 s = (.ok A, s') := by
  obtain ⟨g, hg, hd, S, hS, s, hs, -, ⟨b, hb, hbk⟩, l, ⟨hl, -⟩, hlm⟩ :=
    exists_setup path4 path4_nonneg (i := 0) (j := 1) (by decide) (by simp [path4])
  have hgb : (s.getBasis S).1 = .ok (some b) := by unfold getBasis; rw [hb]
  refine ⟨g, S, s, b, l, hg, hd, hS, hs, hgb, hbk, hl, hlm, fun f hf => ?_⟩
  have ht : f.TightOn 1 Set.univ := by rcases hf with rfl | rfl <;> [exact tightBank2_tight; exact identityBank_tight]
  have hN : f.Nf ≠ 0 := by rcases hf with rfl | rfl <;> simp [tightBank2, identityBank, Bank.Nf]
  obtain ⟨y, hy, -⟩ := ht b.k b.e (by omega) fun _ => trivial
  obtain ⟨z, hz, -⟩ := ht _ (chebNode l (30 + 1)) (by norm_num) fun _ => trivial
  refine ⟨ht.bounds S s (by omega) b.e fun _ => trivial, ht.inverse hlm, fun x => ⟨?_, ?_⟩, fun x => ?_⟩
  · have h := C28_one_signal S f s b hgb hbk y hy 30 x
    have h2 : f.analyze S (Arr.of1 x) .exact 30 s = f.filter S (Arr.of1 x) .exact 30 s := by
      unfold Bank.analyze
      rw [if_neg]
      simp [Arr.of1, Arr.ndim]
    exact ⟨_, (f.filter S (Arr.of1 x) .exact 30 s).2, h2.trans (Prod.ext h rfl)⟩
  · exact (((C40_chebyshev S f x 30 s hlm).2 hN).2 z hz).2.2 (by norm_num) hl.ne'
  · have h := C28_many_signals_3d S f s b hgb hbk y hy 30 x
    exact ⟨_, (f.filter S (Arr.of3 x) .exact 30 s).2, Prod.ext h rfl⟩

end PyGSP

namespace PyGSP.Gen

/-- C78_epsilon and C78_k_neigh_violated: `Community(5)` with a distance threshold, and with a number of neighbors, return a graph. -/
example : ∃ r : CommunityRng, r.Spec 5 ∧
    (∃ fuel G, community 5 { nc := some 2, commSizes := some [2, 3], minComm := some 1, epsilon := some (1 / 10) } r fuel .combinatorial = .ok (some G)) ∧
    ∃ fuel G, community 5 { nc := some 2, commSizes := some [2, 3], minComm := some 1, kNeigh := some 2 } r fuel .combinatorial = .ok (some G) := by
  obtain ⟨r, hr, hall⟩ := exists_communityRng 5
  refine ⟨r, hr, ?_, ?_⟩
  · refine C78_returns (nc := 2) (mc := 1) (wd := 1 / 5) (by norm_num) rfl rfl (by norm_num) rfl (by norm_num) (by norm_num) (by norm_num) (by norm_num)
      ?_ ?_ ?_ ?_ ?_ hr (fun _ => hall) (Or.inl rfl)
    · intro s hs
      obtain rfl := Option.some.inj hs
      exact ⟨rfl, rfl, by simp⟩
    all_goals simp
    all_goals norm_num
  · refine C78_returns (nc := 2) (mc := 1) (wd := 1 / 5) (by norm_num) rfl rfl (by norm_num) rfl (by norm_num) (by norm_num) (by norm_num) (by norm_num)
      ?_ ?_ ?_ ?_ ?_ hr (fun _ => hall) (Or.inl rfl)
    · intro s hs
      obtain rfl := Option.some.inj hs
      exact ⟨rfl, rfl, by simp⟩
    all_goals simp
    all_goals norm_num

/-- C94_swissroll, C94_swissroll_points, C94_swissroll_distinct: the points of a roll of three points; C94_david: any three points. -/
example (P : Matrix (Fin 3) (Fin 2) ℝ) : (∃ g X, swissRoll 1 4 3 (1 / 10 ^ 6) none none .uniform (fun j : Fin 3 => j.1 / 3) (fun _ => 0) .combinatorial = .ok (g, X)) ∧
    ∃ g, davidSensorNet P .combinatorial = .ok (g, P) := by
  constructor
  · refine C94_swissroll_distinct (by norm_num) (by norm_num) (.inr rfl) (by simp) (.inl rfl) (j := 0) (j' := 1) (fun j => ?_) (by norm_num) (.inl rfl)
    have h : (j.1 : ℝ) < 3 := by exact_mod_cast j.2
    exact ⟨by positivity, by linarith⟩
  · obtain ⟨g, h, -⟩ := C94_david (N := 3) (by norm_num) (by norm_num) P (.inl rfl)
    exact ⟨g, h⟩

end PyGSP.Gen

namespace PyGSP

open Layout Spec GState

/-- C85_community: four vertices in two communities; C85_spring_fixed: a first vertex that does not move, with an explicit optimal distance. -/
example : ∃ (info : Info 4) (com : Fin 4 → ℕ) (sizes : List ℕ) (p : Spring 4), info.nodeCom = some com ∧ info.commSizes = some sizes ∧ (∀ i, com i < sizes.length) ∧
    p.fixed ≠ [] ∧ 0 < p.dim ∧ p.k ≠ some 0 ∧ (p.k = none → ∀ pos, p.pos = some pos → ¬ IsGreatest {x | ∃ i c, pos i c = x} 0) :=
  ⟨{ nodeCom := some ![0, 0, 1, 1], commSizes := some [2, 2], worldRad := none, comCoords := none }, ![0, 0, 1, 1], [2, 2], { dim := 2, fixed := [0], k := some 1 }, rfl, rfl, by decide, by simp, by norm_num,
    by simp, by simp⟩

end PyGSP
