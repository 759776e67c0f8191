import Verif.Model.LineGraph
import Verif.Props.Comet
import Verif.Props.Laplacian
import Verif.Spec.Generators

/-!
# C73: LineGraph
-/

namespace PyGSP

open Matrix Spec

variable {n : ℕ}

namespace Line

theorem vscale_ne_zero {M : Matrix (Fin n) (Fin n) ℝ} (hW : NonnegW M) {i j : Fin n} (h : M i j ≠ 0 ∨ M j i ≠ 0) (hij : i ≠ j) (lt : LapType)
    (hlt : lt = .combinatorial ∨ lt = .normalized) : vscale M lt i ≠ 0 := by
  have hpos : 0 < wdeg M i := by
    unfold wdeg
    have hc : 0 ≤ ∑ j, M j i := Finset.sum_nonneg fun k _ => hW k i
    have hr : 0 ≤ ∑ j, M i j := Finset.sum_nonneg fun k _ => hW i k
    rcases h with h | h
    · have h1 : 0 < M i j := lt_of_le_of_ne (hW i j) (Ne.symm h)
      have h2 : M i j ≤ ∑ j, M i j := Finset.single_le_sum (f := fun k => M i k) (fun k _ => hW i k) (Finset.mem_univ j)
      linarith
    · have h1 : 0 < M j i := lt_of_le_of_ne (hW j i) (Ne.symm h)
      have h2 : M j i ≤ ∑ j, M j i := Finset.single_le_sum (f := fun k => M k i) (fun k _ => hW k i) (Finset.mem_univ j)
      linarith
  rcases hlt with rfl | rfl
  · simp [vscale]
  · simp only [vscale, nscale]
    rw [if_neg hpos.ne']
    have := Real.sqrt_pos.2 hpos
    positivity

/-- the columns of the differential operator: nonzero exactly at the two ends of an edge that is not a self-loop -/
theorem incidence (g : Graph n ℝ) (hg : g.Built) (hW : NonnegW g.W.dense) {es} (hes : g.getEdgeList = .ok es) (k : Fin es.length)
    (a : Fin n) : (diffMatrix g.W g.lapType es).dense a k ≠ 0 ↔
      (es.get k).1 ≠ (es.get k).2.1 ∧ (a = (es.get k).1 ∨ a = (es.get k).2.1) := by
  obtain ⟨es', h1, h2, h3, h4⟩ := C04_edge_list g hg
  rw [hes] at h1
  obtain rfl := Except.ok.inj h1
  have hlt := hg.lapType_known
  have hmem : es.get k ∈ es := List.get_mem _ _
  rw [diffMatrix_dense]
  generalize es.get k = e at hmem ⊢
  obtain ⟨s, t, w⟩ := e
  obtain ⟨hw, hw0, -⟩ := (h4 s t w).1 hmem
  have hwn : 0 ≤ w := by rw [← hw]; exact hW s t
  have hwp : 0 < w := lt_of_le_of_ne hwn (Ne.symm hw0)
  rw [diffValues_eq _ _ hlt s t hwn]
  have hc : dirScale g.W ≠ 0 := by unfold dirScale; split <;> norm_num
  have hsq : Real.sqrt w ≠ 0 := (Real.sqrt_pos.2 hwp).ne'
  simp only
  by_cases hst : s = t
  · subst hst
    simp only [ne_eq, not_true_eq_false, false_and, iff_false, not_not]
    split <;> ring
  · have v1 := vscale_ne_zero hW (.inl (by rw [hw]; exact hw0) : g.W.dense s t ≠ 0 ∨ _) hst _ hlt
    have v2 := vscale_ne_zero hW (.inr (by rw [hw]; exact hw0) : _ ∨ g.W.dense s t ≠ 0) (Ne.symm hst) _ hlt
    have p1 : -(Real.sqrt w * vscale g.W.dense g.lapType s) / dirScale g.W ≠ 0 := div_ne_zero (neg_ne_zero.2 (mul_ne_zero hsq v1)) hc
    have p2 : Real.sqrt w * vscale g.W.dense g.lapType t / dirScale g.W ≠ 0 := div_ne_zero (mul_ne_zero hsq v2) hc
    by_cases h1 : s = a
    · subst h1
      rw [if_pos rfl, if_neg (Ne.symm hst), add_zero]
      exact ⟨fun _ => ⟨hst, .inl rfl⟩, fun _ => p1⟩
    · rw [if_neg h1, zero_add]
      by_cases h2 : t = a
      · subst h2
        rw [if_pos rfl]
        exact ⟨fun _ => ⟨hst, .inr rfl⟩, fun _ => p2⟩
      · rw [if_neg h2]
        refine ⟨fun h => absurd rfl h, ?_⟩
        rintro ⟨-, rfl | rfl⟩
        · exact absurd rfl h1
        · exact absurd rfl h2

/-- the vertex is an end of the edge -/
def Ends (e : Fin n × Fin n × ℝ) (a : Fin n) : Prop := a = e.1 ∨ a = e.2.1

theorem core (g : Graph n ℝ) (hg : g.Built) (hW : NonnegW g.W.dense) (coords : Fin n → ℝ) {lt : LapType}
    (hlt : lt = .combinatorial ∨ lt = .normalized) :
    ∃ es h c, g.getEdgeList = .ok es ∧ lineGraph g coords lt = .ok ⟨es.length, h, c⟩ ∧ h.Built ∧ h.lapType = lt ∧
      (h.W.dense = lineAdjacency (diffMatrix g.W g.lapType es)) ∧ c = lineCoords (diffMatrix g.W g.lapType es) coords := by
  obtain ⟨es, h1, h2, -, -⟩ := C04_edge_list g hg
  obtain ⟨h, e1, e2, e3, e4⟩ := Graph.ofCsr_canonical (Sp.ofDense (lineAdjacency (diffMatrix g.W g.lapType es))) (Sp.canonical_ofDense _) hlt
  have hd : g.diffOp = .ok ⟨es.length, diffMatrix g.W g.lapType es⟩ := by
    unfold Graph.diffOp
    rw [h1]
    rcases hg.lapType_known with h | h <;> rw [h]
  refine ⟨es, h, _, h1, ?_, e2, e4, by rw [e3, Sp.dense_ofDense], rfl⟩
  unfold lineGraph
  rw [hd]
  simp only
  rw [e1]

end Line

open Line

/-- **The vertices of `LineGraph(G)` are the edges of `G`**, in the order of `get_edge_list()`, for a graph with non-negative weights
(any of the two Laplacian types, directed or not) and without self-loops: two different edges are connected, with weight one, exactly
when they share an end, whatever the weights of `G`; every edge is placed at the middle of its ends. -/
theorem C73_weights (g : Graph n ℝ) (hg : g.Built) (hW : NonnegW g.W.dense) (hl : ∀ i, g.W.dense i i = 0) (coords : Fin n → ℝ) {lt : LapType}
    (hlt : lt = .combinatorial ∨ lt = .normalized) :
    ∃ es h c, g.getEdgeList = .ok es ∧ es.length = g.nEdges ∧ lineGraph g coords lt = .ok ⟨es.length, h, c⟩ ∧ h.Built ∧ h.lapType = lt ∧
      (∀ k l, k ≠ l → (∃ a, (a = (es.get k).1 ∨ a = (es.get k).2.1) ∧ (a = (es.get l).1 ∨ a = (es.get l).2.1)) → h.W.dense k l = 1) ∧
      (∀ k l, k ≠ l → (¬ ∃ a, (a = (es.get k).1 ∨ a = (es.get k).2.1) ∧ (a = (es.get l).1 ∨ a = (es.get l).2.1)) → h.W.dense k l = 0) ∧
      (∀ k, h.W.dense k k = 0) ∧ (∀ k, c k = (coords (es.get k).1 + coords (es.get k).2.1) / 2) := by
  obtain ⟨es, h, c, h1, h2, h3, h4, h5, h6⟩ := core g hg hW coords hlt
  obtain ⟨es', f1, f2, f3, f4⟩ := C04_edge_list g hg
  rw [h1] at f1
  obtain rfl := Except.ok.inj f1
  have hne : ∀ k : Fin es.length, (es.get k).1 ≠ (es.get k).2.1 := by
    intro k he
    have hmem : es.get k ∈ es := List.get_mem _ _
    obtain ⟨q1, q2, -⟩ := (f4 _ _ _).1 hmem
    rw [← he, hl] at q1
    exact q2 q1.symm
  have hinc : ∀ k a, (diffMatrix g.W g.lapType es).dense a k ≠ 0 ↔ (a = (es.get k).1 ∨ a = (es.get k).2.1) := by
    intro k a
    rw [incidence g hg hW h1]
    exact ⟨fun q => q.2, fun q => ⟨hne k, q⟩⟩
  have hval : ∀ k l, h.W.dense k l = (open Classical in (if ∃ a, (a = (es.get k).1 ∨ a = (es.get k).2.1) ∧ (a = (es.get l).1 ∨ a = (es.get l).2.1)
      then (1 : ℝ) else 0) - if k = l then 1 else 0) := by
    intro k l
    rw [h5]
    unfold lineAdjacency
    simp only [Matrix.of_apply, hinc]
  refine ⟨es, h, c, h1, f2, h2, h3, h4, fun k l hkl hex => ?_, fun k l hkl hex => ?_, fun k => ?_, fun k => ?_⟩
  · rw [hval, if_pos hex, if_neg hkl, sub_zero]
  · rw [hval, if_neg hex, if_neg hkl, sub_zero]
  · rw [hval, if_pos ⟨(es.get k).1, .inl rfl, .inl rfl⟩, if_pos rfl, sub_self]
  · rw [h6]
    unfold lineCoords
    congr 1
    have : ∀ a, (open Classical in (if (diffMatrix g.W g.lapType es).dense a k ≠ 0 then (1 : ℝ) else 0)) * coords a =
        (if a = (es.get k).1 then coords a else 0) + if a = (es.get k).2.1 then coords a else 0 := by
      intro a
      by_cases q1 : a = (es.get k).1
      · rw [if_pos ((hinc k a).2 (.inl q1)), if_pos q1, if_neg (fun q2 => hne k (q1.symm.trans q2)), one_mul, add_zero]
      · by_cases q2 : a = (es.get k).2.1
        · rw [if_pos ((hinc k a).2 (.inr q2)), if_neg q1, if_pos q2, one_mul, zero_add]
        · rw [if_neg (fun q => by rcases (hinc k a).1 q with q | q; exacts [q1 q, q2 q]), if_neg q1, if_neg q2, zero_mul, add_zero]
    rw [Finset.sum_congr rfl fun a _ => this a, Finset.sum_add_distrib, Finset.sum_ite_eq', Finset.sum_ite_eq']
    simp

/-- **The line graph of a simple graph**: it is undirected; it is connected when the graph is; for an undirected graph it has
`∑ d (d - 1) / 2` edges, where `d` is the number of neighbours of each vertex. -/
theorem C73_structure (g : Graph n ℝ) (hg : g.Built) (hW : NonnegW g.W.dense) (hl : ∀ i, g.W.dense i i = 0) (coords : Fin n → ℝ) {lt : LapType}
    {m : ℕ} {h : Graph m ℝ} {c} (hok : lineGraph g coords lt = .ok ⟨m, h, c⟩) :
    Undirected h.W.dense ∧ (StronglyConnected g.W.dense → StronglyConnected h.W.dense) ∧
      (Undirected g.W.dense → h.nEdges = ∑ v, ((Finset.univ.filter fun j => g.W.dense v j ≠ 0).card).choose 2) := by
  have hlt : lt = .combinatorial ∨ lt = .normalized := by
    by_contra hc
    cases lt with
    | combinatorial => simp at hc
    | normalized => simp at hc
    | other name =>
      obtain ⟨es, h1, h2, -, -⟩ := C04_edge_list g hg
      have hd : g.diffOp = .ok ⟨es.length, diffMatrix g.W g.lapType es⟩ := by
        unfold Graph.diffOp
        rw [h1]
        rcases hg.lapType_known with h | h <;> rw [h]
      unfold lineGraph at hok
      rw [hd] at hok
      have : Graph.ofCsr (Sp.ofDense (lineAdjacency (diffMatrix g.W g.lapType es))) (.other name) = .error .valueError := rfl
      simp only at hok
      rw [this] at hok
      cases hok
  obtain ⟨es, h', c', h1, h2, h3, h4, h5, h6, h7, h8, h9⟩ := C73_weights g hg hW hl coords hlt
  rw [hok] at h3
  obtain ⟨rfl, h3⟩ := Sigma.mk.inj (Except.ok.inj h3)
  obtain ⟨rfl, rfl⟩ := Prod.mk.inj (eq_of_heq h3)
  obtain ⟨es', f1, f2, f3, f4⟩ := C04_edge_list g hg
  rw [h1] at f1
  obtain rfl := Except.ok.inj f1
  set share : Fin es.length → Fin es.length → Prop := fun k l => ∃ a, Ends (es.get k) a ∧ Ends (es.get l) a with hshare
  have hsym : ∀ k l, share k l ↔ share l k := fun k l => ⟨fun ⟨a, x, y⟩ => ⟨a, y, x⟩, fun ⟨a, x, y⟩ => ⟨a, y, x⟩⟩
  have hu : Undirected h.W.dense := by
    intro k l
    by_cases e : k = l
    · subst e; rfl
    · by_cases hs : share k l
      · rw [h6 k l e hs, h6 l k (Ne.symm e) ((hsym k l).1 hs)]
      · rw [h7 k l e hs, h7 l k (Ne.symm e) (fun q => hs ((hsym k l).2 q))]
  have hstep : ∀ k l, share k l → Reach h.W.dense k l := by
    intro k l hs
    by_cases e : k = l
    · subst e; exact .refl
    · refine .single ?_
      unfold Arc
      rw [h6 k l e hs]
      norm_num
  have hmem : ∀ i j, g.W.dense i j ≠ 0 → ∃ k : Fin es.length, Ends (es.get k) i ∧ Ends (es.get k) j := by
    intro i j hij
    by_cases hc : Undirected g.W.dense → i ≤ j
    · obtain ⟨k, hk⟩ := List.get_of_mem ((f4 i j _).2 ⟨rfl, hij, hc⟩)
      exact ⟨k, by rw [hk]; exact .inl rfl, by rw [hk]; exact .inr rfl⟩
    · rw [Classical.not_imp] at hc
      obtain ⟨hun, hlt1⟩ := hc
      have hji : g.W.dense j i ≠ 0 := by rw [hun]; exact hij
      obtain ⟨k, hk⟩ := List.get_of_mem ((f4 j i _).2 ⟨rfl, hji, fun _ => (not_le.1 hlt1).le⟩)
      exact ⟨k, by rw [hk]; exact .inr rfl, by rw [hk]; exact .inl rfl⟩
  refine ⟨hu, fun hcon k l => ?_, fun hun => ?_⟩
  · have key : ∀ u v, Reach g.W.dense u v → ∀ k l : Fin es.length, Ends (es.get k) u → Ends (es.get l) v → Reach h.W.dense k l := by
      intro u v huv
      induction huv with
      | refl => exact fun k l hk hl => hstep k l ⟨u, hk, hl⟩
      | @tail b d _ hbd ih =>
        intro k l hk hl
        obtain ⟨e, he1, he2⟩ := hmem b d hbd
        exact (ih k e hk he1).trans (hstep e l ⟨d, he2, hl⟩)
    exact key _ _ (hcon _ _) k l (.inl rfl) (.inl rfl)
  · classical
    have hends : ∀ k : Fin es.length, (es.get k).1 < (es.get k).2.1 ∧ g.W.dense (es.get k).1 (es.get k).2.1 ≠ 0 := by
      intro k
      have hm : es.get k ∈ es := List.get_mem _ _
      obtain ⟨q1, q2, q3⟩ := (f4 _ _ _).1 hm
      refine ⟨lt_of_le_of_ne (q3 hun) fun e => ?_, by rw [q1]; exact q2⟩
      rw [← e, hl] at q1
      exact q2 q1.symm
    have hinj : ∀ k l : Fin es.length, (es.get k).1 = (es.get l).1 → (es.get k).2.1 = (es.get l).2.1 → k = l := by
      intro k l e1 e2
      have := (List.nodup_iff_injective_get.1 f3) (a₁ := k.cast (by simp)) (a₂ := l.cast (by simp)) (by
        simp only [List.get_eq_getElem, List.getElem_map, Fin.val_cast]
        exact Prod.ext e1 e2)
      simpa [Fin.ext_iff] using this
    -- two different edges share at most one vertex
    have huniq : ∀ k l : Fin es.length, k ≠ l → ∀ a b, Ends (es.get k) a → Ends (es.get l) a → Ends (es.get k) b → Ends (es.get l) b → a = b := by
      intro k l hkl a b ka la kb lb
      by_contra hab
      refine hkl (hinj k l ?_ ?_) <;>
      · have o1 := (hends k).1
        have o2 := (hends l).1
        simp only [Ends, Fin.ext_iff, Fin.lt_def] at *
        omega
    set d : Fin n → ℕ := fun v => (Finset.univ.filter fun k : Fin es.length => Ends (es.get k) v).card with hd
    have hdeg : ∀ v, d v = (Finset.univ.filter fun j => g.W.dense v j ≠ 0).card := by
      intro v
      refine Finset.card_bij (fun k _ => if (es.get k).1 = v then (es.get k).2.1 else (es.get k).1) ?_ ?_ ?_
      · intro k hk
        have hk := (Finset.mem_filter.1 hk).2
        refine Finset.mem_filter.2 ⟨Finset.mem_univ _, ?_⟩
        split
        · rename_i e; rw [← e]; exact (hends k).2
        · rename_i e
          have : v = (es.get k).2.1 := hk.resolve_left (Ne.symm e)
          rw [this, hun]; exact (hends k).2
      · intro k hk l hl' e
        have hk := (Finset.mem_filter.1 hk).2
        have hl' := (Finset.mem_filter.1 hl').2
        have o1 := (hends k).1
        have o2 := (hends l).1
        by_contra hkl
        have hb : Ends (es.get k) (if (es.get k).1 = v then (es.get k).2.1 else (es.get k).1) := by
          split
          · exact .inr rfl
          · exact .inl rfl
        have hb' : Ends (es.get l) (if (es.get l).1 = v then (es.get l).2.1 else (es.get l).1) := by
          split
          · exact .inr rfl
          · exact .inl rfl
        rw [← e] at hb'
        have := huniq k l hkl _ _ hk hl' hb hb'
        split at this
        · rename_i e1; rw [← this, ← e1] at o1; exact lt_irrefl _ (e1 ▸ o1)
        · rename_i e1; exact e1 this.symm
      · intro j hj
        have hj := (Finset.mem_filter.1 hj).2
        obtain ⟨k, k1, k2⟩ := hmem v j hj
        refine ⟨k, Finset.mem_filter.2 ⟨Finset.mem_univ _, k1⟩, ?_⟩
        have hvj : v ≠ j := fun e => hj (by rw [← e]; exact hl v)
        split
        · rename_i e
          exact (k2.resolve_left (fun q => hvj (by rw [q, e]))).symm
        · rename_i e
          have hv2 : v = (es.get k).2.1 := k1.resolve_left (Ne.symm e)
          exact (k2.resolve_right (fun q => hvj (hv2.trans q.symm))).symm
    rw [C02_n_edges_undirected h h4 hu]
    have e0 := Gen.two_edges_card hu h8
    have e1 : ∀ k, (Finset.univ.filter fun l => h.W.dense k l ≠ 0).card =
        ∑ v, if Ends (es.get k) v then (Finset.univ.filter fun l : Fin es.length => l ≠ k ∧ Ends (es.get l) v).card else 0 := by
      intro k
      have : (Finset.univ.filter fun l => h.W.dense k l ≠ 0) =
          (Finset.univ.filter fun v => Ends (es.get k) v).biUnion fun v => Finset.univ.filter fun l : Fin es.length => l ≠ k ∧ Ends (es.get l) v := by
        ext l
        simp only [Finset.mem_filter, Finset.mem_univ, true_and, Finset.mem_biUnion]
        constructor
        · intro hne
          by_cases e : l = k
          · subst e; exact absurd (h8 l) hne
          · by_contra hcon
            refine hne (h7 k l (Ne.symm e) fun ⟨a, x, y⟩ => hcon ⟨a, x, e, y⟩)
        · rintro ⟨v, x, e, y⟩
          rw [h6 k l (Ne.symm e) ⟨v, x, y⟩]
          norm_num
      rw [this, Finset.card_biUnion, Finset.sum_filter]
      intro a ha b hb hab
      refine Finset.disjoint_left.2 ?_
      intro l hl1 hl2
      obtain ⟨-, q1, q2⟩ := Finset.mem_filter.1 hl1
      obtain ⟨-, q3, q4⟩ := Finset.mem_filter.1 hl2
      exact hab (huniq k l (Ne.symm q1) a b (Finset.mem_filter.1 ha).2 q2 (Finset.mem_filter.1 hb).2 q4)
    have e2 : ∀ v k, (if Ends (es.get k) v then (Finset.univ.filter fun l : Fin es.length => l ≠ k ∧ Ends (es.get l) v).card else 0) =
        if Ends (es.get k) v then d v - 1 else 0 := by
      intro v k
      by_cases q : Ends (es.get k) v
      · rw [if_pos q, if_pos q]
        have : (Finset.univ.filter fun l : Fin es.length => l ≠ k ∧ Ends (es.get l) v) =
            (Finset.univ.filter fun l : Fin es.length => Ends (es.get l) v).erase k := by
          ext l
          simp [Finset.mem_erase]
        rw [this, Finset.card_erase_of_mem (s := Finset.univ.filter fun l : Fin es.length => Ends (es.get l) v) (Finset.mem_filter.2 ⟨Finset.mem_univ k, q⟩)]
      · rw [if_neg q, if_neg q]
    rw [Finset.sum_congr rfl fun k _ => e1 k, Finset.sum_comm] at e0
    have e3 : ∀ v, (∑ k, if Ends (es.get k) v then (Finset.univ.filter fun l : Fin es.length => l ≠ k ∧ Ends (es.get l) v).card else 0) =
        2 * (d v).choose 2 := by
      intro v
      rw [Finset.sum_congr rfl fun k _ => e2 v k, ← Finset.sum_filter, Finset.sum_const, smul_eq_mul, Nat.choose_two_right,
        Nat.mul_div_cancel' (Nat.even_mul_pred_self _).two_dvd]
    rw [Finset.sum_congr rfl fun v _ => e3 v, ← Finset.mul_sum] at e0
    have e4 : (edges h.W.dense).card = ∑ v, (d v).choose 2 := by omega
    rw [e4]
    exact Finset.sum_congr rfl fun v _ => by rw [hdeg]

/-- A self-loop of the graph becomes an isolated vertex of the line graph with a self-loop of weight `-1`, although it shares its
vertex with other edges. -/
theorem C73_loop_violated (g : Graph n ℝ) (hg : g.Built) (hW : NonnegW g.W.dense) (coords : Fin n → ℝ) {lt : LapType}
    (hlt : lt = .combinatorial ∨ lt = .normalized) :
    ∃ es h c, g.getEdgeList = .ok es ∧ lineGraph g coords lt = .ok ⟨es.length, h, c⟩ ∧
      ∀ k, (es.get k).1 = (es.get k).2.1 → c k = 0 ∧ ∀ l, h.W.dense k l = if k = l then -1 else 0 := by
  obtain ⟨es, h, c, h1, h2, h3, h4, h5, h6⟩ := core g hg hW coords hlt
  have hinc : ∀ k, (es.get k).1 = (es.get k).2.1 → ∀ a, ¬ (diffMatrix g.W g.lapType es).dense a k ≠ 0 := by
    intro k hk a hne
    exact ((incidence g hg hW h1 k a).1 hne).1 hk
  refine ⟨es, h, c, h1, h2, fun k hk => ⟨?_, fun l => ?_⟩⟩
  · rw [h6]
    unfold lineCoords
    rw [Finset.sum_eq_zero, zero_div]
    intro a _
    rw [if_neg (hinc k hk a), zero_mul]
  · rw [h5]
    unfold lineAdjacency
    rw [Matrix.of_apply, if_neg fun ⟨a, q, _⟩ => hinc k hk a q]
    split <;> norm_num

/-- the line graph of a path with four vertices is a path with three vertices -/
example : ∃ (g : Graph 4 ℝ) (m : ℕ) (h : Graph m ℝ) (c : _), g.Built ∧ lineGraph g (fun i => i.1) .combinatorial = .ok ⟨m, h, c⟩ ∧ m = 3 ∧ h.nEdges = 2 := by
  obtain ⟨g, e1, e2, -, e3⟩ := C67_weights (N := 4) (by norm_num) false (.inl rfl)
  have hW : NonnegW g.W.dense := fun i j => by rw [e3]; split <;> norm_num
  have hl : ∀ i, g.W.dense i i = 0 := fun i => by rw [e3]; simp
  obtain ⟨es, h, c, -, f1, f2, -⟩ := C73_weights g e2 hW hl (fun i => i.1) (.inl rfl)
  obtain ⟨s1, s2, -⟩ := C67_structure (by norm_num) e1
  refine ⟨g, _, h, c, e2, f2, by rw [f1, s1], ?_⟩
  rw [(C73_structure g e2 hW hl _ f2).2.2 (s2 rfl).1]
  have hc : ∀ v : Fin 4, (Finset.univ.filter fun j => g.W.dense v j ≠ 0).card = (![1, 2, 2, 1] : Fin 4 → ℕ) v := by
    intro v
    have : (Finset.univ.filter fun j => g.W.dense v j ≠ 0) = Finset.univ.filter fun j : Fin 4 => v.1 + 1 = j.1 ∨ j.1 + 1 = v.1 := by
      ext j
      rw [Finset.mem_filter, Finset.mem_filter, e3]
      simp
      omega
    rw [this]
    clear this
    revert v
    decide
  rw [Finset.sum_congr rfl fun v _ => by rw [hc v]]
  decide

end PyGSP
