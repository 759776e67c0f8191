import Verif.Lemmas.Community2

/-!
# C78: `Community`
-/

namespace PyGSP.Gen

open Matrix Classical Spec Reduction

variable {N : ℕ}

/-! ## Taking the constructor apart -/

/-- the pairs inside a community -/
theorem intra_ok {a : CommunityArgs} {eps : ℝ} (he : a.commDensity = none → a.kNeigh = none → 0 ≤ eps)
    (hd : ∀ d, a.commDensity = some d → d ≤ 1) {r : CommunityRng} (hr : r.Spec N) {coords : List (ℝ × ℝ)} (i : ℕ) {first size : ℕ}
    (hc : first + size ≤ coords.length) : IntraOk first size (intraPairs a eps r coords i first size) := by
  rcases h1 : a.commDensity with _ | d
  · rcases h2 : a.kNeigh with _ | k
    · exact (epsilon_pairs h1 h2 (he h1 h2) hr i hc).1
    · have : intraPairs a eps r coords i first size = [] := by simp only [intraPairs, h1, h2]
      rw [this]
      exact ⟨List.nodup_nil, by simp, by simp, by simp⟩
  · exact (density_pairs h1 (hd d h1) eps hr coords i first size).1

/-- the number of pairs between the communities -/
theorem floor_cross {s : List ℕ} (hs : s.sum = N) :
    ⌊((N : ℝ) ^ 2 - ((s.map fun x : ℕ => x ^ 2).sum : ℕ)) / 2⌋₊ = (allPoints s.length s).length ∧
      ((N : ℝ) ^ 2 - ((s.map fun x : ℕ => x ^ 2).sum : ℕ)) / 2 = (allPoints s.length s).length := by
  have h : ((N : ℝ) ^ 2 - ((s.map fun x : ℕ => x ^ 2).sum : ℕ)) / 2 = (allPoints s.length s).length := by
    have := allPoints_length s
    rw [hs] at this
    have h2 : (2 : ℝ) * ((allPoints s.length s).length : ℝ) + ((s.map fun x : ℕ => x ^ 2).sum : ℕ) = (N : ℝ) ^ 2 := by exact_mod_cast this
    linarith
  exact ⟨by rw [h, Nat.floor_natCast], h⟩

theorem interSample_zero (labels : List ℕ) (point : ℕ → ℕ × ℕ) (fuel t : ℕ) (acc : List (ℕ × ℕ)) :
    interSample labels 0 point fuel t acc = some acc := by
  cases fuel <;> rw [interSample, if_pos (Nat.zero_le _)]

theorem inter_ok {nc : ℕ} {wd : ℝ} (hw : wd ≤ 1) {s : List ℕ} (hs : s.sum = N) (hnc : s.length = nc) {r : CommunityRng} (hr : r.Spec N) {fuel : ℕ}
    {P : List (ℕ × ℕ)} (h : interPairs N nc wd (blocks s) s r fuel = .ok (some P)) :
    InterOk N (blocks s) P ∧ P.length = ⌊wd * (((N : ℝ) ^ 2 - ((s.map fun x : ℕ => x ^ 2).sum : ℕ)) / 2)⌋₊ := by
  subst hnc
  obtain ⟨hfl, hM⟩ := floor_cross hs
  have hle : ⌊wd * (((N : ℝ) ^ 2 - ((s.map fun x : ℕ => x ^ 2).sum : ℕ)) / 2)⌋₊ ≤ (allPoints s.length s).length := by
    rw [hM]; exact floor_le hw _
  unfold interPairs at h
  simp only at h
  by_cases hlt : wd < 35 / 100
  · rw [if_pos hlt] at h
    have h := Except.ok.inj h
    rcases Nat.eq_zero_or_pos N with h0 | h0
    · have hz : ⌊wd * (((N : ℝ) ^ 2 - ((s.map fun x : ℕ => x ^ 2).sum : ℕ)) / 2)⌋₊ = 0 := by
        have : (allPoints s.length s).length = 0 := by
          have := allPoints_length s
          rw [hs, h0] at this
          simp only [ne_eq, OfNat.ofNat_ne_zero, not_false_eq_true, zero_pow] at this
          omega
        rw [this] at hle
        exact Nat.le_zero.1 hle
      rw [hz, interSample_zero] at h
      obtain rfl := Option.some.inj h
      exact ⟨⟨List.nodup_nil, by simp, by simp⟩, by rw [hz]; rfl⟩
    · obtain ⟨p1, p2, p3⟩ := interSample_ok (hr.point_lt h0) fuel 0 [] List.nodup_nil (by simp) (by simp) P h
      refine ⟨⟨nodup_key p1 fun q hq => (p2 q hq).1, fun q hq => ?_, fun q hq => (p2 q hq).2.2⟩, p3⟩
      have := p2 q hq
      omega
  · rw [if_neg hlt] at h
    obtain ⟨t1, t2, t3⟩ := take_perm (hr.perm_perm s.length ⌊((N : ℝ) ^ 2 - ((s.map fun x : ℕ => x ^ 2).sum : ℕ)) / 2⌋₊)
      ⌊wd * (((N : ℝ) ^ 2 - ((s.map fun x : ℕ => x ^ 2).sum : ℕ)) / 2)⌋₊ (by rw [hfl]; exact hle)
    rw [hfl] at h t1 t2 t3
    rw [if_pos t3] at h
    obtain rfl := Option.some.inj (Except.ok.inj h)
    have hmem : ∀ p ∈ ((r.perm s.length (allPoints s.length s).length).take
        ⌊wd * (((N : ℝ) ^ 2 - ((s.map fun x : ℕ => x ^ 2).sum : ℕ)) / 2)⌋₊).map fun e => (allPoints s.length s).getD e (0, 0),
        p ∈ allPoints s.length s := by
      intro p hp
      obtain ⟨e, he, rfl⟩ := List.mem_map.1 hp
      rw [List.getD_eq_getElem _ _ (t3 e he)]
      exact List.getElem_mem _
    have hspec : ∀ p ∈ allPoints s.length s, p.2 < p.1 ∧ p.1 < N ∧ (blocks s).getD p.1 0 ≠ (blocks s).getD p.2 0 := by
      intro p hp
      obtain ⟨i, j, x, c, h1, h2, h3, h4, rfl⟩ := (mem_allPoints s p).1 hp
      simp only
      rw [blocks_get s h2 h3, blocks_get s (h1.trans h2) h4]
      refine ⟨?_, ?_, h1.ne'⟩
      · have := start_le (s.take j) (c := i) (by simp; omega)
        rw [List.take_take, Nat.min_eq_left h1.le] at this
        have e : (s.take j).getD i 0 = s.getD i 0 := by
          rw [List.getD_eq_getElem _ _ (by simp; omega), List.getD_eq_getElem _ _ (by omega), List.getElem_take]
        rw [e] at this
        omega
      · have := start_le s h2
        omega
    refine ⟨⟨?_, fun p hp => ?_, fun p hp => ?_⟩, by rw [List.length_map, t1]⟩
    · refine List.Nodup.map_on ?_ (nodup_map_getD (nodup_allPoints s) t2 t3 (0, 0))
      intro p hp q hq hpq
      have h1 := hspec p (hmem p hp)
      have h2 := hspec q (hmem q hq)
      rcases Sym2.eq_iff.1 hpq with h | h
      · exact Prod.ext h.1 h.2
      · omega
    · have := hspec p (hmem p hp)
      omega
    · exact (hspec p (hmem p hp)).2.2

/-- the labels -/
theorem labels_ok {nc mc : ℕ} (hN : mc * nc ≤ N) {sz : Option (List ℕ)} {r : CommunityRng} (hr : r.Spec N) {labels : List ℕ}
    (h : communityLabels N nc mc sz r = .ok labels) :
    labels = blocks ((List.range nc).map fun c : ℕ => labels.count c) ∧ labels.length = N ∧ (∀ s, sz = some s → ((List.range nc).map fun c : ℕ => labels.count c) = s) ∧
      (sz = none → ∀ c < nc, mc ≤ labels.count c) := by
  rcases sz with _ | s
  · simp only [communityLabels] at h
    by_cases h0 : nc = 0 ∧ N - mc * nc ≠ 0
    · rw [if_pos h0] at h; cases h
    · rw [if_neg h0] at h
      obtain rfl := Except.ok.inj h
      have hlt : ∀ c ∈ ((List.replicate mc (List.range nc)).flatten ++ r.choice nc (N - mc * nc)), c < nc := by
        intro c hc
        rcases List.mem_append.1 hc with hc | hc
        · obtain ⟨l, hl, hcl⟩ := List.mem_flatten.1 hc
          rw [List.eq_of_mem_replicate hl] at hcl
          exact List.mem_range.1 hcl
        · rcases Nat.eq_zero_or_pos nc with hz | hp
          · have h1 : N - mc * nc = 0 := by by_contra hh; exact h0 ⟨hz, hh⟩
            have h2 := hr.choice_length nc (N - mc * nc)
            rw [h1] at h2 hc
            rw [List.eq_nil_of_length_eq_zero h2] at hc
            exact absurd hc (by simp)
          · exact hr.choice_lt nc _ hp c hc
      have hperm := List.mergeSort_perm ((List.replicate mc (List.range nc)).flatten ++ r.choice nc (N - mc * nc)) fun x y : ℕ => decide (x ≤ y)
      refine ⟨sorted_eq_blocks ?_ fun c hc => hlt c (hperm.subset hc), ?_, by simp, ?_⟩
      · have := List.pairwise_mergeSort (le := fun x y : ℕ => decide (x ≤ y)) (by simpa using fun a b c => le_trans) (by simpa using fun a b => le_total a b)
          ((List.replicate mc (List.range nc)).flatten ++ r.choice nc (N - mc * nc))
        simpa using this
      · rw [hperm.length_eq, List.length_append, hr.choice_length, List.length_flatten]
        simp
        omega
      · intro _ c hc
        rw [hperm.count_eq, List.count_append, List.count_flatten]
        have : (List.range nc).count c = 1 := List.count_eq_one_of_mem List.nodup_range (List.mem_range.2 hc)
        simp [this]
  · simp only [communityLabels] at h
    by_cases h1 : s.length ≠ nc
    · rw [if_pos h1] at h; cases h
    rw [if_neg h1] at h
    push Not at h1
    by_cases h2 : s.sum ≠ N
    · rw [if_pos h2] at h; cases h
    rw [if_neg h2] at h
    push Not at h2
    by_cases h3 : s = []
    · rw [if_pos h3] at h; cases h
    rw [if_neg h3] at h
    have hl : labels = blocks s := (Except.ok.inj h).symm
    have hs : ((List.range nc).map fun c : ℕ => labels.count c) = s := by
      apply List.ext_getElem
      · simp [h1]
      · intro c hc1 hc2
        rw [List.getElem_map, List.getElem_range, hl, blocks_count, List.getD_eq_getElem _ _ hc2]
    refine ⟨by rw [hs, hl], by rw [hl, blocks_length, h2], ?_, by simp⟩
    intro s' hs'
    rw [hs, Option.some.inj hs']

/-- everything that is known of a constructed object -/
theorem community_spec {a : CommunityArgs} (heps : ∀ e, a.epsilon = some e → 0 ≤ e) {r : CommunityRng} (hr : r.Spec N) {fuel : ℕ} {lt : LapType}
    {G : Community N} (h : community N a r fuel lt = .ok (some G)) :
    (G.nc = a.nc.getD (roundHalfEven (Real.sqrt N / 2)).toNat) ∧
    (G.minComm = a.minComm.getD (roundHalfEven ((N : ℝ) / (3 * G.nc))).toNat) ∧
    (G.worldDensity = a.worldDensity.getD (1 / (N : ℝ))) ∧
    (G.epsilon = a.epsilon.getD (Real.sqrt (2 * Real.sqrt N) / 2)) ∧
    (0 ≤ G.worldDensity ∧ G.worldDensity ≤ 1) ∧ 0 ≤ G.epsilon ∧ G.minComm * G.nc ≤ N ∧
    (∀ d, a.commDensity = some d → 0 ≤ d ∧ d ≤ 1) ∧
    G.sizes = ((List.range G.nc).map fun c : ℕ => G.nodeCom.count c) ∧ G.nodeCom = blocks G.sizes ∧ G.nodeCom.length = N ∧ (∀ x ∈ G.sizes, x ≠ 0) ∧
    (∀ s, a.commSizes = some s → G.sizes = s) ∧ (a.commSizes = none → ∀ c < G.nc, G.minComm ≤ G.nodeCom.count c) ∧
    G.worldRad = a.sizeRatio * Real.sqrt N ∧ G.centers = (List.range G.nc).map (communityCenter G.nc G.worldRad) ∧
    communityCoords G.nc G.worldRad G.nodeCom G.sizes (r.uniform N) = .ok G.coords ∧
    ∃ inter, InterOk N G.nodeCom inter ∧
      inter.length = ⌊G.worldDensity * (((N : ℝ) ^ 2 - ((G.sizes.map fun x : ℕ => x ^ 2).sum : ℕ)) / 2)⌋₊ ∧
      ofEdges N (bothWays (intraAll a G.epsilon r G.coords 0 0 G.sizes ++ inter)) lt = .ok G.graph ∧
      interPairs N G.nc G.worldDensity G.nodeCom G.sizes r fuel = .ok (some inter) := by
  unfold community at h
  simp only at h
  by_cases c1 : a.minComm = none ∧ a.nc.getD (roundHalfEven (Real.sqrt N / 2)).toNat = 0
  · rw [if_pos c1] at h; cases h
  rw [if_neg c1] at h
  by_cases c2 : a.minDeg ≠ none
  · rw [if_pos c2] at h; cases h
  rw [if_neg c2] at h
  by_cases c3 : a.worldDensity = none ∧ N = 0
  · rw [if_pos c3] at h; cases h
  rw [if_neg c3] at h
  split at h
  · cases h
  rename_i c4
  rw [not_not] at c4
  generalize hnc : a.nc.getD (roundHalfEven (Real.sqrt N / 2)).toNat = nc at *
  generalize hmc : a.minComm.getD (roundHalfEven ((N : ℝ) / (3 * nc))).toNat = mc at *
  generalize hwd : a.worldDensity.getD (1 / (N : ℝ)) = wd at *
  generalize hep : a.epsilon.getD (Real.sqrt (2 * Real.sqrt N) / 2) = eps at *
  have he0 : 0 ≤ eps := by
    rw [← hep]
    rcases hh : a.epsilon with _ | e
    · simp only [Option.getD_none]; positivity
    · exact heps e hh
  unfold communityBuild at h
  by_cases c5 : N < mc * nc
  · rw [if_pos c5] at h; cases h
  rw [if_neg c5] at h
  push Not at c5
  rcases hl : communityLabels N nc mc a.commSizes r with e | labels
  · rw [hl] at h; cases h
  rw [hl] at h
  simp only at h
  obtain ⟨l1, l2, l3, l4⟩ := labels_ok c5 hr hl
  by_cases c6 : badIntra a
  · rw [if_pos c6] at h; cases h
  rw [if_neg c6] at h
  rcases hco : communityCoords nc (a.sizeRatio * Real.sqrt N) labels (communityCounts nc labels) (r.uniform N) with e | coords
  · rw [hco] at h; cases h
  rw [hco] at h
  simp only at h
  by_cases c7 : (communityCounts nc labels).length < nc
  · rw [if_pos c7] at h; cases h
  rw [if_neg c7] at h
  have hcounts : communityCounts nc labels = (List.range nc).map fun c : ℕ => labels.count c := by
    unfold communityCounts at c7 ⊢
    have hsub := List.filter_sublist (p := fun x : ℕ => decide (x ≠ 0)) (l := (List.range nc).map fun c : ℕ => labels.count c)
    refine hsub.eq_of_length_le ?_
    simp only [List.length_map, List.length_range]
    omega
  have hpos : ∀ x ∈ communityCounts nc labels, x ≠ 0 := by
    intro x hx
    simpa using (List.mem_filter.1 hx).2
  have hbl : labels = blocks (communityCounts nc labels) := by rw [hcounts]; exact l1
  rcases hi : interPairs N nc wd labels (communityCounts nc labels) r fuel with e | _ | inter
  · rw [hi] at h; cases h
  · rw [hi] at h; simp at h
  rw [hi] at h
  simp only at h
  have hio : interPairs N nc wd (blocks (communityCounts nc labels)) (communityCounts nc labels) r fuel = .ok (some inter) := by rw [← hbl, hi]
  have hsum : (communityCounts nc labels).sum = N := by rw [← blocks_length, ← hbl, l2]
  obtain ⟨i1, i2⟩ := inter_ok c4.2 hsum (by rw [hcounts]; simp) hr hio
  rw [← hbl] at i1
  rcases hg : ofEdges N (bothWays (intraAll a eps r coords 0 0 (communityCounts nc labels) ++ inter)) lt with e | g
  · rw [hg] at h; cases h
  rw [hg] at h
  obtain rfl := Option.some.inj (Except.ok.inj h)
  refine ⟨rfl, hmc.symm, rfl, rfl, c4, he0, c5, ?_, hcounts, hbl, l2, hpos, ?_, l4, rfl, rfl, hco, inter, i1, i2, hg, hi⟩
  · intro d hd
    simp only [badIntra, hd] at c6
    rw [not_not] at c6
    exact c6
  · intro s hs
    exact hcounts.trans (l3 s hs)

/-- the pairs of the whole graph -/
theorem community_pairs {a : CommunityArgs} (heps : ∀ e, a.epsilon = some e → 0 ≤ e) {r : CommunityRng} (hr : r.Spec N) {fuel : ℕ} {lt : LapType}
    {G : Community N} (h : community N a r fuel lt = .ok (some G)) : ∃ inter,
    InterOk N G.nodeCom inter ∧
    inter.length = ⌊G.worldDensity * (((N : ℝ) ^ 2 - ((G.sizes.map fun x : ℕ => x ^ 2).sum : ℕ)) / 2)⌋₊ ∧
    G.coords.length = N ∧ G.sizes.length = G.nc ∧
    (∀ c < G.nc, IntraOk (G.sizes.take c).sum (G.sizes.getD c 0) (intraPairs a G.epsilon r G.coords c (G.sizes.take c).sum (G.sizes.getD c 0))) ∧
    (∀ c < G.nc, ∀ p ∈ intraPairs a G.epsilon r G.coords c (G.sizes.take c).sum (G.sizes.getD c 0),
      G.nodeCom.getD p.1 0 = c ∧ G.nodeCom.getD p.2 0 = c) ∧
    (((List.range G.nc).flatMap fun c : ℕ => intraPairs a G.epsilon r G.coords c (G.sizes.take c).sum (G.sizes.getD c 0)) ++ inter |>.map key).Nodup ∧
    (∀ e ∈ (((List.range G.nc).flatMap fun c : ℕ => intraPairs a G.epsilon r G.coords c (G.sizes.take c).sum (G.sizes.getD c 0)) ++ inter).map key,
      ∀ v ∈ e, v < N) ∧
    G.graph.Built ∧ (∀ i j, G.graph.W.dense i j =
      if s(i.1, j.1) ∈ (((List.range G.nc).flatMap fun c : ℕ => intraPairs a G.epsilon r G.coords c (G.sizes.take c).sum (G.sizes.getD c 0)) ++ inter).map key
      then 1 else 0) ∧ interPairs N G.nc G.worldDensity G.nodeCom G.sizes r fuel = .ok (some inter) := by
  obtain ⟨-, -, -, -, hw, he, -, hd, hsz, hbl, hlen, -, -, -, -, -, hco, inter, i1, i2, hg, hi⟩ := community_spec heps hr h
  have hnc : G.sizes.length = G.nc := by rw [hsz]; simp
  have hsum : G.sizes.sum = N := by rw [← blocks_length, ← hbl, hlen]
  have hcl : G.coords.length = N := by
    unfold communityCoords at hco
    split at hco
    · rw [← Except.ok.inj hco, List.length_zipWith, hlen, hr.uniform_length]; simp
    · cases hco
  have hin : ∀ c < G.nc, IntraOk (G.sizes.take c).sum (G.sizes.getD c 0)
      (intraPairs a G.epsilon r G.coords c (G.sizes.take c).sum (G.sizes.getD c 0)) := by
    intro c hc
    refine intra_ok (fun _ _ => he) (fun d h => (hd d h).2) hr c ?_
    rw [hcl]
    exact (start_le _ (hnc ▸ hc)).trans hsum.le
  have hlab : ∀ c < G.nc, ∀ p ∈ intraPairs a G.epsilon r G.coords c (G.sizes.take c).sum (G.sizes.getD c 0),
      G.nodeCom.getD p.1 0 = c ∧ G.nodeCom.getD p.2 0 = c := by
    intro c hc p hp
    have h1 := (hin c hc).lt p hp
    have h2 := (hin c hc).ge p hp
    have h3 := (hin c hc).end_lt p hp
    have hb : ∀ v, (G.sizes.take c).sum ≤ v → v < (G.sizes.take c).sum + G.sizes.getD c 0 → G.nodeCom.getD v 0 = c := by
      intro v hv1 hv2
      rw [hbl]
      have := blocks_get G.sizes (hnc ▸ hc : c < G.sizes.length) (k := v - (G.sizes.take c).sum) (by omega)
      rwa [Nat.add_sub_cancel' hv1] at this
    exact ⟨hb _ (by omega) (by omega), hb _ (by omega) (by omega)⟩
  have hall : intraAll a G.epsilon r G.coords 0 0 G.sizes =
      (List.range G.nc).flatMap fun c : ℕ => intraPairs a G.epsilon r G.coords c (G.sizes.take c).sum (G.sizes.getD c 0) := by
    rw [intraAll_eq, hnc]
    simp only [Nat.zero_add]
  rw [hall] at hg
  have hnd : (((List.range G.nc).flatMap fun c : ℕ => intraPairs a G.epsilon r G.coords c (G.sizes.take c).sum (G.sizes.getD c 0)) ++ inter |>.map key).Nodup := by
    rw [List.map_append, List.nodup_append]
    refine ⟨?_, i1.nodup, ?_⟩
    · rw [List.map_flatMap, List.nodup_flatMap]
      refine ⟨fun c hc => nodup_key (hin c (List.mem_range.1 hc)).nodup (hin c (List.mem_range.1 hc)).lt, ?_⟩
      refine List.Pairwise.imp_of_mem ?_ List.pairwise_lt_range
      intro c c' hc hc' hcc
      simp only [Function.onFun, List.disjoint_left, List.mem_map]
      rintro e ⟨p, hp, rfl⟩ ⟨q, hq, hqp⟩
      have h1 := hlab c (List.mem_range.1 hc) p hp
      have h2 := hlab c' (List.mem_range.1 hc') q hq
      rcases Sym2.eq_iff.1 hqp with h | h
      · rw [← h.1, h2.1] at h1; omega
      · rw [← h.1, h2.1] at h1; omega
    · intro e he' f hf hef
      subst hef
      obtain ⟨p, hp, rfl⟩ := List.mem_map.1 he'
      obtain ⟨q, hq, hqp⟩ := List.mem_map.1 hf
      obtain ⟨c, hc, hp⟩ := List.mem_flatMap.1 hp
      have h1 := hlab c (List.mem_range.1 hc) p hp
      have h2 := i1.ne q hq
      rcases Sym2.eq_iff.1 hqp with h | h
      · rw [h.1, h.2, h1.1, h1.2] at h2; exact h2 rfl
      · rw [h.1, h.2, h1.1, h1.2] at h2; exact h2 rfl
  have hbd : ∀ p ∈ ((List.range G.nc).flatMap fun c : ℕ => intraPairs a G.epsilon r G.coords c (G.sizes.take c).sum (G.sizes.getD c 0)) ++ inter,
      p.1 < N ∧ p.2 < N ∧ p.1 ≠ p.2 := by
    intro p hp
    rcases List.mem_append.1 hp with hp | hp
    · obtain ⟨c, hc, hp⟩ := List.mem_flatMap.1 hp
      have hc := List.mem_range.1 hc
      have h1 := (hin c hc).lt p hp
      have h3 := (hin c hc).end_lt p hp
      have h4 := start_le G.sizes (hnc ▸ hc : c < G.sizes.length)
      omega
    · refine ⟨(i1.lt p hp).1, (i1.lt p hp).2, fun hh => i1.ne p hp (by rw [hh])⟩
  have hlt : ∀ e ∈ bothWays (((List.range G.nc).flatMap fun c : ℕ =>
      intraPairs a G.epsilon r G.coords c (G.sizes.take c).sum (G.sizes.getD c 0)) ++ inter), e.1 < N ∧ e.2.1 < N := by
    intro e he'
    unfold bothWays at he'
    have := mem_ones he'
    simp only [List.mem_append, List.mem_map] at this
    constructor
    · rcases this.1 with ⟨p, hp, h⟩ | ⟨p, hp, h⟩ <;> rw [← h] <;> [exact (hbd p (List.mem_append.2 hp)).1; exact (hbd p (List.mem_append.2 hp)).2.1]
    · rcases this.2 with ⟨p, hp, h⟩ | ⟨p, hp, h⟩ <;> rw [← h] <;> [exact (hbd p (List.mem_append.2 hp)).2.1; exact (hbd p (List.mem_append.2 hp)).1]
  refine ⟨inter, i1, i2, hcl, hnc, hin, hlab, hnd, ?_, ?_⟩
  · intro e he' v hv
    obtain ⟨p, hp, rfl⟩ := List.mem_map.1 he'
    rcases Sym2.mem_iff.1 hv with rfl | rfl
    · exact (hbd p hp).1
    · exact (hbd p hp).2.1
  · have hlt' : lt = .combinatorial ∨ lt = .normalized := by
      rcases lt with _ | _ | name
      · exact Or.inl rfl
      · exact Or.inr rfl
      · rw [ofEdges_unknown hlt] at hg; cases hg
    obtain ⟨g, g1, g2, g3, -⟩ := ofEdges_ok hlt hlt'
    rw [g1] at hg
    obtain rfl := Except.ok.inj hg
    refine ⟨g2, fun i j => ?_, hi⟩
    rw [g3, bothWays_weight (fun p hp => (hbd p hp).2.2) hnd]

/-! ## The theorems -/

/-- **C78** The attributes: what was given, or the default. -/
theorem C78_attributes {a : CommunityArgs} (heps : ∀ e, a.epsilon = some e → 0 ≤ e) {r : CommunityRng} (hr : r.Spec N) {fuel : ℕ} {lt : LapType}
    {G : Community N} (h : community N a r fuel lt = .ok (some G)) :
    G.nc = a.nc.getD (roundHalfEven (Real.sqrt N / 2)).toNat ∧ G.minComm = a.minComm.getD (roundHalfEven ((N : ℝ) / (3 * G.nc))).toNat ∧
    G.worldDensity = a.worldDensity.getD (1 / (N : ℝ)) ∧ G.epsilon = a.epsilon.getD (Real.sqrt (2 * Real.sqrt N) / 2) ∧
    G.worldRad = a.sizeRatio * Real.sqrt N ∧
    G.centers = (List.range G.nc).map fun c : ℕ =>
      (G.worldRad * Real.cos (2 * Real.pi * (c + 1) / G.nc), G.worldRad * Real.sin (2 * Real.pi * (c + 1) / G.nc)) := by
  obtain ⟨h1, h2, h3, h4, -, -, -, -, -, -, -, -, -, -, h5, h6, -⟩ := community_spec heps hr h
  exact ⟨h1, h2, h3, h4, h5, h6⟩

/-- **C78** The communities are blocks of consecutive vertices, numbered from 0 to Nc - 1, none of them empty; `info['comm_sizes']` are their sizes, which
are the ones asked for, or else at least `min_comm`. -/
theorem C78_communities {a : CommunityArgs} (heps : ∀ e, a.epsilon = some e → 0 ≤ e) {r : CommunityRng} (hr : r.Spec N) {fuel : ℕ} {lt : LapType}
    {G : Community N} (h : community N a r fuel lt = .ok (some G)) :
    G.nodeCom.length = N ∧ G.nodeCom.Pairwise (· ≤ ·) ∧ (∀ c ∈ G.nodeCom, c < G.nc) ∧
    G.sizes = ((List.range G.nc).map fun c : ℕ => G.nodeCom.count c) ∧ (∀ c < G.nc, 0 < G.nodeCom.count c) ∧
    (∀ s, a.commSizes = some s → G.sizes = s) ∧ (a.commSizes = none → ∀ c < G.nc, G.minComm ≤ G.nodeCom.count c) := by
  obtain ⟨-, -, -, -, -, -, -, -, hsz, hbl, hlen, hpos, h7, h8, -⟩ := community_spec heps hr h
  refine ⟨hlen, ?_, ?_, hsz, ?_, h7, h8⟩
  · rw [hbl]; exact blocks_sorted _
  · intro c hc
    rw [hbl] at hc
    have := mem_blocks_lt _ hc
    rwa [hsz, List.length_map, List.length_range] at this
  · intro c hc
    refine Nat.pos_of_ne_zero (hpos _ ?_)
    rw [hsz]
    exact List.mem_map.2 ⟨c, List.mem_range.2 hc, rfl⟩

/-- **C78** The graph is undirected, its weights are zeros and ones, and it has no self-loops. -/
theorem C78_simple {a : CommunityArgs} (heps : ∀ e, a.epsilon = some e → 0 ≤ e) {r : CommunityRng} (hr : r.Spec N) {fuel : ℕ} {lt : LapType}
    {G : Community N} (h : community N a r fuel lt = .ok (some G)) :
    G.graph.Built ∧ Undirected G.graph.W.dense ∧ (∀ i j, G.graph.W.dense i j = 0 ∨ G.graph.W.dense i j = 1) ∧ ∀ i, G.graph.W.dense i i = 0 := by
  obtain ⟨inter, i1, -, -, -, hin, -, -, -, hb, hW, -⟩ := community_pairs heps hr h
  refine ⟨hb, ?_, ?_, ?_⟩
  · intro i j
    rw [hW, hW, Sym2.eq_swap]
  · intro i j
    rw [hW]
    split
    · exact Or.inr rfl
    · exact Or.inl rfl
  · intro i
    rw [hW, if_neg]
    intro hm
    obtain ⟨p, hp, hpi⟩ := List.mem_map.1 hm
    have hne : p.1 = p.2 := by
      rcases Sym2.eq_iff.1 hpi with h | h <;> rw [h.1, h.2]
    rcases List.mem_append.1 hp with hp | hp
    · obtain ⟨c, hc, hp⟩ := List.mem_flatMap.1 hp
      have := (hin c (List.mem_range.1 hc)).lt p hp
      omega
    · exact i1.ne p hp (by rw [hne])

/-- counting edges by a property of the labels of their ends -/
theorem community_count {a : CommunityArgs} (heps : ∀ e, a.epsilon = some e → 0 ≤ e) {r : CommunityRng} (hr : r.Spec N) {fuel : ℕ} {lt : LapType}
    {G : Community N} (h : community N a r fuel lt = .ok (some G)) :
    (∀ c < G.nc, ((edges G.graph.W.dense).filter fun e => ∀ v ∈ e, G.nodeCom.getD v.1 0 = c).card =
      (intraPairs a G.epsilon r G.coords c (G.sizes.take c).sum (G.sizes.getD c 0)).length) ∧
    ((edges G.graph.W.dense).filter fun e => ∃ v ∈ e, ∃ w ∈ e, G.nodeCom.getD v.1 0 ≠ G.nodeCom.getD w.1 0).card =
      ⌊G.worldDensity * (((N : ℝ) ^ 2 - ((G.sizes.map fun x : ℕ => x ^ 2).sum : ℕ)) / 2)⌋₊ := by
  obtain ⟨inter, i1, i2, hcl, hnc, hin, hlab, hnd, hlt, hb, hW, -⟩ := community_pairs heps hr h
  constructor
  · intro c hc
    rw [card_edges_filter hnd hlt hW (fun e => ∀ v ∈ e, G.nodeCom.getD v.1 0 = c) (fun e => ∀ v ∈ e, G.nodeCom.getD v 0 = c) (by
      intro e
      induction e using Sym2.ind with
      | _ i j => simp)]
    rw [List.map_append, List.countP_append]
    have hz : (inter.map key).countP (fun e => decide (∀ v ∈ e, G.nodeCom.getD v 0 = c)) = 0 := by
      rw [List.countP_eq_zero]
      intro e he
      obtain ⟨p, hp, rfl⟩ := List.mem_map.1 he
      have := i1.ne p hp
      simp only [Sym2.mem_iff, forall_eq_or_imp, forall_eq, decide_eq_true_eq]
      rintro ⟨h1, h2⟩
      exact this (h1.trans h2.symm)
    rw [hz, add_zero, List.map_flatMap, List.countP_flatMap, sum_map_range, Finset.sum_eq_single c]
    · simp only [Function.comp]
      rw [List.countP_eq_length.2, List.length_map]
      intro e he
      obtain ⟨p, hp, rfl⟩ := List.mem_map.1 he
      have := hlab c hc p hp
      simp only [Sym2.mem_iff, forall_eq_or_imp, forall_eq, decide_eq_true_eq]
      exact this
    · intro d hd hdc
      simp only [Function.comp]
      rw [List.countP_eq_zero]
      intro e he
      obtain ⟨p, hp, rfl⟩ := List.mem_map.1 he
      have := hlab d (Finset.mem_range.1 hd) p hp
      simp only [Sym2.mem_iff, forall_eq_or_imp, forall_eq, decide_eq_true_eq]
      rintro ⟨h1, -⟩
      exact hdc (this.1.symm.trans h1)
    · intro hh
      exact absurd (Finset.mem_range.2 hc) hh
  · rw [card_edges_filter hnd hlt hW (fun e => ∃ v ∈ e, ∃ w ∈ e, G.nodeCom.getD v.1 0 ≠ G.nodeCom.getD w.1 0) (fun e => ∃ v ∈ e, ∃ w ∈ e, G.nodeCom.getD v 0 ≠ G.nodeCom.getD w 0) (by
      intro e
      induction e using Sym2.ind with
      | _ i j => simp)]
    rw [List.map_append, List.countP_append, ← i2]
    have hz : (((List.range G.nc).flatMap fun c : ℕ => intraPairs a G.epsilon r G.coords c (G.sizes.take c).sum (G.sizes.getD c 0)).map key).countP
        (fun e => decide (∃ v ∈ e, ∃ w ∈ e, G.nodeCom.getD v 0 ≠ G.nodeCom.getD w 0)) = 0 := by
      rw [List.countP_eq_zero]
      intro e he
      obtain ⟨p, hp, rfl⟩ := List.mem_map.1 he
      obtain ⟨c, hc, hp⟩ := List.mem_flatMap.1 hp
      have := hlab c (List.mem_range.1 hc) p hp
      rw [decide_eq_true_eq]
      rintro ⟨v, hv, w, hw, hvw⟩
      apply hvw
      rcases Sym2.mem_iff.1 hv with rfl | rfl <;> rcases Sym2.mem_iff.1 hw with rfl | rfl <;> simp only [this.1, this.2]
    rw [hz, zero_add, List.countP_eq_length.2, List.length_map]
    intro e he
    obtain ⟨p, hp, rfl⟩ := List.mem_map.1 he
    rw [decide_eq_true_eq]
    exact ⟨p.1, by simp, p.2, by simp, i1.ne p hp⟩

/-- **C78** The number of edges between different communities is `world_density` times the number of pairs of vertices in different
communities, rounded down, whatever the random numbers and whichever of the two sampling methods is used. -/
theorem C78_between {a : CommunityArgs} (heps : ∀ e, a.epsilon = some e → 0 ≤ e) {r : CommunityRng} (hr : r.Spec N) {fuel : ℕ} {lt : LapType}
    {G : Community N} (h : community N a r fuel lt = .ok (some G)) :
    ((edges G.graph.W.dense).filter fun e => ∃ v ∈ e, ∃ w ∈ e, G.nodeCom.getD v.1 0 ≠ G.nodeCom.getD w.1 0).card =
      ⌊G.worldDensity * ((Finset.univ.filter fun p : Fin N × Fin N => p.1 < p.2 ∧ G.nodeCom.getD p.1.1 0 ≠ G.nodeCom.getD p.2.1 0).card : ℕ)⌋₊ := by
  rw [(community_count heps hr h).2]
  obtain ⟨-, -, -, -, -, -, -, -, hsz, hbl, hlen, -⟩ := community_spec heps hr h
  have hsum : G.sizes.sum = N := by rw [← blocks_length, ← hbl, hlen]
  rw [(floor_cross hsum).2]
  congr 3
  have hspec : ∀ p ∈ allPoints G.sizes.length G.sizes, p.2 < p.1 ∧ p.1 < N ∧ G.nodeCom.getD p.1 0 ≠ G.nodeCom.getD p.2 0 := by
    intro p hp
    obtain ⟨i, j, x, c, h1, h2, h3, h4, rfl⟩ := (mem_allPoints _ p).1 hp
    simp only
    rw [hbl, blocks_get _ h2 h3, blocks_get _ (h1.trans h2) h4]
    refine ⟨?_, ?_, h1.ne'⟩
    · have := start_le (G.sizes.take j) (c := i) (by simp; omega)
      rw [List.take_take, Nat.min_eq_left h1.le] at this
      have e : (G.sizes.take j).getD i 0 = G.sizes.getD i 0 := by
        rw [List.getD_eq_getElem _ _ (by simp; omega), List.getD_eq_getElem _ _ (by omega), List.getElem_take]
      rw [e] at this
      omega
    · have := start_le _ h2
      omega
  rw [← List.toFinset_card_of_nodup (nodup_allPoints G.sizes)]
  refine Finset.card_bij (fun p hp => (⟨p.2, ?_⟩, ⟨p.1, ?_⟩)) ?_ ?_ ?_
  · have := hspec p (List.mem_toFinset.1 hp); omega
  · have := hspec p (List.mem_toFinset.1 hp); omega
  · intro p hp
    have := hspec p (List.mem_toFinset.1 hp)
    simp only [Finset.mem_filter, Finset.mem_univ, true_and, Fin.mk_lt_mk]
    exact ⟨this.1, fun hh => this.2.2 hh.symm⟩
  · intro p hp q hq hpq
    simp only [Prod.mk.injEq, Fin.mk.injEq] at hpq
    exact Prod.ext hpq.2 hpq.1
  · rintro ⟨u, v⟩ huv
    simp only [Finset.mem_filter, Finset.mem_univ, true_and] at huv
    refine ⟨(v.1, u.1), ?_, rfl⟩
    rw [List.mem_toFinset, mem_allPoints]
    obtain ⟨ci, ki, a1, a2, a3⟩ := blocks_exists G.sizes (v := u.1) (u.2.trans_eq hsum.symm)
    obtain ⟨cj, kj, b1, b2, b3⟩ := blocks_exists G.sizes (v := v.1) (v.2.trans_eq hsum.symm)
    have hne := huv.2
    have e1 : G.nodeCom.getD u.1 0 = ci := by rw [hbl, a3]; exact blocks_get _ a1 a2
    have e2 : G.nodeCom.getD v.1 0 = cj := by rw [hbl, b3]; exact blocks_get _ b1 b2
    rw [e1, e2] at hne
    refine ⟨ci, cj, kj, ki, ?_, b1, b2, a2, by rw [a3, b3]⟩
    by_contra hle
    have hlt : cj < ci := by omega
    have := start_le (G.sizes.take ci) (c := cj) (by simp; omega)
    rw [List.take_take, Nat.min_eq_left hlt.le] at this
    have e : (G.sizes.take ci).getD cj 0 = G.sizes.getD cj 0 := by
      rw [List.getD_eq_getElem _ _ (by simp; omega), List.getD_eq_getElem _ _ (by omega), List.getElem_take]
    rw [e] at this
    have := Fin.lt_def.1 huv.1
    omega

/-- **C78** With `comm_density`, the number of edges inside a community of `c` vertices is `comm_density * c(c-1)/2`, rounded down. -/
theorem C78_density {a : CommunityArgs} (heps : ∀ e, a.epsilon = some e → 0 ≤ e) {d : ℝ} (hd : a.commDensity = some d) {r : CommunityRng} (hr : r.Spec N)
    {fuel : ℕ} {lt : LapType} {G : Community N} (h : community N a r fuel lt = .ok (some G)) {c : ℕ} (hc : c < G.nc) :
    ((edges G.graph.W.dense).filter fun e => ∀ v ∈ e, G.nodeCom.getD v.1 0 = c).card =
      ⌊d * ((G.nodeCom.count c : ℝ) * ((G.nodeCom.count c : ℝ) - 1) / 2)⌋₊ := by
  rw [(community_count heps hr h).1 c hc]
  obtain ⟨-, -, -, -, -, -, -, hd1, hsz, -⟩ := community_spec heps hr h
  rw [(density_pairs hd (hd1 d hd).2 _ hr _ _ _ _).2]
  have : G.sizes.getD c 0 = G.nodeCom.count c := by
    rw [hsz, List.getD_eq_getElem _ _ (by simpa using hc)]; simp
  rw [this]

/-- **C78** With `epsilon` (no `comm_density`, no `k_neigh`), two different vertices of the same community are connected exactly when their
distance is at most `epsilon`. -/
theorem C78_epsilon {a : CommunityArgs} (heps : ∀ e, a.epsilon = some e → 0 ≤ e) (hd : a.commDensity = none) (hk : a.kNeigh = none) {r : CommunityRng}
    (hr : r.Spec N) {fuel : ℕ} {lt : LapType} {G : Community N} (h : community N a r fuel lt = .ok (some G)) {i j : Fin N} (hij : i ≠ j)
    (hl : G.nodeCom.getD i.1 0 = G.nodeCom.getD j.1 0) : G.graph.W.dense i j = 1 ↔
      Real.sqrt (((G.coords.getD i.1 (0, 0)).1 - (G.coords.getD j.1 (0, 0)).1) ^ 2 +
        ((G.coords.getD i.1 (0, 0)).2 - (G.coords.getD j.1 (0, 0)).2) ^ 2) ≤ G.epsilon := by
  obtain ⟨inter, i1, -, hcl, hnc, hin, hlab, -, -, -, hW, -⟩ := community_pairs heps hr h
  obtain ⟨-, -, -, -, -, he, -, -, hsz, hbl, hlen, -⟩ := community_spec heps hr h
  have hsum : G.sizes.sum = N := by rw [← blocks_length, ← hbl, hlen]
  have key1 : ∀ i j : Fin N, i < j → G.nodeCom.getD i.1 0 = G.nodeCom.getD j.1 0 → (G.graph.W.dense i j = 1 ↔
      Real.sqrt (((G.coords.getD i.1 (0, 0)).1 - (G.coords.getD j.1 (0, 0)).1) ^ 2 +
        ((G.coords.getD i.1 (0, 0)).2 - (G.coords.getD j.1 (0, 0)).2) ^ 2) ≤ G.epsilon) := by
    intro i j hij hl
    obtain ⟨ci, ki, a1, a2, a3⟩ := blocks_exists G.sizes (v := i.1) (i.2.trans_eq hsum.symm)
    obtain ⟨cj, kj, b1, b2, b3⟩ := blocks_exists G.sizes (v := j.1) (j.2.trans_eq hsum.symm)
    have e1 : G.nodeCom.getD i.1 0 = ci := by rw [hbl, a3]; exact blocks_get _ a1 a2
    have e2 : G.nodeCom.getD j.1 0 = cj := by rw [hbl, b3]; exact blocks_get _ b1 b2
    have ec : cj = ci := by rw [← e1, ← e2, hl]
    subst ec
    have hp := (epsilon_pairs hd hk he hr (coords := G.coords) cj (first := (G.sizes.take cj).sum) (size := G.sizes.getD cj 0)
      (by rw [hcl]; exact (start_le _ b1).trans hsum.le)).2 ki kj a2 b2
    rw [← a3, ← b3] at hp
    have hlt : ki < kj := by have := Fin.lt_def.1 hij; omega
    rw [hW]
    have : s(i.1, j.1) ∈ (((List.range G.nc).flatMap fun c : ℕ =>
        intraPairs a G.epsilon r G.coords c (G.sizes.take c).sum (G.sizes.getD c 0)) ++ inter).map key ↔
        (i.1, j.1) ∈ intraPairs a G.epsilon r G.coords cj (G.sizes.take cj).sum (G.sizes.getD cj 0) := by
      constructor
      · intro hm
        obtain ⟨p, hp, hpi⟩ := List.mem_map.1 hm
        rcases List.mem_append.1 hp with hp | hp
        · obtain ⟨c, hc, hp⟩ := List.mem_flatMap.1 hp
          have h1 := hlab c (List.mem_range.1 hc) p hp
          have h2 := (hin c (List.mem_range.1 hc)).lt p hp
          rcases Sym2.eq_iff.1 hpi with hh | hh
          · have : p = (i.1, j.1) := Prod.ext hh.1 hh.2
            rw [this] at h1 hp
            have : c = cj := by rw [← h1.1, e1]
            rwa [this] at hp
          · have := Fin.lt_def.1 hij
            omega
        · exfalso
          have := i1.ne p hp
          rcases Sym2.eq_iff.1 hpi with hh | hh
          · rw [hh.1, hh.2] at this; exact this hl
          · rw [hh.1, hh.2] at this; exact this hl.symm
      · intro hm
        exact List.mem_map.2 ⟨(i.1, j.1), List.mem_append_left _ (List.mem_flatMap.2 ⟨cj, List.mem_range.2 (hnc ▸ b1), hm⟩), rfl⟩
    rw [and_iff_right hlt] at hp
    rw [← hp, ← this]
    split
    · rename_i hm; exact ⟨fun _ => hm, fun _ => rfl⟩
    · rename_i hm; exact ⟨fun h => absurd h zero_ne_one, fun h => absurd h hm⟩
  rcases lt_or_gt_of_ne hij with hlt | hlt
  · exact key1 i j hlt hl
  · have hu := (C78_simple heps hr h).2.1
    rw [hu i j, key1 j i hlt hl.symm]
    have e : (((G.coords.getD j.1 (0, 0)).1 - (G.coords.getD i.1 (0, 0)).1) ^ 2 +
        ((G.coords.getD j.1 (0, 0)).2 - (G.coords.getD i.1 (0, 0)).2) ^ 2) = (((G.coords.getD i.1 (0, 0)).1 - (G.coords.getD j.1 (0, 0)).1) ^ 2 +
        ((G.coords.getD i.1 (0, 0)).2 - (G.coords.getD j.1 (0, 0)).2) ^ 2) := by ring
    rw [e]

/-- **C78** (finding) With `k_neigh` (and no `comm_density`), there is no edge at all inside the communities, whatever `k_neigh` is: the documentation
promises `k_neigh` intra-community connections. -/
theorem C78_k_neigh_violated {a : CommunityArgs} (heps : ∀ e, a.epsilon = some e → 0 ≤ e) (hd : a.commDensity = none) {k : ℤ} (hk : a.kNeigh = some k)
    {r : CommunityRng} (hr : r.Spec N) {fuel : ℕ} {lt : LapType} {G : Community N} (h : community N a r fuel lt = .ok (some G)) {i j : Fin N}
    (hl : G.nodeCom.getD i.1 0 = G.nodeCom.getD j.1 0) : G.graph.W.dense i j = 0 := by
  obtain ⟨inter, i1, -, hcl, hnc, hin, hlab, -, -, -, hW, -⟩ := community_pairs heps hr h
  rw [hW, if_neg]
  intro hm
  obtain ⟨p, hp, hpi⟩ := List.mem_map.1 hm
  rcases List.mem_append.1 hp with hp | hp
  · obtain ⟨c, hc, hp⟩ := List.mem_flatMap.1 hp
    simp only [intraPairs, hd, hk, List.not_mem_nil] at hp
  · have := i1.ne p hp
    rcases Sym2.eq_iff.1 hpi with hh | hh
    · rw [hh.1, hh.2] at this; exact this hl
    · rw [hh.1, hh.2] at this; exact this hl.symm

/-- **C78** Every vertex lies inside the disk around the centre of its community whose radius is the square root of the size of the community. -/
theorem C78_coords {a : CommunityArgs} (heps : ∀ e, a.epsilon = some e → 0 ≤ e) {r : CommunityRng} (hr : r.Spec N) {fuel : ℕ} {lt : LapType}
    {G : Community N} (h : community N a r fuel lt = .ok (some G)) : G.coords.length = N ∧ ∀ v < N,
      Real.sqrt (((G.coords.getD v (0, 0)).1 - (G.centers.getD (G.nodeCom.getD v 0) (0, 0)).1) ^ 2 +
        ((G.coords.getD v (0, 0)).2 - (G.centers.getD (G.nodeCom.getD v 0) (0, 0)).2) ^ 2) < Real.sqrt (G.nodeCom.count (G.nodeCom.getD v 0) : ℕ) := by
  obtain ⟨-, -, -, hcl, -⟩ := community_pairs heps hr h
  obtain ⟨hlen, -, hlt, hsz, hpos, -⟩ := C78_communities heps hr h
  obtain ⟨-, -, -, -, -, hce⟩ := C78_attributes heps hr h
  obtain ⟨-, -, -, -, -, -, -, -, -, -, -, -, -, -, -, -, hco, -⟩ := community_spec heps hr h
  refine ⟨hcl, fun v hv => ?_⟩
  unfold communityCoords at hco
  split at hco
  swap
  · cases hco
  have hco := Except.ok.inj hco
  have hul := hr.uniform_length
  have hlv : G.nodeCom.getD v 0 < G.nc := by
    rw [List.getD_eq_getElem _ _ (by omega)]
    exact hlt _ (List.getElem_mem _)
  obtain ⟨⟨u1, u2⟩, -⟩ := hr.uniform_range ((r.uniform N)[v]'(by omega)) (List.getElem_mem _)
  have hs : G.sizes.getD (G.nodeCom.getD v 0) 0 = G.nodeCom.count (G.nodeCom.getD v 0) := by
    rw [hsz, List.getD_eq_getElem _ _ (by simpa using hlv)]; simp
  have hc : G.centers.getD (G.nodeCom.getD v 0) (0, 0) = communityCenter G.nc G.worldRad (G.nodeCom.getD v 0) := by
    rw [hce, List.getD_eq_getElem _ _ (by simpa using hlv)]
    simp [communityCenter]
  have hv' : G.coords.getD v (0, 0) = ((communityCenter G.nc G.worldRad (G.nodeCom.getD v 0)).1 + Real.sqrt (G.nodeCom.count (G.nodeCom.getD v 0) : ℕ) *
        (((r.uniform N)[v]'(by omega)).1 * Real.cos (2 * Real.pi * ((r.uniform N)[v]'(by omega)).2)),
      (communityCenter G.nc G.worldRad (G.nodeCom.getD v 0)).2 + Real.sqrt (G.nodeCom.count (G.nodeCom.getD v 0) : ℕ) *
        (((r.uniform N)[v]'(by omega)).1 * Real.sin (2 * Real.pi * ((r.uniform N)[v]'(by omega)).2))) := by
    rw [← hs, List.getD_eq_getElem _ _ (by omega)]
    simp only [← hco]
    rw [List.getElem_zipWith, ← List.getD_eq_getElem _ 0]
  rw [hv', hc]
  simp only
  generalize (r.uniform N)[v] = u at *
  have hp := hpos _ hlv
  have hq : (0 : ℝ) < Real.sqrt (G.nodeCom.count (G.nodeCom.getD v 0) : ℕ) := Real.sqrt_pos.2 (by exact_mod_cast hp)
  generalize Real.sqrt (G.nodeCom.count (G.nodeCom.getD v 0) : ℕ) = q at *
  have e : ((communityCenter G.nc G.worldRad (G.nodeCom.getD v 0)).1 + q * (u.1 * Real.cos (2 * Real.pi * u.2)) -
      (communityCenter G.nc G.worldRad (G.nodeCom.getD v 0)).1) ^ 2 + ((communityCenter G.nc G.worldRad (G.nodeCom.getD v 0)).2 +
      q * (u.1 * Real.sin (2 * Real.pi * u.2)) - (communityCenter G.nc G.worldRad (G.nodeCom.getD v 0)).2) ^ 2 = (q * u.1) ^ 2 := by
    have := Real.sin_sq_add_cos_sq (2 * Real.pi * u.2)
    linear_combination (q * u.1) ^ 2 * this
  rw [e, Real.sqrt_sq (by positivity)]
  nlinarith

/-! ## When it succeeds, and when it does not -/

/-- **C78** The points of two different communities, as pairs with the greater vertex first. -/
theorem allPoints_spec {s : List ℕ} (hs : s.sum = N) {p : ℕ × ℕ} (hp : p ∈ allPoints s.length s) :
    p.2 < p.1 ∧ p.1 < N ∧ (blocks s).getD p.1 0 ≠ (blocks s).getD p.2 0 := by
  obtain ⟨i, j, x, c, h1, h2, h3, h4, rfl⟩ := (mem_allPoints s p).1 hp
  simp only
  rw [blocks_get s h2 h3, blocks_get s (h1.trans h2) h4]
  refine ⟨?_, ?_, h1.ne'⟩
  · have := start_le (s.take j) (c := i) (by simp; omega)
    rw [List.take_take, Nat.min_eq_left h1.le] at this
    have e : (s.take j).getD i 0 = s.getD i 0 := by
      rw [List.getD_eq_getElem _ _ (by simp; omega), List.getD_eq_getElem _ _ (by omega), List.getElem_take]
    rw [e] at this
    omega
  · have := start_le s h2
    omega

/-- the sampling of the edges between the communities ends when the generator eventually draws every pair -/
theorem inter_returns {nc : ℕ} {wd : ℝ} (hw : wd ≤ 1) {s : List ℕ} (hs : s.sum = N) (hnc : s.length = nc) {r : CommunityRng} (hr : r.Spec N)
    (hall : wd < 35 / 100 → ∀ x < N, ∀ y < N, ∃ t, r.point t = (x, y)) :
    ∃ fuel P, interPairs N nc wd (blocks s) s r fuel = .ok (some P) := by
  subst hnc
  obtain ⟨hfl, hM⟩ := floor_cross hs
  have hle : ⌊wd * (((N : ℝ) ^ 2 - ((s.map fun x : ℕ => x ^ 2).sum : ℕ)) / 2)⌋₊ ≤ (allPoints s.length s).length := by
    rw [hM]; exact floor_le hw _
  unfold interPairs
  simp only
  by_cases hlt : wd < 35 / 100
  · have hall := hall hlt
    choose! f hf using hall
    obtain ⟨T, hT⟩ : ∃ T, ∀ x < N, ∀ y < N, f x y < T := by
      refine ⟨(Finset.range N ×ˢ Finset.range N).sup (fun p => f p.1 p.2) + 1, fun x hx y hy => ?_⟩
      have := Finset.le_sup (f := fun p : ℕ × ℕ => f p.1 p.2) (Finset.mem_product.2 ⟨Finset.mem_range.2 hx, Finset.mem_range.2 hy⟩ :
        (x, y) ∈ Finset.range N ×ˢ Finset.range N)
      simp only at this
      omega
    rcases hi : interSample (blocks s) ⌊wd * (((N : ℝ) ^ 2 - ((s.map fun x : ℕ => x ^ 2).sum : ℕ)) / 2)⌋₊ r.point T 0 [] with _ | P
    · exfalso
      obtain ⟨acc, a1, -, a3⟩ := interSample_none _ _ _ hi
      have hsub : (allPoints s.length s).map Prod.swap ⊆ acc := by
        intro q hq
        obtain ⟨p, hp, rfl⟩ := List.mem_map.1 hq
        have h1 := allPoints_spec hs hp
        have h2 := hf p.1 (by omega) p.2 (by omega)
        have h3 := a3 (f p.1 p.2) (Nat.zero_le _) (by have := hT p.1 (by omega) p.2 (by omega); omega)
        rw [h2] at h3
        simp only at h3
        rw [Nat.min_eq_right h1.1.le, Nat.max_eq_left h1.1.le] at h3
        exact h3 fun hh => h1.2.2 hh.symm
      have := (List.subperm_of_subset ((nodup_allPoints s).map Prod.swap_injective) hsub).length_le
      rw [List.length_map] at this
      omega
    · exact ⟨T, P, by rw [if_pos hlt, hi]⟩
  · have hb : ∀ e ∈ (r.perm s.length ⌊((N : ℝ) ^ 2 - ((s.map fun x : ℕ => x ^ 2).sum : ℕ)) / 2⌋₊).take
        ⌊wd * (((N : ℝ) ^ 2 - ((s.map fun x : ℕ => x ^ 2).sum : ℕ)) / 2)⌋₊, e < (allPoints s.length s).length := by
      intro e he
      rw [hfl] at he
      exact (take_perm (hr.perm_perm s.length _) _ hle).2.2 e he
    refine ⟨0, ((r.perm s.length ⌊((N : ℝ) ^ 2 - ((s.map fun x : ℕ => x ^ 2).sum : ℕ)) / 2⌋₊).take
        ⌊wd * (((N : ℝ) ^ 2 - ((s.map fun x : ℕ => x ^ 2).sum : ℕ)) / 2)⌋₊).map (fun e => (allPoints s.length s).getD e (0, 0)), ?_⟩
    rw [if_neg hlt, if_pos hb]

/-- the labels when the arguments are consistent -/
theorem labels_returns {nc mc : ℕ} {sz : Option (List ℕ)} {r : CommunityRng} (hnc : 0 < nc)
    (hsz : ∀ s, sz = some s → s.length = nc ∧ s.sum = N) : ∃ labels, communityLabels N nc mc sz r = .ok labels := by
  rcases sz with _ | s
  · simp only [communityLabels]
    rw [if_neg (by rintro ⟨h, -⟩; omega)]
    exact ⟨_, rfl⟩
  · obtain ⟨h1, h2⟩ := hsz s rfl
    simp only [communityLabels]
    rw [if_neg (not_not.2 h1), if_neg (not_not.2 h2), if_neg (by rintro rfl; simp at h1; omega)]
    exact ⟨_, rfl⟩

/-- **C78** When the constructor succeeds.  For consistent arguments, it does for some number of draws, provided that the generator eventually draws
every pair of vertices (which is only needed for `world_density < 0.35`). -/
theorem C78_returns {a : CommunityArgs} (hN : 0 < N) (hdeg : a.minDeg = none)
    {nc mc : ℕ} {wd : ℝ} (hnc : nc = a.nc.getD (roundHalfEven (Real.sqrt N / 2)).toNat) (hnc0 : 0 < nc)
    (hmc : mc = a.minComm.getD (roundHalfEven ((N : ℝ) / (3 * nc))).toNat) (hmcN : mc * nc ≤ N)
    (hwd : wd = a.worldDensity.getD (1 / (N : ℝ))) (hw0 : 0 ≤ wd) (hw1 : wd ≤ 1)
    (hsz : ∀ s, a.commSizes = some s → s.length = nc ∧ s.sum = N ∧ ∀ x ∈ s, 0 < x) (hmin : a.commSizes = none → 1 ≤ mc)
    (hcd : ∀ d, a.commDensity = some d → 0 ≤ d ∧ d ≤ 1) (hkn : ∀ k, a.commDensity = none → a.kNeigh = some k → 0 ≤ k)
    (heps : ∀ e, a.epsilon = some e → 0 ≤ e) {r : CommunityRng} (hr : r.Spec N)
    (hall : wd < 35 / 100 → ∀ x < N, ∀ y < N, ∃ t, r.point t = (x, y)) {lt : LapType} (hlt : lt = .combinatorial ∨ lt = .normalized) :
    ∃ fuel G, community N a r fuel lt = .ok (some G) := by
  obtain ⟨labels, hl⟩ := labels_returns (mc := mc) (r := r) hnc0 fun s hs => ⟨(hsz s hs).1, (hsz s hs).2.1⟩
  obtain ⟨l1, l2, l3, l4⟩ := labels_ok hmcN hr hl
  have hpos : ∀ c < nc, 0 < labels.count c := by
    intro c hc
    rcases hs : a.commSizes with _ | s
    · exact lt_of_lt_of_le (hmin hs) (l4 hs c hc)
    · refine (hsz s hs).2.2 _ ?_
      rw [← l3 s hs]
      exact List.mem_map.2 ⟨c, List.mem_range.2 hc, rfl⟩
  have hcounts : communityCounts nc labels = (List.range nc).map fun c : ℕ => labels.count c := by
    unfold communityCounts
    rw [List.filter_eq_self]
    intro x hx
    obtain ⟨c, hc, rfl⟩ := List.mem_map.1 hx
    simpa using (hpos c (List.mem_range.1 hc)).ne'
  have hbl : labels = blocks (communityCounts nc labels) := by rw [hcounts]; exact l1
  have hlen : (communityCounts nc labels).length = nc := by rw [hcounts]; simp
  have hsum : (communityCounts nc labels).sum = N := by rw [← blocks_length, ← hbl, l2]
  obtain ⟨fuel, P, hP⟩ := inter_returns hw1 hsum hlen hr hall
  rw [← hbl] at hP
  have hbad : ¬ badIntra a := by
    unfold badIntra
    rcases h1 : a.commDensity with _ | d
    · rcases h2 : a.kNeigh with _ | k
      · simp
      · simpa using hkn k h1 h2
    · simpa using hcd d h1
  have hco : ∃ coords, communityCoords nc (a.sizeRatio * Real.sqrt N) labels (communityCounts nc labels) (r.uniform N) = .ok coords := by
    unfold communityCoords
    rw [if_pos]
    · exact ⟨_, rfl⟩
    · intro c hc
      rw [hbl] at hc
      exact mem_blocks_lt _ hc
  obtain ⟨coords, hco⟩ := hco
  have heps0 : 0 ≤ a.epsilon.getD (Real.sqrt (2 * Real.sqrt N) / 2) := by
    rcases hh : a.epsilon with _ | e
    · simp only [Option.getD_none]; positivity
    · exact heps e hh
  have hg : ∃ g, ofEdges N (bothWays (intraAll a (a.epsilon.getD (Real.sqrt (2 * Real.sqrt N) / 2)) r coords 0 0 (communityCounts nc labels) ++ P)) lt = .ok g := by
    have hcl : coords.length = N := by
      unfold communityCoords at hco
      split at hco
      · rw [← Except.ok.inj hco, List.length_zipWith, l2, hr.uniform_length]; simp
      · cases hco
    have hio : interPairs N nc wd (blocks (communityCounts nc labels)) (communityCounts nc labels) r fuel = .ok (some P) := by rw [← hbl, hP]
    have hbd : ∀ p ∈ intraAll a (a.epsilon.getD (Real.sqrt (2 * Real.sqrt N) / 2)) r coords 0 0 (communityCounts nc labels) ++ P, p.1 < N ∧ p.2 < N := by
      intro p hp
      rcases List.mem_append.1 hp with hp | hp
      · rw [intraAll_eq] at hp
        obtain ⟨c, hc, hp⟩ := List.mem_flatMap.1 hp
        have hc := List.mem_range.1 hc
        have hst := start_le _ hc
        simp only [Nat.zero_add] at hp
        have hin := intra_ok (fun _ _ => heps0) (fun d h => (hcd d h).2) hr (coords := coords) c (first := ((communityCounts nc labels).take c).sum)
          (size := (communityCounts nc labels).getD c 0) (by omega)
        have h1 := hin.lt p hp
        have h3 := hin.end_lt p hp
        omega
      · exact (inter_ok hw1 hsum hlen hr hio).1.lt p hp
    obtain ⟨g, g1, -⟩ := ofEdges_ok (l := bothWays (intraAll a (a.epsilon.getD (Real.sqrt (2 * Real.sqrt N) / 2)) r coords 0 0
      (communityCounts nc labels) ++ P)) (by
        intro e he'
        unfold bothWays at he'
        have := mem_ones he'
        simp only [List.mem_append, List.mem_map] at this
        constructor
        · rcases this.1 with ⟨p, hp, h⟩ | ⟨p, hp, h⟩ <;> rw [← h] <;> [exact (hbd p (List.mem_append.2 hp)).1; exact (hbd p (List.mem_append.2 hp)).2]
        · rcases this.2 with ⟨p, hp, h⟩ | ⟨p, hp, h⟩ <;> rw [← h] <;> [exact (hbd p (List.mem_append.2 hp)).2; exact (hbd p (List.mem_append.2 hp)).1]) hlt
    exact ⟨g, g1⟩
  obtain ⟨g, hg⟩ := hg
  refine ⟨fuel, ⟨nc, mc, wd, a.epsilon.getD (Real.sqrt (2 * Real.sqrt N) / 2), g, labels, communityCounts nc labels, a.sizeRatio * Real.sqrt N,
    (List.range nc).map (communityCenter nc (a.sizeRatio * Real.sqrt N)), coords⟩, ?_⟩
  unfold community
  simp only
  rw [← hnc, ← hmc, ← hwd, if_neg (by rintro ⟨-, h⟩; omega), if_neg (not_not.2 hdeg), if_neg (by rintro ⟨-, h⟩; omega), if_neg (not_not.2 ⟨hw0, hw1⟩)]
  unfold communityBuild
  rw [if_neg (not_lt.2 hmcN), hl]
  simp only
  rw [if_neg hbad, hco]
  simp only
  rw [if_neg (by omega), hP]
  simp only
  rw [hg]

/-- **C78** Errors: inconsistent arguments. -/
theorem C78_errors (a : CommunityArgs) (r : CommunityRng) (fuel : ℕ) (lt : LapType) (hN : 0 < N)
    {nc mc : ℕ} {wd : ℝ} (hnc : nc = a.nc.getD (roundHalfEven (Real.sqrt N / 2)).toNat) (hnc0 : 0 < nc)
    (hmc : mc = a.minComm.getD (roundHalfEven ((N : ℝ) / (3 * nc))).toNat) (hwd : wd = a.worldDensity.getD (1 / (N : ℝ))) :
    (a.minDeg ≠ none → community N a r fuel lt = .error .notImplementedError) ∧
    (a.minDeg = none → ¬ (0 ≤ wd ∧ wd ≤ 1) → community N a r fuel lt = .error .valueError) ∧
    (a.minDeg = none → N < mc * nc → community N a r fuel lt = .error .valueError) ∧
    (∀ s, a.minDeg = none → a.commSizes = some s → s.length ≠ nc ∨ s.sum ≠ N → community N a r fuel lt = .error .valueError) ∧
    (∀ d, a.minDeg = none → (∀ s, a.commSizes = some s → s.length = nc ∧ s.sum = N) → a.commDensity = some d → ¬ (0 ≤ d ∧ d ≤ 1) →
      community N a r fuel lt = .error .valueError) ∧
    (∀ k, a.minDeg = none → (∀ s, a.commSizes = some s → s.length = nc ∧ s.sum = N) → a.commDensity = none → a.kNeigh = some k → k < 0 →
      community N a r fuel lt = .error .valueError) := by
  have hb : a.minDeg = none → 0 ≤ wd ∧ wd ≤ 1 → community N a r fuel lt =
      communityBuild N a nc mc wd (a.epsilon.getD (Real.sqrt (2 * Real.sqrt N) / 2)) r fuel lt := by
    intro h1 h2
    unfold community
    simp only
    rw [← hnc, ← hmc, ← hwd, if_neg (by rintro ⟨-, h⟩; omega), if_neg (not_not.2 h1), if_neg (by rintro ⟨-, h⟩; omega), if_neg (not_not.2 h2)]
  have hv : a.minDeg = none → ¬ (0 ≤ wd ∧ wd ≤ 1) → community N a r fuel lt = .error .valueError := by
    intro h1 h2
    unfold community
    simp only
    rw [← hnc, ← hmc, ← hwd, if_neg (by rintro ⟨-, h⟩; omega), if_neg (not_not.2 h1), if_neg (by rintro ⟨-, h⟩; omega), if_pos h2]
  have hm : a.minDeg = none → N < mc * nc → community N a r fuel lt = .error .valueError := by
    intro h1 h2
    by_cases h3 : 0 ≤ wd ∧ wd ≤ 1
    · rw [hb h1 h3]; unfold communityBuild; rw [if_pos h2]
    · exact hv h1 h3
  have hbad : a.minDeg = none → (∀ s, a.commSizes = some s → s.length = nc ∧ s.sum = N) → badIntra a → community N a r fuel lt = .error .valueError := by
    intro h1 hs hbad
    by_cases h3 : 0 ≤ wd ∧ wd ≤ 1
    · by_cases h4 : N < mc * nc
      · exact hm h1 h4
      · rw [hb h1 h3]
        unfold communityBuild
        obtain ⟨labels, hl⟩ := labels_returns (mc := mc) (r := r) hnc0 hs
        rw [if_neg h4, hl]
        simp only
        rw [if_pos hbad]
    · exact hv h1 h3
  refine ⟨?_, hv, hm, ?_, ?_, ?_⟩
  · intro h1
    unfold community
    simp only
    rw [← hnc, if_neg (by rintro ⟨-, h⟩; omega), if_pos h1]
  · intro s h1 hs h2
    by_cases h3 : 0 ≤ wd ∧ wd ≤ 1
    · by_cases h4 : N < mc * nc
      · exact hm h1 h4
      · rw [hb h1 h3]
        unfold communityBuild
        have hl : communityLabels N nc mc a.commSizes r = .error .valueError := by
          rw [hs]
          simp only [communityLabels]
          by_cases h5 : s.length ≠ nc
          · rw [if_pos h5]
          · rw [if_neg h5, if_pos (h2.resolve_left h5)]
        rw [if_neg h4, hl]
    · exact hv h1 h3
  · intro d h1 hs hd hd1
    exact hbad h1 hs (by simp only [badIntra, hd]; exact hd1)
  · intro k h1 hs hd hk hk0
    exact hbad h1 hs (by simp only [badIntra, hd, hk]; exact hk0)

/-- **C78** (finding) A community of size zero, although the sizes add up to `N`, raises IndexError. -/
theorem C78_empty_violated {a : CommunityArgs} (r : CommunityRng) (fuel : ℕ) (lt : LapType) (hN : 0 < N) (hdeg : a.minDeg = none)
    {nc mc : ℕ} {wd : ℝ} (hnc : nc = a.nc.getD (roundHalfEven (Real.sqrt N / 2)).toNat)
    (hmc : mc = a.minComm.getD (roundHalfEven ((N : ℝ) / (3 * nc))).toNat) (hmcN : mc * nc ≤ N)
    (hwd : wd = a.worldDensity.getD (1 / (N : ℝ))) (hw : 0 ≤ wd ∧ wd ≤ 1) {s : List ℕ} (hs : a.commSizes = some s) (hl : s.length = nc) (hsum : s.sum = N)
    (hz : 0 ∈ s) (hbad : ¬ badIntra a) : community N a r fuel lt = .error .indexError := by
  have hnc0 : 0 < nc := by rw [← hl]; exact List.length_pos_of_mem hz
  unfold community
  simp only
  rw [← hnc, ← hmc, ← hwd, if_neg (by rintro ⟨-, h⟩; omega), if_neg (not_not.2 hdeg), if_neg (by rintro ⟨-, h⟩; omega), if_neg (not_not.2 hw)]
  unfold communityBuild
  have hlab : communityLabels N nc mc a.commSizes r = .ok (blocks s) := by
    rw [hs]
    simp only [communityLabels]
    rw [if_neg (not_not.2 hl), if_neg (not_not.2 hsum), if_neg (by rintro rfl; simp at hz)]
    rfl
  have hlen : (communityCounts nc (blocks s)).length < nc := by
    have hss : ((List.range nc).map fun c : ℕ => (blocks s).count c) = s := by
      apply List.ext_getElem
      · simp [hl]
      · intro c hc1 hc2
        rw [List.getElem_map, List.getElem_range, blocks_count, List.getD_eq_getElem _ _ hc2]
    unfold communityCounts
    rw [hss, ← hl]
    refine lt_of_le_of_ne (List.length_filter_le _ _) fun h => ?_
    have := List.length_filter_eq_length_iff.1 h 0 hz
    simp at this
  rw [if_neg (not_lt.2 hmcN), hlab]
  simp only
  rw [if_neg hbad]
  rcases hco : communityCoords nc (a.sizeRatio * Real.sqrt N) (blocks s) (communityCounts nc (blocks s)) (r.uniform N) with e | coords
  · unfold communityCoords at hco
    split at hco
    · cases hco
    · rw [← Except.error.inj hco]
  · simp only
    rw [if_pos hlen]

/-- **C78** (finding) A graph with one vertex cannot be made with the default number of communities: `round(sqrt(1) / 2) = 0`. -/
theorem C78_single_violated (a : CommunityArgs) (h1 : a.nc = none) (h2 : a.minComm = none) (r : CommunityRng) (fuel : ℕ) (lt : LapType) :
    community 1 a r fuel lt = .error .zeroDivisionError := by
  unfold community
  simp only
  rw [if_pos]
  refine ⟨h2, ?_⟩
  rw [h1]
  have : roundHalfEven (Real.sqrt (1 : ℕ) / 2) = 0 := by
    unfold roundHalfEven
    have hf : ⌊(1 / 2 : ℝ)⌋ = 0 := by norm_num
    have hr : Int.fract (1 / 2 : ℝ) = 1 / 2 := by rw [Int.fract, hf]; norm_num
    simp only [Nat.cast_one, Real.sqrt_one, hf, hr]
    norm_num
  rw [Option.getD_none, this]
  rfl

/-- The specification of the generator and of the kd-tree can be met, with every pair drawn. -/
theorem exists_communityRng (N : ℕ) : ∃ r : CommunityRng, r.Spec N ∧ ∀ x < N, ∀ y < N, ∃ t, r.point t = (x, y) := by
  refine ⟨⟨fun _ m => List.replicate m 0, fun n => List.replicate n (1 / 2, 1 / 4), fun _ m => List.range m,
    fun t => ((t / N) % N, t % N), fun pts eps => ((List.range pts.length ×ˢ List.range pts.length).filter fun p => decide (p.1 < p.2 ∧
      Real.sqrt (((pts.getD p.1 (0, 0)).1 - (pts.getD p.2 (0, 0)).1) ^ 2 + ((pts.getD p.1 (0, 0)).2 - (pts.getD p.2 (0, 0)).2) ^ 2) ≤ eps))⟩, ⟨?_, ?_, ?_, ?_, ?_, ?_, ?_, ?_⟩, ?_⟩
  · simp
  · intro k m hk c hc
    rw [List.eq_of_mem_replicate hc]; exact hk
  · simp
  · intro e he
    rw [List.eq_of_mem_replicate he]; norm_num
  · intro i m; exact List.Perm.refl _
  · intro hN t
    exact ⟨Nat.mod_lt _ hN, Nat.mod_lt _ hN⟩
  · intro pts eps _
    exact (List.nodup_range.product List.nodup_range).filter _
  · intro pts eps _ p
    have hpm : p ∈ List.range pts.length ×ˢ List.range pts.length ↔ p.1 < pts.length ∧ p.2 < pts.length := by
      obtain ⟨x, y⟩ := p
      simp [List.pair_mem_product]
    simp only [List.mem_filter, hpm, decide_eq_true_eq]
    constructor
    · rintro ⟨⟨h1, h2⟩, h3, h4⟩; exact ⟨h3, h2, h4⟩
    · rintro ⟨h1, h2, h3⟩; exact ⟨⟨h1.trans h2, h2⟩, h1, h3⟩
  · intro x hx y hy
    refine ⟨N * x + y, ?_⟩
    have hN : 0 < N := by omega
    simp only
    rw [Nat.mul_add_div hN, Nat.div_eq_of_lt hy, Nat.mul_add_mod, Nat.mod_eq_of_lt hy, Nat.add_zero, Nat.mod_eq_of_lt hx]

/-- A concrete case: two communities of sizes 2 and 3. -/
example : ∃ r : CommunityRng, r.Spec 5 ∧ ∃ fuel G, community 5 { nc := some 2, commSizes := some [2, 3], minComm := some 1, commDensity := some 1 } r fuel .combinatorial = .ok (some G) := by
  obtain ⟨r, hr, hall⟩ := exists_communityRng 5
  refine ⟨r, hr, C78_returns (nc := 2) (mc := 1) (wd := 1 / 5) (by norm_num) rfl rfl (by norm_num) rfl (by norm_num) (by norm_num) (by norm_num) (by norm_num)
    ?_ ?_ ?_ ?_ ?_ hr (fun _ => hall) (Or.inl rfl)⟩
  · intro s hs
    obtain rfl := Option.some.inj hs
    exact ⟨rfl, rfl, by simp⟩
  · simp
  · intro d hd
    obtain rfl := Option.some.inj hd
    norm_num
  · simp
  · simp

end PyGSP.Gen
