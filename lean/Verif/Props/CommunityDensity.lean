import Verif.Props.CommunityDraws
import Mathlib.Combinatorics.Enumerative.DoubleCounting

/-!
# C152: the distribution of the edges inside the communities of `Community` with `comm_density`
-/

namespace PyGSP.Gen

open Matrix Classical Spec Reduction

variable {N : ℕ}

namespace Spec

/-- The pairs of vertices of the community `c`. -/
noncomputable def insidePairs (N : ℕ) (labels : List ℕ) (c : ℕ) : Finset (Fin N × Fin N) :=
  Finset.univ.filter fun p => p.1 < p.2 ∧ labels.getD p.1.1 0 = c ∧ labels.getD p.2.1 0 = c

/-- The edges inside the community `c`. -/
noncomputable def insideEdges (G : Community N) (c : ℕ) : Finset (Fin N × Fin N) := (insidePairs N G.nodeCom c).filter fun p => G.graph.W.dense p.1 p.2 ≠ 0

end Spec

open Spec

namespace CommunityDensity

open CommunityDraws

/-- the graph can be built from any list of pairs -/
theorem build_any {a : CommunityArgs} (heps : ∀ e, a.epsilon = some e → 0 ≤ e) {r : CommunityRng} (hr : r.Spec N) {fuel : ℕ} {lt : LapType} {G : Community N}
    (h : community N a r fuel lt = .ok (some G)) {P : List (ℕ × ℕ)} (hP : ∀ e ∈ P, e.1 < N ∧ e.2 < N) :
    ∃ g, ofEdges N (bothWays P) lt = .ok g := by
  obtain ⟨-, -, -, -, -, -, -, -, -, -, -, -, -, -, -, -, -, inter0, i0, -, hg0, -⟩ := community_spec heps hr h
  obtain ⟨inter1, -, -, -, hnc, -, -, -, hbd, -⟩ := community_pairs heps hr h
  have hall : intraAll a G.epsilon r G.coords 0 0 G.sizes =
      (List.range G.nc).flatMap fun c : ℕ => intraPairs a G.epsilon r G.coords c (G.sizes.take c).sum (G.sizes.getD c 0) := by
    rw [intraAll_eq, hnc]
    simp only [Nat.zero_add]
  have hb : ∀ e ∈ intraAll a G.epsilon r G.coords 0 0 G.sizes, e.1 < N ∧ e.2 < N := by
    intro e he
    rw [hall] at he
    have := hbd (key e) (List.mem_map_of_mem (List.mem_append_left _ he))
    exact ⟨this _ (Sym2.mem_mk_left _ _), this _ (Sym2.mem_mk_right _ _)⟩
  have both : ∀ L : List (ℕ × ℕ), (∀ p ∈ L, p.1 < N ∧ p.2 < N) → ∀ e ∈ bothWays L, e.1 < N ∧ e.2.1 < N := by
    intro L hL e he'
    unfold bothWays at he'
    have := mem_ones he'
    simp only [List.mem_append, List.mem_map] at this
    constructor
    · rcases this.1 with ⟨p, hp, h⟩ | ⟨p, hp, h⟩ <;> rw [← h] <;> [exact (hL p hp).1; exact (hL p hp).2]
    · rcases this.2 with ⟨p, hp, h⟩ | ⟨p, hp, h⟩ <;> rw [← h] <;> [exact (hL p hp).2; exact (hL p hp).1]
  have hl : lt = .combinatorial ∨ lt = .normalized := by
    rcases lt with _ | _ | name
    · exact Or.inl rfl
    · exact Or.inr rfl
    · exfalso
      rw [ofEdges_unknown (both _ fun e he => (List.mem_append.1 he).elim (hb e) (i0.lt e))] at hg0
      cases hg0
  obtain ⟨g, hg, -⟩ := ofEdges_ok (both P hP) hl
  exact ⟨g, hg⟩

/-- the pairs of a community, seen from its first vertex -/
theorem inside_tril {a : CommunityArgs} (heps : ∀ e, a.epsilon = some e → 0 ≤ e) {r : CommunityRng} (hr : r.Spec N) {fuel : ℕ} {lt : LapType} {G : Community N}
    (h : community N a r fuel lt = .ok (some G)) {c : ℕ} (hc : c < G.nc) : (G.sizes.take c).sum + G.sizes.getD c 0 ≤ N ∧
    ∀ p : Fin N × Fin N, p ∈ insidePairs N G.nodeCom c ↔ ∃ q ∈ trilPairs (G.sizes.getD c 0), p.1.1 = (G.sizes.take c).sum + q.2 ∧ p.2.1 = (G.sizes.take c).sum + q.1 := by
  obtain ⟨-, -, -, -, -, -, -, -, hsz, hbl, hlen, -⟩ := community_spec heps hr h
  have hnc : G.sizes.length = G.nc := by rw [hsz]; simp
  have hsum : G.sizes.sum = N := by rw [← blocks_length, ← hbl, hlen]
  refine ⟨(start_le _ (hnc ▸ hc)).trans hsum.le, ?_⟩
  rintro ⟨u, v⟩
  unfold insidePairs
  simp only [Finset.mem_filter, Finset.mem_univ, true_and]
  constructor
  · rintro ⟨huv, hu, hv⟩
    obtain ⟨ci, ki, a1, a2, a3⟩ := blocks_exists G.sizes (v := u.1) (u.2.trans_eq hsum.symm)
    obtain ⟨cj, kj, b1, b2, b3⟩ := blocks_exists G.sizes (v := v.1) (v.2.trans_eq hsum.symm)
    have e1 : G.nodeCom.getD u.1 0 = ci := by rw [hbl, a3]; exact blocks_get _ a1 a2
    have e2 : G.nodeCom.getD v.1 0 = cj := by rw [hbl, b3]; exact blocks_get _ b1 b2
    rw [hu] at e1
    rw [hv] at e2
    subst e1 e2
    have := Fin.lt_def.1 huv
    exact ⟨(kj, ki), (mem_trilPairs _ _).2 ⟨by show ki < kj; omega, b2⟩, a3, b3⟩
  · rintro ⟨q, hq, h1, h2⟩
    rw [mem_trilPairs] at hq
    refine ⟨Fin.lt_def.2 (by omega), ?_, ?_⟩
    · rw [h1, hbl]; exact blocks_get _ (hnc ▸ hc) (hq.1.trans hq.2)
    · rw [h2, hbl]; exact blocks_get _ (hnc ▸ hc) hq.2

/-- Every shuffle of the pairs of a community gives a graph, with the same communities and the same other edges, whose edges inside the community are the first pairs of the shuffled list. -/
theorem inside_run {a : CommunityArgs} (heps : ∀ e, a.epsilon = some e → 0 ≤ e) {d : ℝ} (hd : a.commDensity = some d) {r : CommunityRng} (hr : r.Spec N) {fuel : ℕ} {lt : LapType}
    {c M : ℕ} {σ0 : Equiv.Perm (Fin M)} {G0 : Community N} (h0 : community N a (withShuffle r c σ0) fuel lt = .ok (some G0)) (hc : c < G0.nc) (hM : M = (insidePairs N G0.nodeCom c).card) :
    ∃ (f : Fin M → Fin N × Fin N) (J : Finset (Fin M)), Function.Injective f ∧ (∀ p, p ∈ insidePairs N G0.nodeCom c ↔ ∃ e, f e = p) ∧ J.card = ⌊d * M⌋₊ ∧
    ∀ σ : Equiv.Perm (Fin M), ∃ G, community N a (withShuffle r c σ) fuel lt = .ok (some G) ∧ G.nodeCom = G0.nodeCom ∧ (insideEdges G c = J.image fun j => f (σ j)) ∧
      ∀ u v : Fin N, ¬ (G0.nodeCom.getD u.1 0 = c ∧ G0.nodeCom.getD v.1 0 = c) → G.graph.W.dense u v = G0.graph.W.dense u v := by
  have hs0 := shuffle_spec hr c σ0
  obtain ⟨hle, hcp⟩ := inside_tril heps hs0 h0 hc
  obtain ⟨inter0, i0, -, -, hnc, -, hlab0, -, -, -, hW0, hi0⟩ := community_pairs heps hs0 h0
  obtain ⟨-, -, -, -, -, -, -, hd01, -⟩ := community_spec heps hs0 h0
  obtain ⟨hd0, hd1⟩ := hd01 d hd
  set size := G0.sizes.getD c 0 with hsize
  set first := (G0.sizes.take c).sum with hfirst
  set A := trilPairs size with hA
  have hnd : A.Nodup := nodup_trilPairs _
  have hAm : ∀ q ∈ A, q.2 < q.1 ∧ q.1 < size := fun q hq => (mem_trilPairs _ _).1 hq
  have hlen : A.length = M := by
    rw [hM, ← List.toFinset_card_of_nodup hnd]
    refine Finset.card_bij (fun q hq => (⟨first + q.2, by have := hAm q (List.mem_toFinset.1 hq); omega⟩, ⟨first + q.1, by have := hAm q (List.mem_toFinset.1 hq); omega⟩))
      (fun q hq => (hcp _).2 ⟨q, List.mem_toFinset.1 hq, rfl, rfl⟩) (fun q _ q' _ he => ?_) fun p hp => ?_
    · have e1 := congrArg (fun p : Fin N × Fin N => p.1.1) he
      have e2 := congrArg (fun p : Fin N × Fin N => p.2.1) he
      simp only at e1 e2
      exact Prod.ext (by omega) (by omega)
    · obtain ⟨q, hq, h1, h2⟩ := (hcp p).1 hp
      exact ⟨q, List.mem_toFinset.2 hq, Prod.ext (Fin.ext h1.symm) (Fin.ext h2.symm)⟩
  have hget : ∀ e : Fin M, A.getD e.1 (0, 0) ∈ A := fun e => by
    rw [List.getD_eq_getElem _ _ (by rw [hlen]; exact e.2)]
    exact List.getElem_mem _
  let f : Fin M → Fin N × Fin N := fun e => (⟨first + (A.getD e.1 (0, 0)).2, by have := hAm _ (hget e); omega⟩, ⟨first + (A.getD e.1 (0, 0)).1, by have := hAm _ (hget e); omega⟩)
  have hfi : Function.Injective f := fun e e' he => by
    have e1 := congrArg (fun p : Fin N × Fin N => p.1.1) he
    have e2 := congrArg (fun p : Fin N × Fin N => p.2.1) he
    simp only [f] at e1 e2
    have h1 : A.getD e.1 (0, 0) = A.getD e'.1 (0, 0) := Prod.ext (by omega) (by omega)
    rw [List.getD_eq_getElem _ _ (by rw [hlen]; exact e.2), List.getD_eq_getElem _ _ (by rw [hlen]; exact e'.2)] at h1
    exact Fin.ext ((List.Nodup.getElem_inj_iff hnd).1 h1)
  have hfr : ∀ p, p ∈ insidePairs N G0.nodeCom c ↔ ∃ e, f e = p := fun p => by
    rw [hcp]
    constructor
    · rintro ⟨q, hq, h1, h2⟩
      obtain ⟨n, hn, he⟩ := List.getElem_of_mem hq
      refine ⟨⟨n, hlen ▸ hn⟩, ?_⟩
      have h3 : A.getD n (0, 0) = q := by rw [List.getD_eq_getElem _ _ hn, he]
      exact Prod.ext (Fin.ext (by show first + (A.getD n (0, 0)).2 = _; rw [h3, h1])) (Fin.ext (by show first + (A.getD n (0, 0)).1 = _; rw [h3, h2]))
    · rintro ⟨e, rfl⟩
      exact ⟨_, hget e, rfl, rfl⟩
  have hsz : size * (size - 1) / 2 = M := by rw [← hlen, hA, length_trilPairs]
  set nb := ⌊d * (M : ℝ)⌋₊ with hnb
  have hnM : nb ≤ M := by
    have : d * (M : ℝ) ≤ M := by nlinarith [(Nat.cast_nonneg M : (0 : ℝ) ≤ M)]
    exact (Nat.floor_le_floor this).trans (Nat.floor_natCast M).le
  have hJ : (Finset.univ.filter fun j : Fin M => j.1 < nb).card = nb := by
    rw [Fin.card_filter_val_lt, Nat.min_eq_right hnM]
  refine ⟨f, Finset.univ.filter fun j => j.1 < nb, hfi, hfr, hJ, fun σ => ?_⟩
  have hs := shuffle_spec hr c σ
  set P : List (ℕ × ℕ) := intraPairs a G0.epsilon (withShuffle r c σ) G0.coords c first size with hPdef
  have hPe : P = (((List.finRange M).map fun j => (σ j).1).take nb).map fun e => (first + (A.getD e (0, 0)).2, first + (A.getD e (0, 0)).1) := by
    rw [hPdef]
    simp only [intraPairs, hd]
    rw [(floor_tri size).1, (floor_tri size).2, hsz]
    have e : (withShuffle r c σ).perm c M = (List.finRange M).map fun j => (σ j).1 := by
      unfold withShuffle
      simp
    rw [e]
  have hind : ∀ e ∈ ((List.finRange M).map fun j => (σ j).1).take nb, ∃ j : Fin M, j.1 < nb ∧ (σ j).1 = e := fun e he => by
    rw [← List.map_take] at he
    obtain ⟨j, hj, rfl⟩ := List.mem_map.1 he
    refine ⟨j, ?_, rfl⟩
    obtain ⟨n, hn, hjn⟩ := List.getElem_of_mem hj
    rw [List.getElem_take, List.getElem_finRange] at hjn
    rw [List.length_take] at hn
    rw [← hjn]
    simp only [Fin.val_cast]
    omega
  have hind' : ∀ j : Fin M, j.1 < nb → (σ j).1 ∈ ((List.finRange M).map fun j => (σ j).1).take nb := fun j hj => by
    rw [← List.map_take]
    refine List.mem_map.2 ⟨j, ?_, rfl⟩
    rw [List.mem_take_iff_getElem]
    exact ⟨j.1, by rw [List.length_finRange, lt_min_iff]; exact ⟨hj, j.2⟩, by simp⟩
  have hPm : ∀ q, q ∈ P ↔ ∃ j : Fin M, j.1 < nb ∧ q = ((f (σ j)).1.1, (f (σ j)).2.1) := fun q => by
    rw [hPe, List.mem_map]
    constructor
    · rintro ⟨e, he, rfl⟩
      obtain ⟨j, hj, rfl⟩ := hind e he
      exact ⟨j, hj, rfl⟩
    · rintro ⟨j, hj, rfl⟩
      exact ⟨_, hind' j hj, rfl⟩
  have hother : ∀ c', c' ≠ c → ∀ fi si, intraPairs a G0.epsilon (withShuffle r c σ) G0.coords c' fi si = intraPairs a G0.epsilon (withShuffle r c σ0) G0.coords c' fi si := fun c' hc' fi si => by
    unfold intraPairs withShuffle
    simp only [hc', false_and, if_false]
  have hint : interPairs N G0.nc G0.worldDensity G0.nodeCom G0.sizes (withShuffle r c σ) fuel = .ok (some inter0) := by
    rw [← hi0]
    have hcn : G0.nc ≠ c := by omega
    unfold interPairs withShuffle
    simp only [hcn, false_and, if_false]
  have hbd : ∀ e ∈ intraAll a G0.epsilon (withShuffle r c σ) G0.coords 0 0 G0.sizes ++ inter0, e.1 < N ∧ e.2 < N := by
    intro e he
    rcases List.mem_append.1 he with he | he
    · rw [intraAll_eq, hnc] at he
      simp only [Nat.zero_add] at he
      obtain ⟨c', hc', he⟩ := List.mem_flatMap.1 he
      have hc' := List.mem_range.1 hc'
      have hl := (inside_tril heps hs0 h0 hc').1
      have := (density_pairs hd hd1 G0.epsilon hs G0.coords c' (G0.sizes.take c').sum (G0.sizes.getD c' 0)).1
      have e1 := this.lt e he
      have e2 := this.end_lt e he
      omega
    · exact i0.lt e he
  obtain ⟨g, hg⟩ := build_any heps hs0 h0 hbd
  have hrun : community N a (withShuffle r c σ) fuel lt = .ok (some { G0 with graph := g }) := redraw (r := withShuffle r c σ0) (r' := withShuffle r c σ) rfl rfl h0 hint hg
  obtain ⟨inter, -, -, -, -, -, hlab, -, -, -, hW, hi⟩ := community_pairs heps hs hrun
  have : inter = inter0 := Option.some.inj (Except.ok.inj (hi.symm.trans hint))
  rw [this] at hW
  refine ⟨_, hrun, rfl, ?_, fun u v huv => ?_⟩
  · ext p
    unfold insideEdges
    rw [Finset.mem_filter, hW, Finset.mem_image]
    constructor
    · rintro ⟨hp, hw⟩
      obtain ⟨-, hlt, hl1, hl2⟩ := Finset.mem_filter.1 hp
      rw [ne_eq, ite_eq_right_iff, Classical.not_imp] at hw
      obtain ⟨e, he, hke⟩ := List.mem_map.1 hw.1
      rcases List.mem_append.1 he with he | he
      · obtain ⟨c', hc', he⟩ := List.mem_flatMap.1 he
        have h2 := hlab c' (List.mem_range.1 hc') e he
        have hcc : c' = c := by
          rcases Sym2.eq_iff.1 hke with hk | hk
          · rw [← h2.1, hk.1]; exact hl1
          · rw [← h2.1, hk.1]; exact hl2
        subst hcc
        have h3 : e.1 < e.2 := (density_pairs hd hd1 G0.epsilon hs G0.coords c' first size).1.lt e he
        obtain ⟨j, hj, rfl⟩ := (hPm e).1 he
        refine ⟨j, Finset.mem_filter.2 ⟨Finset.mem_univ _, hj⟩, ?_⟩
        rcases Sym2.eq_iff.1 hke with hk | hk
        · exact Prod.ext (Fin.ext hk.1) (Fin.ext hk.2)
        · rw [hk.1, hk.2] at h3
          exact absurd (show p.1.1 < p.2.1 from hlt) (by omega)
      · have h2 := i0.ne e he
        rcases Sym2.eq_iff.1 hke with hk | hk
        · rw [hk.1, hk.2] at h2; exact absurd (hl1.trans hl2.symm) h2
        · rw [hk.1, hk.2] at h2; exact absurd (hl2.trans hl1.symm) h2
    · rintro ⟨j, hj, rfl⟩
      have hj := (Finset.mem_filter.1 hj).2
      refine ⟨(hfr _).2 ⟨_, rfl⟩, ?_⟩
      rw [if_pos]
      · exact one_ne_zero
      · exact List.mem_map.2 ⟨((f (σ j)).1.1, (f (σ j)).2.1), List.mem_append_left _ (List.mem_flatMap.2 ⟨c, List.mem_range.2 hc, (hPm _).2 ⟨j, hj, rfl⟩⟩), rfl⟩
  · rw [hW, hW0]
    refine if_congr ?_ rfl rfl
    have key' : ∀ σ1 : Equiv.Perm (Fin M), ∀ e, key e = s(u.1, v.1) → (∀ c' < G0.nc, ∀ p ∈ intraPairs a G0.epsilon (withShuffle r c σ1) G0.coords c' (G0.sizes.take c').sum (G0.sizes.getD c' 0),
        G0.nodeCom.getD p.1 0 = c' ∧ G0.nodeCom.getD p.2 0 = c') → ∀ c' < G0.nc,
        e ∈ intraPairs a G0.epsilon (withShuffle r c σ1) G0.coords c' (G0.sizes.take c').sum (G0.sizes.getD c' 0) → c' ≠ c := by
      rintro σ1 e he hl c' hc' hm rfl
      obtain ⟨l1, l2⟩ := hl c' hc' e hm
      rcases Sym2.eq_iff.1 he with hk | hk
      · rw [hk.1] at l1; rw [hk.2] at l2; exact huv ⟨l1, l2⟩
      · rw [hk.1] at l1; rw [hk.2] at l2; exact huv ⟨l2, l1⟩
    constructor
    · intro hm
      obtain ⟨e, he, hke⟩ := List.mem_map.1 hm
      refine List.mem_map.2 ⟨e, ?_, hke⟩
      rcases List.mem_append.1 he with he | he
      · obtain ⟨c', hc', he⟩ := List.mem_flatMap.1 he
        have := key' σ e hke hlab c' (List.mem_range.1 hc') he
        exact List.mem_append_left _ (List.mem_flatMap.2 ⟨c', hc', by rw [← hother c' this]; exact he⟩)
      · exact List.mem_append_right _ he
    · intro hm
      obtain ⟨e, he, hke⟩ := List.mem_map.1 hm
      refine List.mem_map.2 ⟨e, ?_, hke⟩
      rcases List.mem_append.1 he with he | he
      · obtain ⟨c', hc', he⟩ := List.mem_flatMap.1 he
        have := key' σ0 e hke hlab0 c' (List.mem_range.1 hc') he
        exact List.mem_append_left _ (List.mem_flatMap.2 ⟨c', hc', by rw [hother c' this]; exact he⟩)
      · exact List.mem_append_right _ he

/-- as many permutations take a set onto one set as onto another of the same size -/
theorem count_perm {α : Type} [DecidableEq α] {M : ℕ} {f : Fin M → α} (hf : Function.Injective f) {P : Finset α} (hP : ∀ p, p ∈ P ↔ ∃ e, f e = p) (J : Finset (Fin M)) {S : Finset α} (hS : S ⊆ P)
    (hc : S.card = J.card) : (Finset.univ.filter fun σ : Equiv.Perm (Fin M) => (J.image fun j => f (σ j)) = S).card * M.choose J.card = M.factorial := by
  have hPc : P.card = M := by
    have : P = Finset.univ.image f := by ext p; rw [hP, Finset.mem_image]; simp
    rw [this, Finset.card_image_of_injective _ hf, Finset.card_univ, Fintype.card_fin]
  have hpre : ∀ R : Finset α, R ⊆ P → (Finset.univ.filter fun e => f e ∈ R).image f = R := fun R hR => by
    ext p
    rw [Finset.mem_image]
    constructor
    · rintro ⟨e, he, rfl⟩; exact (Finset.mem_filter.1 he).2
    · intro hp
      obtain ⟨e, rfl⟩ := (hP p).1 (hR hp)
      exact ⟨e, Finset.mem_filter.2 ⟨Finset.mem_univ _, hp⟩, rfl⟩
  have hcard : ∀ R : Finset α, R ⊆ P → (Finset.univ.filter fun e => f e ∈ R).card = R.card := fun R hR => by
    conv_rhs => rw [← hpre R hR]
    rw [Finset.card_image_of_injective _ hf]
  have im : ∀ (R : Finset α) (σ : Equiv.Perm (Fin M)), R ⊆ P → ((J.image fun j => f (σ j)) = R ↔ J.map σ.toEmbedding = Finset.univ.filter fun e => f e ∈ R) := fun R σ hR => by
    have e : (J.image fun j => f (σ j)) = (J.map σ.toEmbedding).image f := by
      rw [Finset.map_eq_image, Finset.image_image]; rfl
    rw [e]
    conv_lhs => rw [← hpre R hR]
    exact (Finset.image_injective hf).eq_iff
  have same : ∀ S' ∈ P.powersetCard J.card, (Finset.univ.filter fun σ : Equiv.Perm (Fin M) => (J.image fun j => f (σ j)) = S').card =
      (Finset.univ.filter fun σ : Equiv.Perm (Fin M) => (J.image fun j => f (σ j)) = S).card := fun S' hS' => by
    obtain ⟨hS', hc'⟩ := Finset.mem_powersetCard.1 hS'
    obtain ⟨τ, -, hτ⟩ := exists_perm (P := Finset.univ) (Finset.subset_univ (Finset.univ.filter fun e => f e ∈ S')) (Finset.subset_univ (Finset.univ.filter fun e => f e ∈ S))
      (by rw [hcard S hS, hcard S' hS', hc, hc'])
    have hτ' : (Finset.univ.filter fun e => f e ∈ S).map τ⁻¹.toEmbedding = Finset.univ.filter fun e => f e ∈ S' := by
      rw [← hτ, Finset.map_map]
      ext e
      simp
    refine Finset.card_nbij' (fun σ => τ * σ) (fun σ => τ⁻¹ * σ) ?_ ?_ ?_ ?_
    · intro σ hσ
      simp only [Finset.coe_filter, Finset.mem_univ, true_and, Set.mem_setOf_eq] at hσ ⊢
      rw [im S' σ hS'] at hσ
      rw [im S _ hS, ← hτ, ← hσ, Finset.map_map]
      rfl
    · intro σ hσ
      simp only [Finset.coe_filter, Finset.mem_univ, true_and, Set.mem_setOf_eq] at hσ ⊢
      rw [im S σ hS] at hσ
      rw [im S' _ hS', ← hτ', ← hσ, Finset.map_map]
      rfl
    · intro σ _; simp
    · intro σ _; simp
  have htot := Finset.card_eq_sum_card_fiberwise (s := (Finset.univ : Finset (Equiv.Perm (Fin M)))) (t := P.powersetCard J.card) (f := fun σ => J.image fun j => f (σ j)) (fun σ _ => by
    refine Finset.mem_coe.2 (Finset.mem_powersetCard.2 ⟨fun p hp => ?_, ?_⟩)
    · obtain ⟨j, -, rfl⟩ := Finset.mem_image.1 hp
      exact (hP _).2 ⟨_, rfl⟩
    · exact Finset.card_image_of_injective _ (hf.comp σ.injective))
  rw [Finset.sum_congr rfl same, Finset.sum_const, Finset.card_powersetCard, hPc, Finset.card_univ, Fintype.card_perm, Fintype.card_fin, smul_eq_mul] at htot
  rw [htot, mul_comm]

/-- how many permutations put a given element into the image -/
theorem count_elem {α : Type} [DecidableEq α] {M : ℕ} {f : Fin M → α} (hf : Function.Injective f) (J : Finset (Fin M)) (e : Fin M) :
    (Finset.univ.filter fun σ : Equiv.Perm (Fin M) => f e ∈ J.image fun j => f (σ j)).card * M = J.card * M.factorial := by
  have hm : ∀ (σ : Equiv.Perm (Fin M)) (x : Fin M), f x ∈ (J.image fun j => f (σ j)) ↔ x ∈ J.map σ.toEmbedding := fun σ x => by
    rw [Finset.mem_image, Finset.mem_map]
    exact exists_congr fun j => and_congr_right fun _ => hf.eq_iff
  simp only [hm]
  have same : ∀ x : Fin M, (Finset.univ.filter fun σ : Equiv.Perm (Fin M) => x ∈ J.map σ.toEmbedding).card = (Finset.univ.filter fun σ : Equiv.Perm (Fin M) => e ∈ J.map σ.toEmbedding).card := fun x => by
    have tr : ∀ (y z : Fin M) (σ : Equiv.Perm (Fin M)), y ∈ J.map σ.toEmbedding → z ∈ J.map (Equiv.swap y z * σ).toEmbedding := fun y z σ h => by
      obtain ⟨j, hj, rfl⟩ := Finset.mem_map.1 h
      exact Finset.mem_map.2 ⟨j, hj, by simp⟩
    refine Finset.card_nbij' (fun σ => Equiv.swap x e * σ) (fun σ => Equiv.swap e x * σ) ?_ ?_ ?_ ?_
    · intro σ hσ
      simp only [Finset.coe_filter, Finset.mem_univ, true_and, Set.mem_setOf_eq] at hσ ⊢
      exact tr _ _ _ hσ
    · intro σ hσ
      simp only [Finset.coe_filter, Finset.mem_univ, true_and, Set.mem_setOf_eq] at hσ ⊢
      exact tr _ _ _ hσ
    · intro σ _
      show Equiv.swap e x * (Equiv.swap x e * σ) = σ
      rw [Equiv.swap_comm e x, Equiv.swap_mul_self_mul]
    · intro σ _
      show Equiv.swap x e * (Equiv.swap e x * σ) = σ
      rw [Equiv.swap_comm e x, Equiv.swap_mul_self_mul]
  have hd := Finset.sum_card_bipartiteAbove_eq_sum_card_bipartiteBelow (s := (Finset.univ : Finset (Fin M))) (t := (Finset.univ : Finset (Equiv.Perm (Fin M)))) fun x σ => x ∈ J.map σ.toEmbedding
  unfold Finset.bipartiteAbove Finset.bipartiteBelow at hd
  have h2 : ∀ σ ∈ (Finset.univ : Finset (Equiv.Perm (Fin M))), (Finset.univ.filter fun x => x ∈ J.map σ.toEmbedding).card = J.card := fun σ _ => by
    rw [Finset.filter_mem_eq_inter, Finset.univ_inter, Finset.card_map]
  rw [Finset.sum_congr rfl fun x _ => same x, Finset.sum_congr rfl h2, Finset.sum_const, Finset.sum_const, Finset.card_univ, Finset.card_univ, Fintype.card_perm, Fintype.card_fin, smul_eq_mul,
    smul_eq_mul] at hd
  rw [mul_comm, hd, mul_comm]

end CommunityDensity

open CommunityDensity CommunityDraws

/-- **C152** With `comm_density = d`, shuffling the `M` pairs of one community otherwise gives again a graph, with the same communities and the same edges elsewhere; inside, it has `⌊d M⌋` edges. -/
theorem C152_elsewhere {a : CommunityArgs} (heps : ∀ e, a.epsilon = some e → 0 ≤ e) {d : ℝ} (hd : a.commDensity = some d) {r : CommunityRng} (hr : r.Spec N) {fuel : ℕ} {lt : LapType}
    {c M : ℕ} {σ0 : Equiv.Perm (Fin M)} {G0 : Community N} (h0 : community N a (withShuffle r c σ0) fuel lt = .ok (some G0)) (hc : c < G0.nc) (hM : M = (insidePairs N G0.nodeCom c).card)
    (σ : Equiv.Perm (Fin M)) : ∃ G, community N a (withShuffle r c σ) fuel lt = .ok (some G) ∧ G.nodeCom = G0.nodeCom ∧ (insideEdges G c).card = ⌊d * M⌋₊ ∧
      ∀ u v : Fin N, ¬ (G0.nodeCom.getD u.1 0 = c ∧ G0.nodeCom.getD v.1 0 = c) → G.graph.W.dense u v = G0.graph.W.dense u v := by
  obtain ⟨f, J, hf, -, hJ, hrun⟩ := inside_run heps hd hr h0 hc hM
  obtain ⟨G, h1, h2, h3, h4⟩ := hrun σ
  exact ⟨G, h1, h2, by rw [h3, ← hJ]; exact Finset.card_image_of_injective _ (hf.comp σ.injective), h4⟩

/-- **C152** All the sets of `⌊d M⌋` pairs of a community are equally likely to be its edges, whatever the other random numbers. -/
theorem C152_uniform {a : CommunityArgs} (heps : ∀ e, a.epsilon = some e → 0 ≤ e) {d : ℝ} (hd : a.commDensity = some d) {r : CommunityRng} (hr : r.Spec N) {fuel : ℕ} {lt : LapType}
    {c M : ℕ} {σ0 : Equiv.Perm (Fin M)} {G0 : Community N} (h0 : community N a (withShuffle r c σ0) fuel lt = .ok (some G0)) (hc : c < G0.nc) (hM : M = (insidePairs N G0.nodeCom c).card)
    {S : Finset (Fin N × Fin N)} (hS : S ⊆ insidePairs N G0.nodeCom c) (hn : S.card = ⌊d * M⌋₊) :
    ((Finset.univ.filter fun σ : Equiv.Perm (Fin M) => ∃ G, community N a (withShuffle r c σ) fuel lt = .ok (some G) ∧ insideEdges G c = S).card : ℝ) / (Fintype.card (Equiv.Perm (Fin M))) =
      1 / (M.choose ⌊d * M⌋₊) := by
  obtain ⟨f, J, hf, hP, hJ, hrun⟩ := inside_run heps hd hr h0 hc hM
  have key : ∀ σ : Equiv.Perm (Fin M), (∃ G, community N a (withShuffle r c σ) fuel lt = .ok (some G) ∧ insideEdges G c = S) ↔ (J.image fun j => f (σ j)) = S := fun σ => by
    obtain ⟨G, h1, -, h2, -⟩ := hrun σ
    constructor
    · rintro ⟨G', h3, h4⟩
      obtain rfl := Option.some.inj (Except.ok.inj (h1.symm.trans h3))
      rw [← h2, h4]
    · intro h
      exact ⟨G, h1, by rw [h2, h]⟩
  simp only [key]
  have := count_perm hf hP J hS (hn.trans hJ.symm)
  rw [hJ] at this
  rw [Fintype.card_perm, Fintype.card_fin, ← this, Nat.cast_mul]
  have h1 := M.factorial_pos
  rw [← this] at h1
  have h2 : ((Finset.univ.filter fun σ : Equiv.Perm (Fin M) => (J.image fun j => f (σ j)) = S).card : ℝ) ≠ 0 := by
    exact_mod_cast (Nat.pos_of_mul_pos_right h1).ne'
  rw [div_mul_cancel_left₀ h2, one_div]

/-- **C152** Two vertices of the same community are linked with probability `⌊d M⌋ / M`. -/
theorem C152_probability {a : CommunityArgs} (heps : ∀ e, a.epsilon = some e → 0 ≤ e) {d : ℝ} (hd : a.commDensity = some d) {r : CommunityRng} (hr : r.Spec N) {fuel : ℕ} {lt : LapType}
    {c M : ℕ} {σ0 : Equiv.Perm (Fin M)} {G0 : Community N} (h0 : community N a (withShuffle r c σ0) fuel lt = .ok (some G0)) (hc : c < G0.nc) (hM : M = (insidePairs N G0.nodeCom c).card)
    {u v : Fin N} (huv : u ≠ v) (hu : G0.nodeCom.getD u.1 0 = c) (hv : G0.nodeCom.getD v.1 0 = c) :
    ((Finset.univ.filter fun σ : Equiv.Perm (Fin M) => ∃ G, community N a (withShuffle r c σ) fuel lt = .ok (some G) ∧ G.graph.W.dense u v = 1).card : ℝ) / (Fintype.card (Equiv.Perm (Fin M))) =
      ⌊d * M⌋₊ / M := by
  obtain ⟨f, J, hf, hP, hJ, hrun⟩ := inside_run heps hd hr h0 hc hM
  have main : ∀ u v : Fin N, u < v → G0.nodeCom.getD u.1 0 = c → G0.nodeCom.getD v.1 0 = c →
      ((Finset.univ.filter fun σ : Equiv.Perm (Fin M) => ∃ G, community N a (withShuffle r c σ) fuel lt = .ok (some G) ∧ (G.graph.W.dense u v = 1 ∨ G.graph.W.dense v u = 1)).card : ℝ) /
        (Fintype.card (Equiv.Perm (Fin M))) = ⌊d * M⌋₊ / M := by
    intro u v huv hu hv
    have hin : (u, v) ∈ insidePairs N G0.nodeCom c := Finset.mem_filter.2 ⟨Finset.mem_univ _, huv, hu, hv⟩
    obtain ⟨e, he⟩ := (hP _).1 hin
    have key : ∀ σ : Equiv.Perm (Fin M), (∃ G, community N a (withShuffle r c σ) fuel lt = .ok (some G) ∧ (G.graph.W.dense u v = 1 ∨ G.graph.W.dense v u = 1)) ↔ f e ∈ (J.image fun j => f (σ j)) := fun σ => by
      obtain ⟨G, h1, hl, h2, -⟩ := hrun σ
      obtain ⟨_, -, -, -, -, -, -, -, -, -, hW, -⟩ := community_pairs heps (shuffle_spec hr c σ) h1
      have hs : G.graph.W.dense v u = G.graph.W.dense u v := by rw [hW, hW, Sym2.eq_swap]
      have h01 : G.graph.W.dense u v = 1 ↔ G.graph.W.dense u v ≠ 0 := by
        rw [hW]; split <;> simp
      rw [← h2, he]
      unfold insideEdges
      rw [Finset.mem_filter, hl]
      constructor
      · rintro ⟨G', h3, h4⟩
        obtain rfl := Option.some.inj (Except.ok.inj (h1.symm.trans h3))
        rw [hs, or_self] at h4
        exact ⟨hin, h01.1 h4⟩
      · intro h
        exact ⟨G, h1, Or.inl (h01.2 h.2)⟩
    simp only [key]
    have := count_elem hf J e
    rw [hJ] at this
    have hM0 : (M : ℝ) ≠ 0 := by exact_mod_cast (Fin.pos e).ne'
    rw [Fintype.card_perm, Fintype.card_fin, div_eq_div_iff (by exact_mod_cast M.factorial_ne_zero) hM0]
    exact_mod_cast this
  have sym : ∀ σ : Equiv.Perm (Fin M), (∃ G, community N a (withShuffle r c σ) fuel lt = .ok (some G) ∧ G.graph.W.dense u v = 1) ↔
      ∃ G, community N a (withShuffle r c σ) fuel lt = .ok (some G) ∧ (G.graph.W.dense u v = 1 ∨ G.graph.W.dense v u = 1) := fun σ => by
    refine exists_congr fun G => and_congr_right fun h1 => ?_
    obtain ⟨_, -, -, -, -, -, -, -, -, -, hW, -⟩ := community_pairs heps (shuffle_spec hr c σ) h1
    have hs : G.graph.W.dense v u = G.graph.W.dense u v := by rw [hW, hW, Sym2.eq_swap]
    rw [hs, or_self]
  simp only [sym]
  rcases lt_or_gt_of_ne huv with h | h
  · exact main u v h hu hv
  · have := main v u h hv hu
    rw [← this]
    congr 3
    ext σ
    rw [Finset.mem_filter, Finset.mem_filter]
    exact and_congr_right fun _ => exists_congr fun G => and_congr_right fun _ => or_comm

/-- A concrete case: communities of sizes 2 and 3, with half of the three pairs of the second one shuffled. -/
example : ∃ (r : CommunityRng) (M : ℕ) (σ : Equiv.Perm (Fin M)) (T : ℕ) (G : Community 5), r.Spec 5 ∧
    community 5 { nc := some 2, commSizes := some [2, 3], minComm := some 1, commDensity := some (1 / 2), worldDensity := some (1 / 2) } (withShuffle r 1 σ) T .combinatorial = .ok (some G) ∧
    1 < G.nc ∧ M = (insidePairs 5 G.nodeCom 1).card ∧ M = 3 ∧ ⌊(1 / 2 : ℝ) * M⌋₊ = 1 := by
  obtain ⟨r, hr, -⟩ := exists_communityRng 5
  have hs := shuffle_spec hr 1 (1 : Equiv.Perm (Fin 3))
  obtain ⟨T, G, h⟩ := C78_returns (a := { nc := some 2, commSizes := some [2, 3], minComm := some 1, commDensity := some (1 / 2), worldDensity := some (1 / 2) }) (nc := 2) (mc := 1) (wd := 1 / 2)
    (lt := .combinatorial) (by norm_num) rfl rfl (by norm_num) rfl (by norm_num) (by norm_num) (by norm_num) (by norm_num)
    (by intro s hs; obtain rfl := Option.some.inj hs; exact ⟨rfl, rfl, by simp⟩) (by simp) (by intro d hd; obtain rfl := Option.some.inj hd; norm_num) (by simp) (by simp) hs
    (fun h => absurd h (by norm_num)) (Or.inl rfl)
  obtain ⟨h1, -, h3, -, -, -, -, -, -, hb, -, -, hsz, -⟩ := community_spec (by simp) hs h
  refine ⟨r, 3, 1, T, G, hr, h, ?_, ?_, rfl, ?_⟩
  · rw [h1]; norm_num
  · rw [hb, hsz [2, 3] rfl]
    have : blocks [2, 3] = [0, 0, 1, 1, 1] := by decide
    rw [this]
    unfold insidePairs
    decide +kernel
  · norm_num
    rw [Nat.floor_eq_iff (by norm_num)]
    norm_num

/-- **C151** With `world_density` at least 0.35 each set of pairs of the right size is the set of the edges between the communities with the same probability, one over the number of these sets. The
example at the end of `CommunityDraws` (density 1/2) meets the hypotheses, with the edges of its graph for `S`. -/
theorem C151_shuffle_probability {a : CommunityArgs} (heps : ∀ e, a.epsilon = some e → 0 ≤ e) {r : CommunityRng} (hr : r.Spec N) {fuel : ℕ} {lt : LapType} {k M : ℕ}
    {σ0 : Equiv.Perm (Fin M)} {G0 : Community N} (h0 : community N a (withShuffle r k σ0) fuel lt = .ok (some G0)) (hk : k = G0.nc) (hM : M = (crossPairs N G0.nodeCom).card)
    (hw : 35 / 100 ≤ G0.worldDensity) {S : Finset (Fin N × Fin N)} (hS : S ⊆ crossPairs N G0.nodeCom) (hn : S.card = (crossEdges G0).card) :
    ((Finset.univ.filter fun σ : Equiv.Perm (Fin M) => ∃ G, community N a (withShuffle r k σ) fuel lt = .ok (some G) ∧ crossEdges G = S).card : ℝ) / (Fintype.card (Equiv.Perm (Fin M))) =
      1 / (M.choose (crossEdges G0).card) := by
  obtain ⟨f, J, hf, hP, hrun⟩ := shuffle_run heps hr h0 hk hM hw
  have hJ : J.card = (crossEdges G0).card := by
    obtain ⟨G, h1, h2⟩ := hrun σ0
    obtain rfl := Option.some.inj (Except.ok.inj (h1.symm.trans h0))
    rw [h2]
    exact (Finset.card_image_of_injective _ (hf.comp σ0.injective)).symm
  have key : ∀ σ : Equiv.Perm (Fin M), (∃ G, community N a (withShuffle r k σ) fuel lt = .ok (some G) ∧ crossEdges G = S) ↔ (J.image fun j => f (σ j)) = S := fun σ => by
    obtain ⟨G, h1, h2⟩ := hrun σ
    constructor
    · rintro ⟨G', h3, h4⟩
      obtain rfl := Option.some.inj (Except.ok.inj (h1.symm.trans h3))
      rw [← h2, h4]
    · intro h
      exact ⟨G, h1, by rw [h2, h]⟩
  simp only [key]
  have := count_perm hf hP J hS (hn.trans hJ.symm)
  rw [hJ] at this
  rw [Fintype.card_perm, Fintype.card_fin, ← this, Nat.cast_mul]
  have h1 := M.factorial_pos
  rw [← this] at h1
  have h2 : ((Finset.univ.filter fun σ : Equiv.Perm (Fin M) => (J.image fun j => f (σ j)) = S).card : ℝ) ≠ 0 := by
    exact_mod_cast (Nat.pos_of_mul_pos_right h1).ne'
  rw [div_mul_cancel_left₀ h2, one_div]

end PyGSP.Gen
