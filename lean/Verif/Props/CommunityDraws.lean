import Verif.Props.Community
import Mathlib.Logic.Equiv.Fintype

/-!
# C151: the distribution of the edges between the communities of `Community`
-/

namespace PyGSP.Gen

open Matrix Classical Spec Reduction

variable {N : ℕ}

namespace Spec

/-- The pairs of vertices in different communities. -/
noncomputable def crossPairs (N : ℕ) (labels : List ℕ) : Finset (Fin N × Fin N) :=
  Finset.univ.filter fun p => p.1 < p.2 ∧ labels.getD p.1.1 0 ≠ labels.getD p.2.1 0

/-- The edges between vertices of different communities. -/
noncomputable def crossEdges (G : Community N) : Finset (Fin N × Fin N) := (crossPairs N G.nodeCom).filter fun p => G.graph.W.dense p.1 p.2 ≠ 0

/-- The generator with the first `T` values of `rng.integers(0, N, 2)` replaced. -/
def withDraws (r : CommunityRng) {T : ℕ} (d : Fin T → Fin N × Fin N) : CommunityRng :=
  { r with point := fun t => if h : t < T then ((d ⟨t, h⟩).1.1, (d ⟨t, h⟩).2.1) else (0, 0) }

/-- The generator with `rng.permutation(M)`, in the shuffle of the pairs between the communities (the call number `k`), replaced. -/
def withShuffle (r : CommunityRng) (k : ℕ) {M : ℕ} (σ : Equiv.Perm (Fin M)) : CommunityRng :=
  { r with perm := fun i m => if i = k ∧ m = M then (List.finRange M).map fun j => (σ j).1 else r.perm i m }

end Spec

open Spec

namespace CommunityDraws

theorem intraAll_point (a : CommunityArgs) (eps : ℝ) (r : CommunityRng) (q : ℕ → ℕ × ℕ) (coords : List (ℝ × ℝ)) (s : List ℕ) :
    ∀ i first, intraAll a eps { r with point := q } coords i first s = intraAll a eps r coords i first s := by
  induction s with
  | nil => intro i f; rfl
  | cons x t ih => intro i f; rw [intraAll, intraAll, ih]; rfl

theorem intraAll_draws (a : CommunityArgs) (eps : ℝ) (r : CommunityRng) {T : ℕ} (d : Fin T → Fin N × Fin N) (coords : List (ℝ × ℝ)) (s : List ℕ) :
    intraAll a eps (withDraws r d) coords 0 0 s = intraAll a eps r coords 0 0 s := intraAll_point a eps r _ coords s 0 0

/-- Other random numbers that end gives the same communities. -/
theorem redraw {a : CommunityArgs} {r : CommunityRng} {r' : CommunityRng} (hc : r'.choice = r.choice) (hu : r'.uniform = r.uniform) {fuel : ℕ} {lt : LapType} {G : Community N} (h : community N a r fuel lt = .ok (some G))
    {P : List (ℕ × ℕ)} (hP : interPairs N G.nc G.worldDensity G.nodeCom G.sizes r' fuel = .ok (some P)) {g : Graph N ℝ}
    (hg : ofEdges N (bothWays (intraAll a G.epsilon r' G.coords 0 0 G.sizes ++ P)) lt = .ok g) :
    community N a r' fuel lt = .ok (some { G with graph := g }) := by
  unfold community at h ⊢
  simp only at h ⊢
  split at h
  · cases h
  rename_i c1
  rw [if_neg c1]
  split at h
  · cases h
  rename_i c2
  rw [if_neg c2]
  split at h
  · cases h
  rename_i c3
  rw [if_neg c3]
  split at h
  · cases h
  rename_i c4
  rw [if_neg c4]
  generalize a.nc.getD (roundHalfEven (Real.sqrt N / 2)).toNat = nc at *
  generalize a.minComm.getD (roundHalfEven ((N : ℝ) / (3 * nc))).toNat = mc at *
  generalize a.worldDensity.getD (1 / (N : ℝ)) = wd at *
  generalize a.epsilon.getD (Real.sqrt (2 * Real.sqrt N) / 2) = eps at *
  unfold communityBuild at h ⊢
  split at h
  · cases h
  rename_i c5
  rw [if_neg c5]
  rcases hl : communityLabels N nc mc a.commSizes r with e | labels
  · rw [hl] at h; cases h
  rw [hl] at h
  have hl' : communityLabels N nc mc a.commSizes r' = .ok labels := by
    rw [← hl]; unfold communityLabels; rw [hc]
  rw [hl']
  simp only at h ⊢
  split at h
  · cases h
  rename_i c6
  rw [if_neg c6, hu]
  rcases hco : communityCoords nc (a.sizeRatio * Real.sqrt N) labels (communityCounts nc labels) (r.uniform N) with e | coords
  · rw [hco] at h; cases h
  rw [hco] at h
  simp only at h ⊢
  split at h
  · cases h
  rename_i c7
  rw [if_neg c7]
  rcases hi : interPairs N nc wd labels (communityCounts nc labels) r fuel with e | _ | inter
  · rw [hi] at h; cases h
  · rw [hi] at h; simp at h
  rw [hi] at h
  simp only at h
  rcases hg' : ofEdges N (bothWays (intraAll a eps r coords 0 0 (communityCounts nc labels) ++ inter)) lt with e | g'
  · rw [hg'] at h; cases h
  rw [hg'] at h
  obtain rfl := Option.some.inj (Except.ok.inj h)
  simp only at hP hg
  rw [hP]
  simp only
  rw [hg]

/-- Renaming the accepted draws renames the sample. -/
theorem sample_map {labels : List ℕ} {nb : ℕ} {V : ℕ × ℕ → Prop} {σ : ℕ × ℕ → ℕ × ℕ} (hσ : ∀ q q', V q → V q' → σ q = σ q' → q = q') {d d' : ℕ → ℕ × ℕ}
    (hd : ∀ t, let q := (min (d t).1 (d t).2, max (d t).1 (d t).2)
      let q' := (min (d' t).1 (d' t).2, max (d' t).1 (d' t).2)
      (labels.getD q.1 0 ≠ labels.getD q.2 0 → V q ∧ labels.getD q'.1 0 ≠ labels.getD q'.2 0 ∧ q' = σ q) ∧ (labels.getD q.1 0 = labels.getD q.2 0 → labels.getD q'.1 0 = labels.getD q'.2 0))
    (fuel : ℕ) : ∀ (t : ℕ) (acc : List (ℕ × ℕ)), (∀ q ∈ acc, V q) →
      interSample labels nb d' fuel t (acc.map σ) = (interSample labels nb d fuel t acc).map (List.map σ) := by
  induction fuel with
  | zero =>
    intro t acc _
    rw [interSample, interSample, List.length_map]
    split <;> rfl
  | succ fuel ih =>
    intro t acc hV
    rw [interSample, interSample, List.length_map]
    split
    · rfl
    · obtain ⟨h1, h2⟩ := hd t
      by_cases hq : labels.getD (min (d t).1 (d t).2) 0 ≠ labels.getD (max (d t).1 (d t).2) 0
      · obtain ⟨h3, h4, h5⟩ := h1 hq
        simp only
        rw [if_pos hq, if_pos h4, ← ih]
        · rw [h5]
          congr 1
          by_cases hm : (min (d t).1 (d t).2, max (d t).1 (d t).2) ∈ acc
          · rw [if_pos hm, if_pos (List.mem_map_of_mem hm)]
          · rw [if_neg hm, if_neg]
            · rw [List.map_append]; rfl
            · intro hc
              obtain ⟨x, hx, hxe⟩ := List.mem_map.1 hc
              exact hm (hσ _ _ (hV x hx) h3 hxe ▸ hx)
        · split
          · exact hV
          · intro x hx
            rcases List.mem_append.1 hx with hx | hx
            · exact hV x hx
            · rw [List.mem_singleton.1 hx]; exact h3
      · simp only
        rw [if_neg hq, if_neg (not_not.2 (h2 (not_not.1 hq))), ih _ _ hV]

/-- A permutation of the pairs acts on the draws, which may be in either order. -/
noncomputable def onDraw (P : Finset (Fin N × Fin N)) (π : Equiv.Perm (Fin N × Fin N)) (p : Fin N × Fin N) : Fin N × Fin N :=
  if p ∈ P then π p else if p.swap ∈ P then (π p.swap).swap else p

theorem onDraw_inv {P : Finset (Fin N × Fin N)} (hlt : ∀ p ∈ P, p.1 < p.2) {π : Equiv.Perm (Fin N × Fin N)} (hπ : ∀ p, π p ∈ P ↔ p ∈ P) (p : Fin N × Fin N) :
    onDraw P π⁻¹ (onDraw P π p) = p := by
  unfold onDraw
  by_cases h1 : p ∈ P
  · rw [if_pos h1, if_pos ((hπ p).2 h1)]; simp
  · rw [if_neg h1]
    by_cases h2 : p.swap ∈ P
    · rw [if_pos h2, if_neg, Prod.swap_swap, if_pos ((hπ _).2 h2)]
      · simp
      · intro hc
        have h3 := hlt _ hc
        have h4 := hlt _ ((hπ _).2 h2)
        simp only [Prod.fst_swap, Prod.snd_swap] at h3
        exact absurd h3 (not_lt.2 h4.le)
    · rw [if_neg h2, if_neg h1, if_neg h2]

theorem draws_spec {r : CommunityRng} (hr : r.Spec N) {T : ℕ} (d : Fin T → Fin N × Fin N) : (withDraws r d).Spec N where
  choice_length := hr.choice_length
  choice_lt := hr.choice_lt
  uniform_length := hr.uniform_length
  uniform_range := hr.uniform_range
  perm_perm := hr.perm_perm
  point_lt := fun hN t => by
    unfold withDraws
    simp only
    split
    · exact ⟨Fin.isLt _, Fin.isLt _⟩
    · exact ⟨hN, hN⟩
  pairs_nodup := hr.pairs_nodup
  pairs_mem := hr.pairs_mem

/-- the sample and the edges between the communities -/
theorem cross_mem {a : CommunityArgs} (heps : ∀ e, a.epsilon = some e → 0 ≤ e) {r : CommunityRng} (hr : r.Spec N) (hN : 0 < N) {fuel : ℕ} {lt : LapType}
    {G : Community N} (h : community N a r fuel lt = .ok (some G)) (hw : G.worldDensity < 35 / 100) : ∃ inter,
    interSample G.nodeCom ⌊G.worldDensity * (((N : ℝ) ^ 2 - ((G.sizes.map fun x : ℕ => x ^ 2).sum : ℕ)) / 2)⌋₊ r.point fuel 0 [] = some inter ∧ inter.Nodup ∧
    inter.length = ⌊G.worldDensity * (((N : ℝ) ^ 2 - ((G.sizes.map fun x : ℕ => x ^ 2).sum : ℕ)) / 2)⌋₊ ∧
    (∀ q ∈ inter, q.1 < q.2 ∧ q.2 < N ∧ G.nodeCom.getD q.1 0 ≠ G.nodeCom.getD q.2 0) ∧ ∀ p, p ∈ crossEdges G ↔ (p.1.1, p.2.1) ∈ inter := by
  obtain ⟨inter, i1, -, -, -, hin, hlab, -, -, -, hW, hi⟩ := community_pairs heps hr h
  unfold interPairs at hi
  simp only at hi
  rw [if_pos hw] at hi
  have hi := Except.ok.inj hi
  obtain ⟨h0, h1, h9⟩ := interSample_ok (hr.point_lt hN) fuel 0 [] List.nodup_nil (by simp) (Nat.zero_le _) inter hi
  refine ⟨inter, hi, h0, h9, h1, fun p => ?_⟩
  unfold crossEdges crossPairs
  rw [Finset.mem_filter, Finset.mem_filter, hW]
  constructor
  · rintro ⟨⟨-, hlt, hne⟩, hw⟩
    rw [ne_eq, ite_eq_right_iff, Classical.not_imp] at hw
    obtain ⟨e, he, hk⟩ := List.mem_map.1 hw.1
    rcases List.mem_append.1 he with he | he
    · obtain ⟨c, hc, he⟩ := List.mem_flatMap.1 he
      have h2 := hlab c (List.mem_range.1 hc) e he
      rcases Sym2.eq_iff.1 hk with hk | hk
      · rw [← hk.1, ← hk.2, h2.1, h2.2] at hne; exact absurd rfl hne
      · rw [← hk.1, ← hk.2, h2.1, h2.2] at hne; exact absurd rfl hne
    · rcases Sym2.eq_iff.1 hk with hk | hk
      · rw [← hk.1, ← hk.2]; exact he
      · have h3 := (h1 e he).1
        rw [hk.1, hk.2] at h3
        exact absurd (show p.1.1 < p.2.1 from hlt) (by omega)
  · intro he
    have h2 := h1 _ he
    refine ⟨⟨Finset.mem_univ _, h2.1, h2.2.2⟩, ?_⟩
    rw [if_pos (List.mem_map.2 ⟨_, List.mem_append_right _ he, rfl⟩)]
    exact one_ne_zero

/-- the permutation of the pairs, on pairs of natural numbers -/
noncomputable def onPair (π : Equiv.Perm (Fin N × Fin N)) (q : ℕ × ℕ) : ℕ × ℕ :=
  if h : q.1 < N ∧ q.2 < N then ((π (⟨q.1, h.1⟩, ⟨q.2, h.2⟩)).1.1, (π (⟨q.1, h.1⟩, ⟨q.2, h.2⟩)).2.1) else q

theorem onPair_val (π : Equiv.Perm (Fin N × Fin N)) (p : Fin N × Fin N) : onPair π (p.1.1, p.2.1) = ((π p).1.1, (π p).2.1) := by
  unfold onPair
  rw [dif_pos ⟨p.1.2, p.2.2⟩]

/-- Renaming the draws renames the edges between the communities. -/
theorem transport {a : CommunityArgs} (heps : ∀ e, a.epsilon = some e → 0 ≤ e) {r : CommunityRng} (hr : r.Spec N) (hN : 0 < N) {T : ℕ} {lt : LapType}
    (hw : a.worldDensity.getD (1 / (N : ℝ)) < 35 / 100) {d : Fin T → Fin N × Fin N} {G : Community N} (h : community N a (withDraws r d) T lt = .ok (some G))
    {π : Equiv.Perm (Fin N × Fin N)} (hπ : ∀ p, π p ∈ crossPairs N G.nodeCom ↔ p ∈ crossPairs N G.nodeCom) :
    ∃ G', community N a (withDraws r fun t => onDraw (crossPairs N G.nodeCom) π (d t)) T lt = .ok (some G') ∧ G'.nodeCom = G.nodeCom ∧
      crossEdges G' = (crossEdges G).map π.toEmbedding := by
  set P := crossPairs N G.nodeCom with hP
  have hPm : ∀ p, p ∈ P ↔ p.1 < p.2 ∧ G.nodeCom.getD p.1.1 0 ≠ G.nodeCom.getD p.2.1 0 := fun p => by rw [hP]; unfold crossPairs; simp
  have hs := draws_spec hr d
  have hwd : G.worldDensity < 35 / 100 := by rw [(community_spec heps hs h).2.2.1]; exact hw
  obtain ⟨inter, h1, -, -, h2, h3⟩ := cross_mem heps hs hN h hwd
  set nb := ⌊G.worldDensity * (((N : ℝ) ^ 2 - ((G.sizes.map fun x : ℕ => x ^ 2).sum : ℕ)) / 2)⌋₊ with hnb
  set d' : Fin T → Fin N × Fin N := fun t => onDraw P π (d t) with hd'
  have hsam : interSample G.nodeCom nb (withDraws r d').point T 0 [] = some (inter.map (onPair π)) := by
    have := sample_map (labels := G.nodeCom) (nb := nb) (V := fun q => ∃ p ∈ P, q = (p.1.1, p.2.1)) (σ := onPair π) ?_ (d := (withDraws r d).point) (d' := (withDraws r d').point) ?_ T 0 [] (by simp)
    · rw [List.map_nil, h1] at this
      exact this
    · rintro q q' ⟨p, hp, rfl⟩ ⟨p', hp', rfl⟩ he
      rw [onPair_val, onPair_val] at he
      have : π p = π p' := Prod.ext (Fin.ext (congrArg Prod.fst he)) (Fin.ext (congrArg Prod.snd he))
      rw [π.injective this]
    · intro t
      by_cases ht : t < T
      · have e1 : (withDraws r d).point t = ((d ⟨t, ht⟩).1.1, (d ⟨t, ht⟩).2.1) := by unfold withDraws; simp only; rw [dif_pos ht]
        have e2 : (withDraws r d').point t = ((d' ⟨t, ht⟩).1.1, (d' ⟨t, ht⟩).2.1) := by unfold withDraws; simp only; rw [dif_pos ht]
        rw [e1, e2]
        rw [hd']
        simp only
        generalize d ⟨t, ht⟩ = p
        constructor
        · intro hne
          rcases lt_trichotomy p.1 p.2 with hlt | heq | hgt
          · have hle : p.1.1 ≤ p.2.1 := (show p.1.1 < p.2.1 from hlt).le
            rw [min_eq_left hle, max_eq_right hle] at hne ⊢
            have hp : p ∈ P := (hPm p).2 ⟨hlt, hne⟩
            have hp' := (hPm _).1 ((hπ p).2 hp)
            unfold onDraw
            rw [if_pos hp]
            have hle' : (π p).1.1 ≤ (π p).2.1 := (show (π p).1.1 < (π p).2.1 from hp'.1).le
            rw [min_eq_left hle', max_eq_right hle']
            exact ⟨⟨p, hp, rfl⟩, hp'.2, (onPair_val π p).symm⟩
          · rw [heq] at hne; simp at hne
          · have hle : p.2.1 ≤ p.1.1 := (show p.2.1 < p.1.1 from hgt).le
            rw [min_eq_right hle, max_eq_left hle] at hne ⊢
            have hp : p.swap ∈ P := (hPm _).2 ⟨hgt, hne⟩
            have hn : p ∉ P := fun hc => absurd ((hPm p).1 hc).1 (not_lt.2 hgt.le)
            have hp' := (hPm _).1 ((hπ _).2 hp)
            unfold onDraw
            rw [if_neg hn, if_pos hp]
            have hle' : (π p.swap).1.1 ≤ (π p.swap).2.1 := (show (π p.swap).1.1 < (π p.swap).2.1 from hp'.1).le
            simp only [Prod.fst_swap, Prod.snd_swap]
            rw [min_eq_right hle', max_eq_left hle']
            exact ⟨⟨p.swap, hp, rfl⟩, hp'.2, (onPair_val π p.swap).symm⟩
        · intro heq
          have key : G.nodeCom.getD p.1.1 0 = G.nodeCom.getD p.2.1 0 := by
            rcases le_total p.1.1 p.2.1 with hle | hle
            · rw [min_eq_left hle, max_eq_right hle] at heq; exact heq
            · rw [min_eq_right hle, max_eq_left hle] at heq; exact heq.symm
          have hn : p ∉ P := fun hc => ((hPm p).1 hc).2 key
          have hn' : p.swap ∉ P := fun hc => ((hPm _).1 hc).2 key.symm
          unfold onDraw
          rw [if_neg hn, if_neg hn']
          exact heq
      · have e1 : (withDraws r d).point t = (0, 0) := by unfold withDraws; simp only; rw [dif_neg ht]
        have e2 : (withDraws r d').point t = (0, 0) := by unfold withDraws; simp only; rw [dif_neg ht]
        rw [e1, e2]
        simp
  have hint : interPairs N G.nc G.worldDensity G.nodeCom G.sizes (withDraws r d') T = .ok (some (inter.map (onPair π))) := by
    unfold interPairs
    simp only
    rw [if_pos hwd, ← hnb, hsam]
  have hlt' : ∀ e ∈ inter.map (onPair π), e.1 < N ∧ e.2 < N := by
    intro e he
    obtain ⟨q, hq, rfl⟩ := List.mem_map.1 he
    obtain ⟨a1, a2, -⟩ := h2 q hq
    rw [show q = ((⟨q.1, a1.trans a2⟩ : Fin N).1, (⟨q.2, a2⟩ : Fin N).1) from rfl, onPair_val π (⟨q.1, a1.trans a2⟩, ⟨q.2, a2⟩)]
    exact ⟨Fin.isLt _, Fin.isLt _⟩
  obtain ⟨-, -, -, -, -, -, -, -, -, -, -, -, -, -, -, -, -, inter0, i0, -, hg0, -⟩ := community_spec heps hs h
  obtain ⟨inter1, -, -, -, hnc, -, -, -, hbd, -⟩ := community_pairs heps hs h
  have hall : intraAll a G.epsilon (withDraws r d) G.coords 0 0 G.sizes =
      (List.range G.nc).flatMap fun c : ℕ => intraPairs a G.epsilon (withDraws r d) G.coords c (G.sizes.take c).sum (G.sizes.getD c 0) := by
    rw [intraAll_eq, hnc]
    simp only [Nat.zero_add]
  have hb : ∀ e ∈ intraAll a G.epsilon (withDraws r d) G.coords 0 0 G.sizes, e.1 < N ∧ e.2 < N := by
    intro e he
    rw [hall] at he
    have := hbd (key e) (List.mem_map_of_mem (List.mem_append_left _ he))
    exact ⟨this _ (Sym2.mem_mk_left _ _), this _ (Sym2.mem_mk_right _ _)⟩
  have both : ∀ L : List (ℕ × ℕ), (∀ p ∈ L, p.1 < N ∧ p.2 < N) → ∀ e ∈ bothWays L, e.1 < N ∧ e.2.1 < N := by
    intro L hL e he'
    unfold bothWays at he'
    have := mem_ones he'
    simp only [List.mem_append, List.mem_map] at this
    constructor
    · rcases this.1 with ⟨p, hp, h⟩ | ⟨p, hp, h⟩ <;> rw [← h] <;> [exact (hL p hp).1; exact (hL p hp).2]
    · rcases this.2 with ⟨p, hp, h⟩ | ⟨p, hp, h⟩ <;> rw [← h] <;> [exact (hL p hp).2; exact (hL p hp).1]
  have hl : lt = .combinatorial ∨ lt = .normalized := by
    rcases lt with _ | _ | name
    · exact Or.inl rfl
    · exact Or.inr rfl
    · exfalso
      rw [ofEdges_unknown (both _ fun e he => (List.mem_append.1 he).elim (hb e) (i0.lt e))] at hg0
      cases hg0
  obtain ⟨g, hg, -⟩ := ofEdges_ok (both (intraAll a G.epsilon (withDraws r d) G.coords 0 0 G.sizes ++ inter.map (onPair π)) fun e he => (List.mem_append.1 he).elim (hb e) (hlt' e)) hl
  have hrun : community N a (withDraws r d') T lt = .ok (some { G with graph := g }) := redraw (r := withDraws r d) (r' := withDraws r d') rfl rfl h hint (by
    rw [intraAll_draws, ← intraAll_draws (d := d)]; exact hg)
  refine ⟨_, hrun, rfl, ?_⟩
  obtain ⟨inter', h1', -, -, -, h3'⟩ := cross_mem heps (draws_spec hr d') hN hrun hwd
  have : inter' = inter.map (onPair π) := Option.some.inj (h1'.symm.trans hsam)
  subst this
  ext p
  rw [h3', Finset.mem_map_equiv]
  constructor
  · intro hm
    obtain ⟨q, hq, hqp⟩ := List.mem_map.1 hm
    obtain ⟨a1, a2, -⟩ := h2 q hq
    rw [show q = ((⟨q.1, a1.trans a2⟩ : Fin N).1, (⟨q.2, a2⟩ : Fin N).1) from rfl, onPair_val π (⟨q.1, a1.trans a2⟩, ⟨q.2, a2⟩)] at hqp
    have : π (⟨q.1, a1.trans a2⟩, ⟨q.2, a2⟩) = p := Prod.ext (Fin.ext (congrArg Prod.fst hqp)) (Fin.ext (congrArg Prod.snd hqp))
    rw [← this, Equiv.symm_apply_apply, h3]
    exact hq
  · intro hm
    rw [h3] at hm
    refine List.mem_map.2 ⟨_, hm, ?_⟩
    rw [onPair_val, Equiv.apply_symm_apply]

/-- the labels do not depend on the draws -/
theorem labels_run {a : CommunityArgs} {r : CommunityRng} {fuel : ℕ} {lt : LapType} {G : Community N} (h : community N a r fuel lt = .ok (some G)) :
    communityLabels N (a.nc.getD (roundHalfEven (Real.sqrt N / 2)).toNat)
      (a.minComm.getD (roundHalfEven ((N : ℝ) / (3 * (a.nc.getD (roundHalfEven (Real.sqrt N / 2)).toNat : ℕ)))).toNat) a.commSizes r = .ok G.nodeCom := by
  unfold community at h
  simp only at h
  split at h
  · cases h
  split at h
  · cases h
  split at h
  · cases h
  split at h
  · cases h
  generalize a.nc.getD (roundHalfEven (Real.sqrt N / 2)).toNat = nc at *
  generalize a.minComm.getD (roundHalfEven ((N : ℝ) / (3 * nc))).toNat = mc at *
  unfold communityBuild at h
  split at h
  · cases h
  rcases hl : communityLabels N nc mc a.commSizes r with e | labels
  · rw [hl] at h; cases h
  rw [hl] at h
  simp only at h
  split at h
  · cases h
  split at h
  · cases h
  split at h
  · cases h
  split at h
  · cases h
  · cases h
  split at h
  · cases h
  obtain rfl := Option.some.inj (Except.ok.inj h)
  rfl

theorem labels_const {a : CommunityArgs} {r : CommunityRng} {T : ℕ} {lt : LapType} {d d' : Fin T → Fin N × Fin N} {G G' : Community N} (h : community N a (withDraws r d) T lt = .ok (some G))
    (h' : community N a (withDraws r d') T lt = .ok (some G')) : G'.nodeCom = G.nodeCom := by
  have h1 := labels_run h
  have h2 := labels_run h'
  have e : ∀ (nc mc : ℕ) (d : Fin T → Fin N × Fin N), communityLabels N nc mc a.commSizes (withDraws r d) = communityLabels N nc mc a.commSizes r := fun _ _ _ => rfl
  rw [e] at h1 h2
  exact Except.ok.inj (h2.symm.trans h1)

/-- counting the draws, up to a permutation of the pairs -/
theorem count {a : CommunityArgs} (heps : ∀ e, a.epsilon = some e → 0 ≤ e) {r : CommunityRng} (hr : r.Spec N) (hN : 0 < N) {T : ℕ} {lt : LapType}
    (hw : a.worldDensity.getD (1 / (N : ℝ)) < 35 / 100) {L : List ℕ} (hL : ∀ d : Fin T → Fin N × Fin N, ∀ G, community N a (withDraws r d) T lt = .ok (some G) → G.nodeCom = L)
    {π : Equiv.Perm (Fin N × Fin N)} (hπ : ∀ p, π p ∈ crossPairs N L ↔ p ∈ crossPairs N L) (Q : Finset (Fin N × Fin N) → Prop) :
    (Finset.univ.filter fun d : Fin T → Fin N × Fin N => ∃ G, community N a (withDraws r d) T lt = .ok (some G) ∧ Q ((crossEdges G).map π.toEmbedding)).card =
    (Finset.univ.filter fun d : Fin T → Fin N × Fin N => ∃ G, community N a (withDraws r d) T lt = .ok (some G) ∧ Q (crossEdges G)).card := by
  have hlt : ∀ p ∈ crossPairs N L, p.1 < p.2 := fun p hp => ((Finset.mem_filter.1 hp).2).1
  have hπ' : ∀ p, π⁻¹ p ∈ crossPairs N L ↔ p ∈ crossPairs N L := fun p => by
    rw [← hπ (π⁻¹ p)]; simp
  refine Finset.card_nbij' (fun d t => onDraw (crossPairs N L) π (d t)) (fun d t => onDraw (crossPairs N L) π⁻¹ (d t)) ?_ ?_ ?_ ?_
  · intro d hd
    simp only [Finset.coe_filter, Finset.mem_univ, true_and, Set.mem_setOf_eq] at hd ⊢
    obtain ⟨G, hG, hQ⟩ := hd
    have hl := hL d G hG
    obtain ⟨G', h1, -, h3⟩ := transport heps hr hN hw hG (π := π) (by rw [hl]; exact hπ)
    rw [hl] at h1
    exact ⟨G', h1, by rw [h3]; exact hQ⟩
  · intro d hd
    simp only [Finset.coe_filter, Finset.mem_univ, true_and, Set.mem_setOf_eq] at hd ⊢
    obtain ⟨G, hG, hQ⟩ := hd
    have hl := hL d G hG
    obtain ⟨G', h1, -, h3⟩ := transport heps hr hN hw hG (π := π⁻¹) (by rw [hl]; exact hπ')
    rw [hl] at h1
    refine ⟨G', h1, ?_⟩
    rw [h3, Finset.map_map]
    convert hQ
    ext p
    simp
  · intro d _
    funext t
    exact onDraw_inv hlt hπ _
  · intro d _
    funext t
    have := onDraw_inv hlt hπ' (d t)
    rwa [inv_inv] at this

/-- a permutation that maps a set to another one of the same size -/
theorem exists_perm {α : Type} [Fintype α] [DecidableEq α] {P S S' : Finset α} (hS : S ⊆ P) (hS' : S' ⊆ P) (hc : S.card = S'.card) :
    ∃ π : Equiv.Perm α, (∀ p, π p ∈ P ↔ p ∈ P) ∧ S.map π.toEmbedding = S' := by
  have e : {x : {x // x ∈ P} // x.1 ∈ S} ≃ {x : {x // x ∈ P} // x.1 ∈ S'} := by
    refine Fintype.equivOfCardEq ?_
    have key : ∀ R : Finset α, R ⊆ P → Fintype.card {x : {x // x ∈ P} // x.1 ∈ R} = R.card := fun R hR => by
      rw [← Fintype.card_coe R]
      exact Fintype.card_congr ⟨fun x => ⟨x.1.1, x.2⟩, fun x => ⟨⟨x.1, hR x.2⟩, x.2⟩, fun _ => rfl, fun _ => rfl⟩
    rw [key S hS, key S' hS', hc]
  refine ⟨Equiv.Perm.ofSubtype e.extendSubtype, fun p => ?_, ?_⟩
  · by_cases hp : p ∈ P
    · rw [Equiv.Perm.ofSubtype_apply_of_mem _ hp]
      exact ⟨fun _ => hp, fun _ => Subtype.prop _⟩
    · rw [Equiv.Perm.ofSubtype_apply_of_not_mem _ hp]
  · refine Finset.eq_of_subset_of_card_le ?_ (by rw [Finset.card_map, hc])
    intro y hy
    obtain ⟨x, hx, rfl⟩ := Finset.mem_map.1 hy
    show Equiv.Perm.ofSubtype e.extendSubtype x ∈ S'
    rw [Equiv.Perm.ofSubtype_apply_of_mem _ (hS hx)]
    exact e.extendSubtype_mem ⟨x, hS hx⟩ hx

theorem cross_card {a : CommunityArgs} (heps : ∀ e, a.epsilon = some e → 0 ≤ e) {r : CommunityRng} (hr : r.Spec N) (hN : 0 < N) {fuel : ℕ} {lt : LapType}
    {G : Community N} (h : community N a r fuel lt = .ok (some G)) (hw : G.worldDensity < 35 / 100) :
    (crossEdges G).card = ⌊G.worldDensity * ((crossPairs N G.nodeCom).card : ℕ)⌋₊ := by
  obtain ⟨inter, -, h1, h2, h3, h4⟩ := cross_mem heps hr hN h hw
  have e := (community_count heps hr h).2.symm.trans (C78_between heps hr h)
  have hf : crossPairs N G.nodeCom = Finset.univ.filter fun p : Fin N × Fin N => p.1 < p.2 ∧ G.nodeCom.getD p.1.1 0 ≠ G.nodeCom.getD p.2.1 0 := rfl
  rw [hf, ← e, ← h2, ← List.toFinset_card_of_nodup h1]
  refine Finset.card_bij (fun p _ => (p.1.1, p.2.1)) (fun p hp => List.mem_toFinset.2 ((h4 p).1 hp)) (fun p _ q _ he => ?_) fun q hq => ?_
  · exact Prod.ext (Fin.ext (congrArg Prod.fst he)) (Fin.ext (congrArg Prod.snd he))
  · have hq := List.mem_toFinset.1 hq
    obtain ⟨a1, a2, -⟩ := h3 q hq
    exact ⟨(⟨q.1, a1.trans a2⟩, ⟨q.2, a2⟩), (h4 _).2 hq, rfl⟩

end CommunityDraws

open CommunityDraws

/-- only the first draws are read -/
theorem sample_congr {labels : List ℕ} {nb : ℕ} {q q' : ℕ → ℕ × ℕ} (fuel : ℕ) : ∀ (t : ℕ) (acc : List (ℕ × ℕ)), (∀ k, t ≤ k → k < t + fuel → q k = q' k) →
    interSample labels nb q fuel t acc = interSample labels nb q' fuel t acc := by
  induction fuel with
  | zero => intro t acc _; rw [interSample, interSample]
  | succ fuel ih =>
    intro t acc h
    rw [interSample, interSample]
    split
    · rfl
    · simp only
      rw [h t le_rfl (by omega), ih _ _ fun k h1 h2 => h k (by omega) (by omega), ih _ _ fun k h1 h2 => h k (by omega) (by omega)]

/-- **C151** Every run of the constructor that ends within `T` draws is one of those that are counted below. -/
theorem C151_draws {a : CommunityArgs} (heps : ∀ e, a.epsilon = some e → 0 ≤ e) {r : CommunityRng} (hr : r.Spec N) (hN : 0 < N) {T : ℕ} {lt : LapType} {G : Community N}
    (h : community N a r T lt = .ok (some G)) : ∃ d : Fin T → Fin N × Fin N, (∀ t, ((d t).1.1, (d t).2.1) = r.point t) ∧ community N a (withDraws r d) T lt = .ok (some G) := by
  refine ⟨fun t => (⟨(r.point t).1, (hr.point_lt hN t).1⟩, ⟨(r.point t).2, (hr.point_lt hN t).2⟩), fun t => rfl, ?_⟩
  set d : Fin T → Fin N × Fin N := fun t => (⟨(r.point t).1, (hr.point_lt hN t).1⟩, ⟨(r.point t).2, (hr.point_lt hN t).2⟩) with hd
  obtain ⟨-, -, -, -, -, -, -, -, -, -, -, -, -, -, -, -, -, inter, -, -, hg, hi⟩ := community_spec heps hr h
  have hs : ∀ nb, interSample G.nodeCom nb (withDraws r d).point T 0 [] = interSample G.nodeCom nb r.point T 0 [] := fun nb =>
    sample_congr T 0 [] fun k _ hk => by
      unfold withDraws
      simp only
      rw [dif_pos (by omega)]
  have hP : interPairs N G.nc G.worldDensity G.nodeCom G.sizes (withDraws r d) T = .ok (some inter) := by
    rw [← hi]
    unfold interPairs
    simp only [hs]
    rfl
  exact redraw (r := r) (r' := withDraws r d) rfl rfl h hP (by rw [intraAll_draws]; exact hg)

/-- **C151** The edges between the communities that the rejection sampling of `Community` finds (`world_density` under 0.35) are uniformly distributed: whatever the other random numbers,
among the sequences of `T` draws, as many give one set of edges between the communities as any other set of the same size. -/
theorem C151_uniform {a : CommunityArgs} (heps : ∀ e, a.epsilon = some e → 0 ≤ e) {r : CommunityRng} (hr : r.Spec N) (hN : 0 < N) {T : ℕ} {lt : LapType}
    (hw : a.worldDensity.getD (1 / (N : ℝ)) < 35 / 100) {d0 : Fin T → Fin N × Fin N} {G0 : Community N} (h0 : community N a (withDraws r d0) T lt = .ok (some G0))
    {S S' : Finset (Fin N × Fin N)} (hS : S ⊆ crossPairs N G0.nodeCom) (hS' : S' ⊆ crossPairs N G0.nodeCom) (hc : S.card = S'.card) :
    (Finset.univ.filter fun d : Fin T → Fin N × Fin N => ∃ G, community N a (withDraws r d) T lt = .ok (some G) ∧ crossEdges G = S).card =
    (Finset.univ.filter fun d : Fin T → Fin N × Fin N => ∃ G, community N a (withDraws r d) T lt = .ok (some G) ∧ crossEdges G = S').card := by
  obtain ⟨π, h1, h2⟩ := exists_perm hS hS' hc
  rw [← count heps hr hN hw (fun d G h => labels_const h0 h) h1 fun R => R = S', ← h2]
  congr 1
  refine Finset.filter_congr fun d _ => ?_
  refine exists_congr fun G => and_congr_right fun _ => ?_
  exact (Finset.map_inj.symm)

/-- **C151** Hence, when it returns, every pair of vertices in different communities is linked with the same probability, the number of edges over the number of pairs. -/
theorem C151_probability {a : CommunityArgs} (heps : ∀ e, a.epsilon = some e → 0 ≤ e) {r : CommunityRng} (hr : r.Spec N) (hN : 0 < N) {T : ℕ} {lt : LapType}
    (hw : a.worldDensity.getD (1 / (N : ℝ)) < 35 / 100) {d0 : Fin T → Fin N × Fin N} {G0 : Community N} (h0 : community N a (withDraws r d0) T lt = .ok (some G0))
    {p : Fin N × Fin N} (hp : p ∈ crossPairs N G0.nodeCom) :
    (crossPairs N G0.nodeCom).card * (Finset.univ.filter fun d : Fin T → Fin N × Fin N => ∃ G, community N a (withDraws r d) T lt = .ok (some G) ∧ G.graph.W.dense p.1 p.2 ≠ 0).card =
    ⌊a.worldDensity.getD (1 / (N : ℝ)) * ((crossPairs N G0.nodeCom).card : ℕ)⌋₊ *
      (Finset.univ.filter fun d : Fin T → Fin N × Fin N => ∃ G, community N a (withDraws r d) T lt = .ok (some G)).card := by
  set P := crossPairs N G0.nodeCom with hP
  set nb := ⌊a.worldDensity.getD (1 / (N : ℝ)) * (P.card : ℕ)⌋₊ with hnb
  have hL : ∀ d : Fin T → Fin N × Fin N, ∀ G, community N a (withDraws r d) T lt = .ok (some G) → G.nodeCom = G0.nodeCom := fun d G h => labels_const h0 h
  let c : Fin N × Fin N → ℕ := fun q => (Finset.univ.filter fun d : Fin T → Fin N × Fin N => ∃ G, community N a (withDraws r d) T lt = .ok (some G) ∧ q ∈ crossEdges G).card
  have hcq : ∀ q ∈ P, c q = c p := fun q hq => by
    obtain ⟨π, h1, h2⟩ := exists_perm (P := P) (S := {q}) (S' := {p}) (by simpa using hq) (by simpa using hp) (by simp)
    have hπ : π q = p := by simpa using h2
    have := count heps hr hN hw hL h1 fun R => p ∈ R
    show Finset.card _ = Finset.card _
    rw [← this]
    congr 1
    refine Finset.filter_congr fun d _ => exists_congr fun G => and_congr_right fun _ => ?_
    rw [Finset.mem_map_equiv, ← hπ, Equiv.symm_apply_apply]
  have hsum : ∑ q ∈ P, c q = nb * (Finset.univ.filter fun d : Fin T → Fin N × Fin N => ∃ G, community N a (withDraws r d) T lt = .ok (some G)).card := by
    have e1 : ∀ q, c q = ∑ d : Fin T → Fin N × Fin N, if ∃ G, community N a (withDraws r d) T lt = .ok (some G) ∧ q ∈ crossEdges G then 1 else 0 := fun q => by
      show Finset.card _ = _
      rw [Finset.card_filter]
    simp only [e1]
    rw [Finset.sum_comm, Finset.card_filter, Finset.mul_sum]
    refine Finset.sum_congr rfl fun d _ => ?_
    by_cases hd : ∃ G, community N a (withDraws r d) T lt = .ok (some G)
    · obtain ⟨G, hG⟩ := hd
      have hwd : G.worldDensity = a.worldDensity.getD (1 / (N : ℝ)) := (community_spec heps (draws_spec hr d) hG).2.2.1
      have hcc := cross_card heps (draws_spec hr d) hN hG (by rw [hwd]; exact hw)
      rw [hL d G hG, hwd, ← hP, ← hnb] at hcc
      rw [if_pos ⟨G, hG⟩, mul_one, ← hcc]
      have e2 : ∀ q, (∃ G, community N a (withDraws r d) T lt = .ok (some G) ∧ q ∈ crossEdges G) ↔ q ∈ crossEdges G := fun q =>
        ⟨fun ⟨G', h1, h2⟩ => by obtain rfl := Option.some.inj (Except.ok.inj (h1.symm.trans hG)); exact h2, fun h => ⟨G, hG, h⟩⟩
      simp only [e2]
      rw [← Finset.card_filter]
      congr 1
      ext q
      rw [Finset.mem_filter]
      refine ⟨fun h => h.2, fun h => ⟨?_, h⟩⟩
      have := (Finset.mem_filter.1 h).1
      rwa [hL d G hG] at this
    · rw [if_neg hd, mul_zero]
      refine Finset.sum_eq_zero fun q _ => if_neg ?_
      rintro ⟨G, hG, -⟩
      exact hd ⟨G, hG⟩
  rw [Finset.sum_congr rfl hcq, Finset.sum_const, smul_eq_mul] at hsum
  rw [← hsum]
  congr 2
  refine Finset.filter_congr fun d _ => exists_congr fun G => and_congr_right fun hG => ?_
  unfold crossEdges
  rw [Finset.mem_filter, hL d G hG]
  exact ⟨fun h => ⟨hp, h⟩, fun h => h.2⟩

namespace CommunityDraws

theorem shuffle_spec {r : CommunityRng} (hr : r.Spec N) (k : ℕ) {M : ℕ} (σ : Equiv.Perm (Fin M)) : (withShuffle r k σ).Spec N where
  choice_length := hr.choice_length
  choice_lt := hr.choice_lt
  uniform_length := hr.uniform_length
  uniform_range := hr.uniform_range
  perm_perm := fun i m => by
    unfold withShuffle
    simp only
    split
    · rename_i h
      rw [h.2]
      have h1 := (Equiv.Perm.map_finRange_perm σ).map fun j : Fin M => j.1
      rw [List.map_map, List.map_coe_finRange_eq_range] at h1
      exact h1
    · exact hr.perm_perm i m
  point_lt := hr.point_lt
  pairs_nodup := hr.pairs_nodup
  pairs_mem := hr.pairs_mem

/-- the graph can be built from any other list of pairs -/
theorem rebuild {a : CommunityArgs} (heps : ∀ e, a.epsilon = some e → 0 ≤ e) {r : CommunityRng} (hr : r.Spec N) {fuel : ℕ} {lt : LapType} {G : Community N}
    (h : community N a r fuel lt = .ok (some G)) {P : List (ℕ × ℕ)} (hP : ∀ e ∈ P, e.1 < N ∧ e.2 < N) :
    ∃ g, ofEdges N (bothWays (intraAll a G.epsilon r G.coords 0 0 G.sizes ++ P)) lt = .ok g := by
  obtain ⟨-, -, -, -, -, -, -, -, -, -, -, -, -, -, -, -, -, inter0, i0, -, hg0, -⟩ := community_spec heps hr h
  obtain ⟨inter1, -, -, -, hnc, -, -, -, hbd, -⟩ := community_pairs heps hr h
  have hall : intraAll a G.epsilon r G.coords 0 0 G.sizes =
      (List.range G.nc).flatMap fun c : ℕ => intraPairs a G.epsilon r G.coords c (G.sizes.take c).sum (G.sizes.getD c 0) := by
    rw [intraAll_eq, hnc]
    simp only [Nat.zero_add]
  have hb : ∀ e ∈ intraAll a G.epsilon r G.coords 0 0 G.sizes, e.1 < N ∧ e.2 < N := by
    intro e he
    rw [hall] at he
    have := hbd (key e) (List.mem_map_of_mem (List.mem_append_left _ he))
    exact ⟨this _ (Sym2.mem_mk_left _ _), this _ (Sym2.mem_mk_right _ _)⟩
  have both : ∀ L : List (ℕ × ℕ), (∀ p ∈ L, p.1 < N ∧ p.2 < N) → ∀ e ∈ bothWays L, e.1 < N ∧ e.2.1 < N := by
    intro L hL e he'
    unfold bothWays at he'
    have := mem_ones he'
    simp only [List.mem_append, List.mem_map] at this
    constructor
    · rcases this.1 with ⟨p, hp, h⟩ | ⟨p, hp, h⟩ <;> rw [← h] <;> [exact (hL p hp).1; exact (hL p hp).2]
    · rcases this.2 with ⟨p, hp, h⟩ | ⟨p, hp, h⟩ <;> rw [← h] <;> [exact (hL p hp).2; exact (hL p hp).1]
  have hl : lt = .combinatorial ∨ lt = .normalized := by
    rcases lt with _ | _ | name
    · exact Or.inl rfl
    · exact Or.inr rfl
    · exfalso
      rw [ofEdges_unknown (both _ fun e he => (List.mem_append.1 he).elim (hb e) (i0.lt e))] at hg0
      cases hg0
  obtain ⟨g, hg, -⟩ := ofEdges_ok (both (intraAll a G.epsilon r G.coords 0 0 G.sizes ++ P) fun e he => (List.mem_append.1 he).elim (hb e) (hP e)) hl
  exact ⟨g, hg⟩

/-- the list `all_points` -/
theorem cross_allPoints {a : CommunityArgs} (heps : ∀ e, a.epsilon = some e → 0 ≤ e) {r : CommunityRng} (hr : r.Spec N) {fuel : ℕ} {lt : LapType} {G : Community N}
    (h : community N a r fuel lt = .ok (some G)) : G.sizes.length = G.nc ∧ G.sizes.sum = N ∧
    (∀ q ∈ allPoints G.nc G.sizes, q.2 < q.1 ∧ q.1 < N) ∧ ∀ p : Fin N × Fin N, p ∈ crossPairs N G.nodeCom ↔ (p.2.1, p.1.1) ∈ allPoints G.nc G.sizes := by
  obtain ⟨-, -, -, -, -, -, -, -, hsz, hbl, hlen, -⟩ := community_spec heps hr h
  have hnc : G.sizes.length = G.nc := by rw [hsz]; simp
  have hsum : G.sizes.sum = N := by rw [← blocks_length, ← hbl, hlen]
  rw [← hnc]
  refine ⟨rfl, hsum, fun q hq => ?_, ?_⟩
  · have := allPoints_spec hsum hq
    exact ⟨this.1, this.2.1⟩
  rintro ⟨u, v⟩
  unfold crossPairs
  simp only [Finset.mem_filter, Finset.mem_univ, true_and]
  constructor
  · intro huv
    rw [mem_allPoints]
    obtain ⟨ci, ki, a1, a2, a3⟩ := blocks_exists G.sizes (v := u.1) (u.2.trans_eq hsum.symm)
    obtain ⟨cj, kj, b1, b2, b3⟩ := blocks_exists G.sizes (v := v.1) (v.2.trans_eq hsum.symm)
    have hne := huv.2
    have e1 : G.nodeCom.getD u.1 0 = ci := by rw [hbl, a3]; exact blocks_get _ a1 a2
    have e2 : G.nodeCom.getD v.1 0 = cj := by rw [hbl, b3]; exact blocks_get _ b1 b2
    rw [e1, e2] at hne
    refine ⟨ci, cj, kj, ki, ?_, b1, b2, a2, by rw [a3, b3]⟩
    by_contra hle
    have hlt : cj < ci := by omega
    have := start_le (G.sizes.take ci) (c := cj) (by simp; omega)
    rw [List.take_take, Nat.min_eq_left hlt.le] at this
    have e : (G.sizes.take ci).getD cj 0 = G.sizes.getD cj 0 := by
      rw [List.getD_eq_getElem _ _ (by simp; omega), List.getD_eq_getElem _ _ (by omega), List.getElem_take]
    rw [e] at this
    have := Fin.lt_def.1 huv.1
    omega
  · intro hm
    have := allPoints_spec hsum hm
    refine ⟨this.1, ?_⟩
    rw [hbl]
    exact fun hc => this.2.2 hc.symm

/-- Every shuffle gives a graph, with the same communities, whose edges between them are the first pairs of the shuffled list. -/
theorem shuffle_run {a : CommunityArgs} (heps : ∀ e, a.epsilon = some e → 0 ≤ e) {r : CommunityRng} (hr : r.Spec N) {fuel : ℕ} {lt : LapType} {k M : ℕ} {σ0 : Equiv.Perm (Fin M)}
    {G0 : Community N} (h0 : community N a (withShuffle r k σ0) fuel lt = .ok (some G0)) (hk : k = G0.nc) (hM : M = (crossPairs N G0.nodeCom).card)
    (hw : 35 / 100 ≤ G0.worldDensity) : ∃ (f : Fin M → Fin N × Fin N) (J : Finset (Fin M)), Function.Injective f ∧ (∀ p, p ∈ crossPairs N G0.nodeCom ↔ ∃ e, f e = p) ∧
    ∀ σ : Equiv.Perm (Fin M), ∃ G, community N a (withShuffle r k σ) fuel lt = .ok (some G) ∧ crossEdges G = J.image fun j => f (σ j) := by
  have hs0 := shuffle_spec hr k σ0
  obtain ⟨hnc, hsum, hap, hcp⟩ := cross_allPoints heps hs0 h0
  set A := allPoints G0.nc G0.sizes with hA
  have hnd : A.Nodup := by rw [hA, ← hnc]; exact nodup_allPoints _
  have hlen : A.length = M := by
    rw [hM, ← List.toFinset_card_of_nodup hnd]
    symm
    refine Finset.card_bij (fun p _ => (p.2.1, p.1.1)) (fun p hp => List.mem_toFinset.2 ((hcp p).1 hp)) (fun p _ q _ he => ?_) fun q hq => ?_
    · exact Prod.ext (Fin.ext (congrArg Prod.snd he)) (Fin.ext (congrArg Prod.fst he))
    · have hq := List.mem_toFinset.1 hq
      obtain ⟨a1, a2⟩ := hap q hq
      exact ⟨(⟨q.2, a1.trans a2⟩, ⟨q.1, a2⟩), (hcp _).2 hq, rfl⟩
  have hget : ∀ e : Fin M, A.getD e.1 (0, 0) ∈ A := fun e => by
    rw [List.getD_eq_getElem _ _ (by rw [hlen]; exact e.2)]
    exact List.getElem_mem _
  let f : Fin M → Fin N × Fin N := fun e => (⟨(A.getD e.1 (0, 0)).2, (hap _ (hget e)).1.trans (hap _ (hget e)).2⟩, ⟨(A.getD e.1 (0, 0)).1, (hap _ (hget e)).2⟩)
  set nb := ⌊G0.worldDensity * (((N : ℝ) ^ 2 - ((G0.sizes.map fun x : ℕ => x ^ 2).sum : ℕ)) / 2)⌋₊ with hnb
  have hfl : ⌊((N : ℝ) ^ 2 - ((G0.sizes.map fun x : ℕ => x ^ 2).sum : ℕ)) / 2⌋₊ = M := by
    rw [(floor_cross hsum).1, hnc, ← hA, hlen]
  have hfi : Function.Injective f := fun e e' he => by
    have h1 : A.getD e.1 (0, 0) = A.getD e'.1 (0, 0) := Prod.ext (congrArg (fun p => p.2.1) he) (congrArg (fun p => p.1.1) he)
    rw [List.getD_eq_getElem _ _ (by rw [hlen]; exact e.2), List.getD_eq_getElem _ _ (by rw [hlen]; exact e'.2)] at h1
    exact Fin.ext ((List.Nodup.getElem_inj_iff hnd).1 h1)
  have hfr : ∀ p, p ∈ crossPairs N G0.nodeCom ↔ ∃ e, f e = p := fun p => by
    rw [hcp]
    constructor
    · intro hm
      obtain ⟨n, hn, he⟩ := List.getElem_of_mem hm
      refine ⟨⟨n, hlen ▸ hn⟩, ?_⟩
      have h1 : A.getD n (0, 0) = (p.2.1, p.1.1) := by rw [List.getD_eq_getElem _ _ hn, he]
      exact Prod.ext (Fin.ext (by show (A.getD n (0, 0)).2 = _; rw [h1])) (Fin.ext (by show (A.getD n (0, 0)).1 = _; rw [h1]))
    · rintro ⟨e, rfl⟩
      exact hget e
  refine ⟨f, Finset.univ.filter fun j => j.1 < nb, hfi, hfr, fun σ => ?_⟩
  have hnw : ¬ G0.worldDensity < 35 / 100 := not_lt.2 hw
  set P : List (ℕ × ℕ) := (((List.finRange M).map fun j => (σ j).1).take nb).map fun e => A.getD e (0, 0) with hPdef
  have hind : ∀ e ∈ ((List.finRange M).map fun j => (σ j).1).take nb, ∃ j : Fin M, j.1 < nb ∧ (σ j).1 = e := fun e he => by
    rw [← List.map_take] at he
    obtain ⟨j, hj, rfl⟩ := List.mem_map.1 he
    refine ⟨j, ?_, rfl⟩
    obtain ⟨n, hn, hjn⟩ := List.getElem_of_mem hj
    rw [List.getElem_take, List.getElem_finRange] at hjn
    rw [List.length_take] at hn
    rw [← hjn]
    simp only [Fin.val_cast]
    omega
  have hind' : ∀ j : Fin M, j.1 < nb → (σ j).1 ∈ ((List.finRange M).map fun j => (σ j).1).take nb := fun j hj => by
    rw [← List.map_take]
    refine List.mem_map.2 ⟨j, ?_, rfl⟩
    rw [List.mem_take_iff_getElem]
    exact ⟨j.1, by rw [List.length_finRange, lt_min_iff]; exact ⟨hj, j.2⟩, by simp⟩
  have hPm : ∀ q, q ∈ P ↔ ∃ j : Fin M, j.1 < nb ∧ q = ((f (σ j)).2.1, (f (σ j)).1.1) := fun q => by
    rw [hPdef, List.mem_map]
    constructor
    · rintro ⟨e, he, rfl⟩
      obtain ⟨j, hj, rfl⟩ := hind e he
      exact ⟨j, hj, rfl⟩
    · rintro ⟨j, hj, rfl⟩
      exact ⟨_, hind' j hj, rfl⟩
  have hint : interPairs N G0.nc G0.worldDensity G0.nodeCom G0.sizes (withShuffle r k σ) fuel = .ok (some P) := by
    unfold interPairs
    simp only
    rw [if_neg hnw, ← hA, hfl, ← hnb]
    have e : (withShuffle r k σ).perm G0.nc M = (List.finRange M).map fun j => (σ j).1 := by
      unfold withShuffle
      simp only
      rw [if_pos (by rw [hk]; simp)]
    rw [e, if_pos]
    intro e he
    obtain ⟨j, -, rfl⟩ := hind e he
    rw [hlen]
    exact (σ j).2
  have hia : intraAll a G0.epsilon (withShuffle r k σ) G0.coords 0 0 G0.sizes = intraAll a G0.epsilon (withShuffle r k σ0) G0.coords 0 0 G0.sizes := by
    rw [intraAll_eq, intraAll_eq, hnc]
    refine List.flatMap_congr fun c hc => ?_
    have hck : 0 + c ≠ k := by rw [hk]; have := List.mem_range.1 hc; omega
    unfold intraPairs withShuffle
    simp only [hck, false_and, if_false]
  obtain ⟨g, hg⟩ := rebuild heps hs0 h0 (P := P) fun e he => by
    obtain ⟨j, -, rfl⟩ := (hPm e).1 he
    exact ⟨(f (σ j)).2.2, (f (σ j)).1.2⟩
  have hrun : community N a (withShuffle r k σ) fuel lt = .ok (some { G0 with graph := g }) := redraw (r := withShuffle r k σ0) (r' := withShuffle r k σ) rfl rfl h0 hint (by rw [hia]; exact hg)
  refine ⟨_, hrun, ?_⟩
  obtain ⟨inter, -, -, -, -, -, hlab, -, -, -, hW, hi⟩ := community_pairs heps (shuffle_spec hr k σ) hrun
  have : inter = P := Option.some.inj (Except.ok.inj (hi.symm.trans hint))
  rw [this] at hW
  have hPs : ∀ q ∈ P, q.2 < q.1 := fun q hq => by
    obtain ⟨j, -, hj⟩ := (hPm _).1 hq
    rw [hj]
    exact (hap _ (hget (σ j))).1
  ext p
  unfold crossEdges
  rw [Finset.mem_filter, hW, Finset.mem_image]
  constructor
  · rintro ⟨hp, hw⟩
    obtain ⟨-, hlt, hne⟩ := Finset.mem_filter.1 hp
    rw [ne_eq, ite_eq_right_iff, Classical.not_imp] at hw
    obtain ⟨e, he, hke⟩ := List.mem_map.1 hw.1
    rcases List.mem_append.1 he with he | he
    · obtain ⟨c, hc, he⟩ := List.mem_flatMap.1 he
      have h2 := hlab c (List.mem_range.1 hc) e he
      rcases Sym2.eq_iff.1 hke with hk | hk
      · rw [← hk.1, ← hk.2, h2.1, h2.2] at hne; exact absurd rfl hne
      · rw [← hk.1, ← hk.2, h2.1, h2.2] at hne; exact absurd rfl hne
    · have h3 := hPs e he
      obtain ⟨j, hj, rfl⟩ := (hPm e).1 he
      refine ⟨j, Finset.mem_filter.2 ⟨Finset.mem_univ _, hj⟩, ?_⟩
      rcases Sym2.eq_iff.1 hke with hk | hk
      · rw [hk.1, hk.2] at h3
        exact absurd (show p.1.1 < p.2.1 from hlt) (by omega)
      · exact Prod.ext (Fin.ext hk.2) (Fin.ext hk.1)
  · rintro ⟨j, hj, rfl⟩
    have hj := (Finset.mem_filter.1 hj).2
    refine ⟨(hfr _).2 ⟨_, rfl⟩, ?_⟩
    rw [if_pos]
    · exact one_ne_zero
    · refine List.mem_map.2 ⟨((f (σ j)).2.1, (f (σ j)).1.1), List.mem_append_right _ ((hPm _).2 ⟨j, hj, rfl⟩), ?_⟩
      exact Sym2.eq_swap

end CommunityDraws

/-- **C151** With `world_density` at least 0.35, where the pairs are shuffled, the edges between the communities are uniformly distributed too: whatever the other random numbers, as many
permutations give one set of edges as any other set of the same size. -/
theorem C151_shuffle {a : CommunityArgs} (heps : ∀ e, a.epsilon = some e → 0 ≤ e) {r : CommunityRng} (hr : r.Spec N) {fuel : ℕ} {lt : LapType} {k M : ℕ} {σ0 : Equiv.Perm (Fin M)}
    {G0 : Community N} (h0 : community N a (withShuffle r k σ0) fuel lt = .ok (some G0)) (hk : k = G0.nc) (hM : M = (crossPairs N G0.nodeCom).card)
    (hw : 35 / 100 ≤ G0.worldDensity) {S S' : Finset (Fin N × Fin N)} (hS : S ⊆ crossPairs N G0.nodeCom) (hS' : S' ⊆ crossPairs N G0.nodeCom) (hc : S.card = S'.card) :
    (Finset.univ.filter fun σ : Equiv.Perm (Fin M) => ∃ G, community N a (withShuffle r k σ) fuel lt = .ok (some G) ∧ crossEdges G = S).card =
    (Finset.univ.filter fun σ : Equiv.Perm (Fin M) => ∃ G, community N a (withShuffle r k σ) fuel lt = .ok (some G) ∧ crossEdges G = S').card := by
  obtain ⟨f, J, hf, hr', hrun⟩ := shuffle_run heps hr h0 hk hM hw
  have key : ∀ R : Finset (Fin N × Fin N), ∀ σ : Equiv.Perm (Fin M), (∃ G, community N a (withShuffle r k σ) fuel lt = .ok (some G) ∧ crossEdges G = R) ↔ (J.image fun j => f (σ j)) = R := fun R σ => by
    obtain ⟨G, h1, h2⟩ := hrun σ
    constructor
    · rintro ⟨G', h3, h4⟩
      obtain rfl := Option.some.inj (Except.ok.inj (h1.symm.trans h3))
      rw [← h2, h4]
    · intro h
      exact ⟨G, h1, by rw [h2, h]⟩
  simp only [key]
  have hpre : ∀ R : Finset (Fin N × Fin N), R ⊆ crossPairs N G0.nodeCom → (Finset.univ.filter fun e => f e ∈ R).image f = R := fun R hR => by
    ext p
    rw [Finset.mem_image]
    constructor
    · rintro ⟨e, he, rfl⟩; exact (Finset.mem_filter.1 he).2
    · intro hp
      obtain ⟨e, rfl⟩ := (hr' p).1 (hR hp)
      exact ⟨e, Finset.mem_filter.2 ⟨Finset.mem_univ _, hp⟩, rfl⟩
  have hcard : ∀ R : Finset (Fin N × Fin N), R ⊆ crossPairs N G0.nodeCom → (Finset.univ.filter fun e => f e ∈ R).card = R.card := fun R hR => by
    conv_rhs => rw [← hpre R hR]
    rw [Finset.card_image_of_injective _ hf]
  obtain ⟨τ, -, hτ⟩ := exists_perm (P := Finset.univ) (Finset.subset_univ (Finset.univ.filter fun e => f e ∈ S)) (Finset.subset_univ (Finset.univ.filter fun e => f e ∈ S'))
    (by rw [hcard S hS, hcard S' hS', hc])
  have hτ' : (Finset.univ.filter fun e => f e ∈ S').map τ⁻¹.toEmbedding = Finset.univ.filter fun e => f e ∈ S := by
    rw [← hτ, Finset.map_map]
    ext e
    simp
  have im : ∀ (R : Finset (Fin N × Fin N)) (σ : Equiv.Perm (Fin M)), R ⊆ crossPairs N G0.nodeCom → ((J.image fun j => f (σ j)) = R ↔ J.map σ.toEmbedding = Finset.univ.filter fun e => f e ∈ R) := fun R σ hR => by
    have e : (J.image fun j => f (σ j)) = (J.map σ.toEmbedding).image f := by
      rw [Finset.map_eq_image, Finset.image_image]; rfl
    rw [e]
    conv_lhs => rw [← hpre R hR]
    exact (Finset.image_injective hf).eq_iff
  refine Finset.card_nbij' (fun σ => τ * σ) (fun σ => τ⁻¹ * σ) ?_ ?_ ?_ ?_
  · intro σ hσ
    simp only [Finset.coe_filter, Finset.mem_univ, true_and, Set.mem_setOf_eq] at hσ ⊢
    rw [im S σ hS] at hσ
    rw [im S' _ hS', ← hτ, ← hσ, Finset.map_map]
    rfl
  · intro σ hσ
    simp only [Finset.coe_filter, Finset.mem_univ, true_and, Set.mem_setOf_eq] at hσ ⊢
    rw [im S' σ hS'] at hσ
    rw [im S _ hS, ← hτ', ← hσ, Finset.map_map]
    rfl
  · intro σ _; simp
  · intro σ _; simp

/-- A concrete case: communities of sizes 2 and 3, with the default density: among the six pairs, one is linked. -/
example : ∃ (r : CommunityRng) (T : ℕ) (d : Fin T → Fin 5 × Fin 5) (G : Community 5), r.Spec 5 ∧
    community 5 { nc := some 2, commSizes := some [2, 3], minComm := some 1, commDensity := some 1 } (withDraws r d) T .combinatorial = .ok (some G) := by
  obtain ⟨r, hr, hall⟩ := exists_communityRng 5
  obtain ⟨T, G, h⟩ := C78_returns (a := { nc := some 2, commSizes := some [2, 3], minComm := some 1, commDensity := some 1 }) (nc := 2) (mc := 1) (wd := 1 / 5) (lt := .combinatorial)
    (by norm_num) rfl rfl (by norm_num) rfl (by norm_num) (by norm_num) (by norm_num) (by norm_num)
    (by intro s hs; obtain rfl := Option.some.inj hs; exact ⟨rfl, rfl, by simp⟩) (by simp) (by intro d hd; obtain rfl := Option.some.inj hd; norm_num) (by simp) (by simp) hr (fun _ => hall) (Or.inl rfl)
  obtain ⟨d, -, hd⟩ := C151_draws (by simp) hr (by norm_num) h
  exact ⟨r, T, d, G, hr, hd⟩

/-- The same communities with density 1/2: the pairs are shuffled. -/
example : ∃ (r : CommunityRng) (M : ℕ) (σ : Equiv.Perm (Fin M)) (T : ℕ) (G : Community 5), r.Spec 5 ∧
    community 5 { nc := some 2, commSizes := some [2, 3], minComm := some 1, commDensity := some 1, worldDensity := some (1 / 2) } (withShuffle r 2 σ) T .combinatorial = .ok (some G) ∧
    2 = G.nc ∧ M = (crossPairs 5 G.nodeCom).card ∧ 35 / 100 ≤ G.worldDensity := by
  obtain ⟨r, hr, -⟩ := exists_communityRng 5
  have hs := shuffle_spec hr 2 (1 : Equiv.Perm (Fin (crossPairs 5 (blocks [2, 3])).card))
  obtain ⟨T, G, h⟩ := C78_returns (a := { nc := some 2, commSizes := some [2, 3], minComm := some 1, commDensity := some 1, worldDensity := some (1 / 2) }) (nc := 2) (mc := 1) (wd := 1 / 2)
    (lt := .combinatorial) (by norm_num) rfl rfl (by norm_num) rfl (by norm_num) (by norm_num) (by norm_num) (by norm_num)
    (by intro s hs; obtain rfl := Option.some.inj hs; exact ⟨rfl, rfl, by simp⟩) (by simp) (by intro d hd; obtain rfl := Option.some.inj hd; norm_num) (by simp) (by simp) hs
    (fun h => absurd h (by norm_num)) (Or.inl rfl)
  obtain ⟨h1, -, h3, -, -, -, -, -, -, hb, -, -, hsz, -⟩ := community_spec (by simp) hs h
  refine ⟨r, _, 1, T, G, hr, h, ?_, ?_, ?_⟩
  · rw [h1]; rfl
  · rw [hb, hsz [2, 3] rfl]
  · rw [h3]; norm_num

end PyGSP.Gen
