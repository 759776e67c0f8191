import Verif.Lemmas.Edges
import Verif.Model.Subgraph

namespace PyGSP

variable {n m : ℕ} {K R : Type}

namespace Sp

theorem mem_fancyIndex (A : Sp n m K) (rows : List (Fin n)) (cols : List (Fin m)) (a b v) :
    (a, b, v) ∈ (A.fancyIndex rows cols).entries ↔ (rows.get a, cols.get b, v) ∈ A.entries := by
  simp only [fancyIndex, List.mem_flatMap, List.mem_map, List.mem_filter, List.mem_finRange, true_and,
    decide_eq_true_eq]
  constructor
  · rintro ⟨a', b', e, ⟨he, h1, h2⟩, h3⟩
    simp only [Prod.mk.injEq] at h3
    obtain ⟨rfl, rfl, rfl⟩ := h3
    rw [← h1, ← h2]; exact he
  · intro h
    exact ⟨a, b, _, ⟨h, rfl, rfl⟩, rfl⟩

theorem dense_flatMap [AddMonoid K] {ι : Type*} (l : List ι) (f : ι → List (Fin n × Fin m × K)) (i j) :
    (⟨l.flatMap f⟩ : Sp n m K).dense i j = (l.map fun x => (⟨f x⟩ : Sp n m K).dense i j).sum := by
  induction l with
  | nil => rfl
  | cons x l ih => rw [List.flatMap_cons, dense_append, ih, List.map_cons, List.sum_cons]

theorem sum_map_finRange_single [AddMonoid K] (k : ℕ) (a : Fin k) (f : Fin k → K)
    (h : ∀ b, b ≠ a → f b = 0) : ((List.finRange k).map f).sum = f a := by
  have hnd := List.nodup_finRange k
  have hmem := List.mem_finRange a
  generalize List.finRange k = l at hnd hmem
  induction l with
  | nil => simp at hmem
  | cons x l ih =>
    rw [List.map_cons, List.sum_cons]
    rw [List.nodup_cons] at hnd
    rcases List.mem_cons.1 hmem with rfl | hm
    · have : (l.map f).sum = 0 := by
        apply List.sum_eq_zero
        intro y hy
        rw [List.mem_map] at hy
        obtain ⟨b, hb, rfl⟩ := hy
        apply h
        rintro rfl
        exact hnd.1 hb
      rw [this, add_zero]
    · have : x ≠ a := by rintro rfl; exact hnd.1 hm
      rw [h x this, zero_add, ih hnd.2 hm]

theorem dense_fancyIndex [AddMonoid K] (A : Sp n m K) (rows : List (Fin n)) (cols : List (Fin m)) (a b) :
    (A.fancyIndex rows cols).dense a b = A.dense (rows.get a) (cols.get b) := by
  unfold fancyIndex
  rw [dense_flatMap, sum_map_finRange_single _ a, dense_flatMap, sum_map_finRange_single _ b]
  · unfold dense
    rw [List.filter_map, List.map_map, List.filter_filter]
    simp [Function.comp_def]
  · intro b' hb
    unfold dense
    rw [List.filter_map]
    simp [hb]
  · intro a' ha
    rw [dense_flatMap]
    apply List.sum_eq_zero
    intro y hy
    rw [List.mem_map] at hy
    obtain ⟨b', _, rfl⟩ := hy
    unfold dense
    rw [List.filter_map]
    simp [ha]

theorem Canonical.fancyIndex {A : Sp n m K} (h : A.Canonical) (rows : List (Fin n)) (cols : List (Fin m)) :
    (A.fancyIndex rows cols).Canonical := by
  unfold Canonical keys at *
  unfold Sp.fancyIndex
  simp only
  rw [List.map_flatMap, List.nodup_flatMap]
  constructor
  · intro a _
    rw [List.map_flatMap, List.nodup_flatMap]
    constructor
    · intro b _
      rw [List.map_map]
      -- at most one stored entry at that position
      have h1 : (A.entries.filter (fun e => e.1 = rows.get a ∧ e.2.1 = cols.get b)).length ≤ 1 := by
        by_contra hc
        push Not at hc
        have h2 : ((A.entries.filter (fun e => e.1 = rows.get a ∧ e.2.1 = cols.get b)).map
            (fun e => (e.1, e.2.1))).Nodup :=
          List.Nodup.sublist (List.Sublist.map _ List.filter_sublist) h
        have h3 : ((A.entries.filter (fun e => e.1 = rows.get a ∧ e.2.1 = cols.get b)).map
            (fun e => (e.1, e.2.1))) = List.replicate (A.entries.filter (fun e => e.1 = rows.get a ∧ e.2.1 = cols.get b)).length (rows.get a, cols.get b) := by
          rw [List.eq_replicate_iff]
          refine ⟨by simp, ?_⟩
          intro x hx
          simp only [List.mem_map, List.mem_filter, decide_eq_true_eq] at hx
          obtain ⟨e, ⟨_, h4, h5⟩, rfl⟩ := hx
          rw [h4, h5]
        rw [h3, List.nodup_replicate] at h2
        omega
      match hl : A.entries.filter (fun e => e.1 = rows.get a ∧ e.2.1 = cols.get b) with
      | [] => rw [hl]; simp
      | [x] => rw [hl]; simp
      | _ :: _ :: _ => rw [hl] at h1; simp at h1
    · apply List.Nodup.pairwise_of_forall_ne (List.nodup_finRange _)
      intro b _ b' _ hb
      rw [Function.onFun, List.disjoint_left]
      intro x hx hy
      simp only [List.mem_map, List.map_map, Function.comp] at hx hy
      obtain ⟨_, _, rfl⟩ := hx
      obtain ⟨_, _, h2⟩ := hy
      exact hb (Prod.mk.inj h2).2.symm
  · apply List.Nodup.pairwise_of_forall_ne (List.nodup_finRange _)
    intro b _ b' _ hb
    rw [Function.onFun, List.disjoint_left]
    intro x hx hy
    simp only [List.mem_map, List.mem_flatMap] at hx hy
    obtain ⟨_, ⟨_, _, _, _, rfl⟩, rfl⟩ := hx
    obtain ⟨_, ⟨_, _, _, _, rfl⟩, h2⟩ := hy
    exact hb (Prod.mk.inj h2).1.symm

end Sp

/-- dictionary lookup -/
def dictGet {V : Type*} (d : List (String × V)) (k : String) : Option V :=
  (d.find? (fun p => p.1 = k)).map Prod.snd

theorem dictGet_map_ne {V : Type*} (l : List (String × V)) (name k : String) (x : V) (hk : k ≠ name) :
    dictGet (l.map fun p => if p.1 = name then (name, x) else p) k = dictGet l k := by
  unfold dictGet
  induction l with
  | nil => rfl
  | cons p l ih =>
    rw [List.map_cons, List.find?_cons, List.find?_cons]
    by_cases hp : p.1 = name
    · have h3 : p.1 ≠ k := by rw [hp]; exact hk.symm
      simpa [hp, hk.symm] using ih
    · by_cases h5 : p.1 = k
      · simp [h5, hk]
      · simpa [hp, h5] using ih

theorem dictGet_map_self {V : Type*} (l : List (String × V)) (name : String) (x : V)
    (h : l.any (fun p => p.1 = name) = true) :
    dictGet (l.map fun p => if p.1 = name then (name, x) else p) name = some x := by
  unfold dictGet
  induction l with
  | nil => simp at h
  | cons p l ih =>
    rw [List.map_cons, List.find?_cons]
    by_cases hp : p.1 = name
    · simp [hp]
    · have h2 : l.any (fun p => p.1 = name) = true := by
        simpa only [List.any_cons, hp, decide_false, Bool.false_or] using h
      simpa [hp] using ih h2

theorem dictGet_dictSet_self {V : Type*} (l : List (String × V)) (name : String) (x : V) :
    dictGet (dictSet l name x) name = some x := by
  unfold dictSet
  split
  · rename_i h; exact dictGet_map_self l name x h
  · rename_i h
    unfold dictGet
    rw [List.find?_append]
    have : l.find? (fun p => p.1 = name) = none := by
      rw [List.find?_eq_none]
      intro p hp hn
      apply h
      rw [List.any_eq_true]
      exact ⟨p, hp, hn⟩
    rw [this]
    simp

theorem dictGet_dictSet_ne {V : Type*} (l : List (String × V)) (name k : String) (x : V) (hk : k ≠ name) :
    dictGet (dictSet l name x) k = dictGet l k := by
  unfold dictSet
  split
  · exact dictGet_map_ne l name k x hk
  · unfold dictGet
    rw [List.find?_append]
    simp [List.find?_cons, hk.symm]

theorem setSignals_foldlM {R : Type} {k : ℕ} (l : List (String × (Fin k → R))) (o : GraphObj k K R)
    (hl : (o.signals.map Prod.fst ++ l.map Prod.fst).Nodup) :
    l.foldlM (fun o p => o.setSignal ⟨k, fun a => p.2 a⟩ p.1) o
      = .ok { o with signals := o.signals ++ l } := by
  induction l generalizing o with
  | nil => simp; rfl
  | cons p l ih =>
    rw [List.foldlM_cons]
    have h1 : o.setSignal ⟨k, fun a => p.2 a⟩ p.1 = .ok { o with signals := o.signals ++ [p] } := by
      unfold GraphObj.setSignal checkSignal
      rw [dif_pos rfl]
      have : dictSet o.signals p.1 (fun i => p.2 i) = o.signals ++ [p] := by
        unfold dictSet
        rw [if_neg]
        intro hc
        simp only [List.any_eq_true, decide_eq_true_eq] at hc
        obtain ⟨q, hq, hqp⟩ := hc
        rw [List.nodup_append] at hl
        exact hl.2.2 q.1 (List.mem_map.2 ⟨q, hq, rfl⟩) p.1 (by simp) hqp
      show Except.ok _ = _
      congr 2
    rw [h1]
    show List.foldlM _ _ l = _
    rw [ih]
    · simp
    · simpa using hl

theorem subgraph_eq [Field K] [LinearOrder K] (g : GraphObj n K R) (v : VSel n)
    (hs : (g.signals.map Prod.fst).Nodup)
    (hlt : g.graph.lapType = .combinatorial ∨ g.graph.lapType = .normalized) :
    ∃ g', Graph.ofCsr (g.graph.W.fancyIndex v.toList v.toList) g.graph.lapType = .ok g' ∧
    g.subgraph v = .ok ⟨g', g.coords.map (fun c a => c (v.toList.get a)),
      g.signals.map (fun p => (p.1, fun a => p.2 (v.toList.get a)))⟩ := by
  obtain ⟨g', hg⟩ : ∃ g', Graph.ofCsr (g.graph.W.fancyIndex v.toList v.toList) g.graph.lapType = .ok g' := by
    rcases hlt with h | h <;> rw [h] <;> exact ⟨_, rfl⟩
  refine ⟨g', hg, ?_⟩
  unfold GraphObj.subgraph
  simp only
  rw [hg]
  show List.foldlM _ _ _ = _
  have := setSignals_foldlM (K := K) (g.signals.map (fun p => (p.1, fun a => p.2 (v.toList.get a))))
    ⟨g', g.coords.map (fun c a => c (v.toList.get a)), []⟩
    (by simpa [List.map_map, Function.comp_def] using hs)
  rw [List.foldlM_map] at this
  simpa using this

end PyGSP
