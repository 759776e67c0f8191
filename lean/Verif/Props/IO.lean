import Verif.Model.IO
import Verif.Props.Signals
import Verif.Props.Generators

/-!
# C82, C83, C84: exchange with NetworkX and graph-tool, files
-/

namespace PyGSP.IO

open Matrix Spec Gen

/-! ## Weights -/

theorem weightAt_swap (l : List (ℕ × ℕ × ℝ)) (i j : ℕ) : weightAt (l.map fun e => (e.2.1, e.1, e.2.2)) i j = weightAt l j i := by
  unfold weightAt
  rw [List.map_map]
  refine congrArg List.sum (List.map_congr_left fun e _ => ?_)
  exact if_congr and_comm rfl rfl

theorem weightAt_loops (c : ℝ) (l : List (ℕ × ℕ × ℝ)) (i j : ℕ) :
    weightAt ((l.filter fun e => e.1 = e.2.1).map fun e => (e.1, e.1, c * e.2.2)) i j = if i = j then c * weightAt l i i else 0 := by
  induction l with
  | nil => simp [weightAt]
  | cons e l ih =>
    have hc : weightAt (e :: l) i i = (if e.1 = i ∧ e.2.1 = i then e.2.2 else 0) + weightAt l i i := by simp [weightAt]
    by_cases he : e.1 = e.2.1
    · rw [List.filter_cons_of_pos (by simpa using he), List.map_cons]
      have : ∀ r, weightAt ((e.1, e.1, c * e.2.2) :: r) i j = (if e.1 = i ∧ e.1 = j then c * e.2.2 else 0) + weightAt r i j := by
        intro r
        simp [weightAt]
      rw [this, ih, hc, ← he]
      by_cases hij : i = j
      · subst hij
        rw [if_pos rfl, if_pos rfl]
        split <;> ring
      · rw [if_neg hij, if_neg hij, if_neg (by rintro ⟨h1, h2⟩; exact hij (h1.symm.trans h2)), add_zero]
    · have h0 : ¬ (e.1 = i ∧ e.2.1 = i) := by
        rintro ⟨h1, h2⟩
        exact he (h1.trans h2.symm)
      rw [List.filter_cons_of_neg (by simpa using he), ih, hc, if_neg h0, zero_add]

theorem weightAt_noloops (l : List (ℕ × ℕ × ℝ)) (i j : ℕ) :
    weightAt (l.filter fun e => e.1 ≠ e.2.1) i j = if i = j then 0 else weightAt l i j := by
  induction l with
  | nil => simp [weightAt]
  | cons e l ih =>
    have hc : ∀ r, weightAt (e :: r) i j = (if e.1 = i ∧ e.2.1 = j then e.2.2 else 0) + weightAt r i j := by
      intro r
      simp [weightAt]
    by_cases he : e.1 = e.2.1
    · rw [List.filter_cons_of_neg (by simpa using he), ih, hc]
      by_cases hij : i = j
      · rw [if_pos hij, if_pos hij]
      · rw [if_neg hij, if_neg hij, if_neg (by rintro ⟨h1, h2⟩; exact hij (by rw [← h1, ← h2, he])), zero_add]
    · rw [List.filter_cons_of_pos (by simpa using he), hc, ih, hc]
      by_cases hij : i = j
      · rw [if_pos hij, if_pos hij, if_neg (by rintro ⟨h1, h2⟩; exact he (by rw [h1, h2, hij])), add_zero]
      · rw [if_neg hij, if_neg hij]

theorem weightAt_edgeNumbers {n : ℕ} (l : List (Fin n × Fin n × ℝ)) (i j : Fin n) :
    weightAt (edgeNumbers l) i.1 j.1 = (⟨l⟩ : Sp n n ℝ).dense i j := by
  induction l with
  | nil => simp [weightAt, edgeNumbers, Sp.dense]
  | cons e l ih =>
    rw [Sp.dense_cons, ← ih]
    simp only [weightAt, edgeNumbers, List.map_cons, List.sum_cons, Fin.val_inj]

theorem dense_triu {n : ℕ} (A : Sp n n ℝ) (i j : Fin n) : A.triu.dense i j = if i ≤ j then A.dense i j else 0 := by
  obtain ⟨l⟩ := A
  unfold Sp.triu
  simp only
  induction l with
  | nil => simp [Sp.dense]
  | cons e l ih =>
    by_cases he : e.1 ≤ e.2.1
    · rw [List.filter_cons_of_pos (by simpa using he), Sp.dense_cons, Sp.dense_cons, ih]
      by_cases hij : i ≤ j
      · rw [if_pos hij, if_pos hij]
      · rw [if_neg hij, if_neg hij, if_neg (by rintro ⟨rfl, rfl⟩; exact hij he), add_zero]
    · rw [List.filter_cons_of_neg (by simpa using he), Sp.dense_cons, ih]
      by_cases hij : i ≤ j
      · rw [if_pos hij, if_pos hij, if_neg (by rintro ⟨rfl, rfl⟩; exact he hij), zero_add]
      · rw [if_neg hij, if_neg hij]

/-- the edge list of a built graph -/
theorem edgeList_weights {n : ℕ} {g : Graph n ℝ} (hg : g.Built) :
    ∃ l, g.getEdgeList = .ok l ∧ ∀ i j : Fin n, weightAt (edgeNumbers l) i.1 j.1 =
      if isDirected g.W then g.W.dense i j else if i ≤ j then g.W.dense i j else 0 := by
  obtain ⟨l, hl, -⟩ := C04_edge_list g hg
  refine ⟨l, hl, fun i j => ?_⟩
  rw [weightAt_edgeNumbers]
  have hl' : l = (if isDirected g.W then g.W else g.W.triu).entries := by
    unfold Graph.getEdgeList at hl
    simp only at hl
    by_cases hc : g.nEdges = (if isDirected g.W then g.W else g.W.triu).entries.length
    · rw [if_pos hc] at hl
      exact (Except.ok.inj hl).symm
    · rw [if_neg hc] at hl
      cases hl
  subst hl'
  split
  · rfl
  · exact dense_triu g.W i j

theorem edgeNumbers_bound {n : ℕ} (l : List (Fin n × Fin n × ℝ)) : ∀ e ∈ edgeNumbers l, e.1 < n ∧ e.2.1 < n := by
  intro e he
  obtain ⟨e', -, rfl⟩ := List.mem_map.1 he
  exact ⟨e'.1.2, e'.2.1.2⟩

/-! ## Import of signals -/

theorem dget_dset {α : Type} (d : List (Name × α)) (k k' : Name) (v : α) : dget (dset d k v) k' = if k = k' then some v else dget d k' := by
  induction d with
  | nil => simp [dset, dget]
  | cons e d ih =>
    obtain ⟨k0, v0⟩ := e
    rw [dset]
    by_cases h : k0 = k
    · subst h
      rw [if_pos rfl, dget, dget]
      split <;> rfl
    · rw [if_neg h, dget, dget, ih]
      by_cases h' : k0 = k'
      · rw [if_pos h', if_pos h', if_neg (fun e => h (h'.trans e.symm))]
      · rw [if_neg h', if_neg h']

theorem dkeys_dset {α : Type} (d : List (Name × α)) (k : Name) (v : α) :
    dkeys (dset d k v) = if k ∈ dkeys d then dkeys d else dkeys d ++ [k] := by
  induction d with
  | nil => simp [dset, dkeys]
  | cons e d ih =>
    obtain ⟨k0, v0⟩ := e
    rw [dset]
    by_cases h : k0 = k
    · subst h
      rw [if_pos rfl, if_pos (by simp [dkeys])]
      rfl
    · rw [if_neg h]
      have e1 : dkeys ((k0, v0) :: dset d k v) = k0 :: dkeys (dset d k v) := rfl
      have e2 : dkeys ((k0, v0) :: d) = k0 :: dkeys d := rfl
      rw [e1, e2, ih]
      by_cases h' : k ∈ dkeys d
      · rw [if_pos h', if_pos (List.mem_cons_of_mem _ h')]
      · rw [if_neg h', if_neg]
        · rfl
        · rw [List.mem_cons]
          rintro (h'' | h'')
          · exact h h''.symm
          · exact h' h''

theorem setAttr_eq {n : ℕ} (i : ℕ) (s : List (Name × (Fin n → Option ℝ))) (a : Name × Option ℝ) :
    setAttr i s a = dset s a.1 fun j => if j.1 = i then a.2 else ((dget s a.1).getD fun _ => none) j := by
  unfold setAttr
  split <;> rename_i h <;> simp [h]

theorem dget_setAttrs {n : ℕ} (i : ℕ) (l : List (Name × Option ℝ)) (hl : (dkeys l).Nodup) (s : List (Name × (Fin n → Option ℝ))) (k : Name) :
    dget (l.foldl (setAttr i) s) k = match dget l k with
      | some v => some fun j => if j.1 = i then v else ((dget s k).getD fun _ => none) j
      | none => dget s k := by
  induction l generalizing s with
  | nil => simp [dget]
  | cons e l ih =>
    obtain ⟨k0, v0⟩ := e
    rw [dkeys, List.map_cons, List.nodup_cons] at hl
    rw [List.foldl_cons, ih hl.2, setAttr_eq, dget_dset, dget]
    by_cases h : k0 = k
    · subst h
      simp only [if_true, dget_eq_none.2 hl.1]
    · simp only [if_neg h]

theorem dkeys_setAttrs {n : ℕ} (i : ℕ) (l : List (Name × Option ℝ)) (s : List (Name × (Fin n → Option ℝ))) (h : dkeys l ⊆ dkeys s) :
    dkeys (l.foldl (setAttr i) s) = dkeys s := by
  induction l generalizing s with
  | nil => rfl
  | cons e l ih =>
    have he : e.1 ∈ dkeys s := h (by simp [dkeys])
    have hd : dkeys (setAttr i s e) = dkeys s := by rw [setAttr_eq, dkeys_dset, if_pos he]
    rw [List.foldl_cons, ih _ (by rw [hd]; exact fun x hx => h (List.mem_cons_of_mem _ hx)), hd]

theorem nodup_dset {α : Type} {d : List (Name × α)} (h : (dkeys d).Nodup) (k : Name) (v : α) : (dkeys (dset d k v)).Nodup := by
  rw [dkeys_dset]
  split
  · exact h
  · rw [List.nodup_append]
    refine ⟨h, by simp, ?_⟩
    rintro a ha b hb rfl
    rw [List.mem_singleton] at hb
    subst hb
    contradiction

/-- the value of the attribute `k` at the node `j`, NaN if there is none -/
def attrAt (attrs : List (List (Name × Option ℝ))) (k : Name) (j : ℕ) : Option ℝ := ((attrs[j]?).bind fun l => dget l k).getD none

theorem attrAt_append (P : List (List (Name × Option ℝ))) (l : List (Name × Option ℝ)) (k : Name) (j : ℕ) :
    attrAt (P ++ [l]) k j = if j < P.length then attrAt P k j else if j = P.length then (dget l k).getD none else none := by
  unfold attrAt
  by_cases h : j < P.length
  · rw [if_pos h, List.getElem?_append_left h]
  · rw [if_neg h, List.getElem?_append_right (by omega)]
    by_cases h' : j = P.length
    · subst h'
      simp
    · rw [if_neg h', List.getElem?_eq_none (by simp only [List.length_cons, List.length_nil]; omega)]
      rfl

theorem attrAt_none {P : List (List (Name × Option ℝ))} {k : Name} (h : ¬ ∃ l ∈ P, k ∈ dkeys l) (j : ℕ) : attrAt P k j = none := by
  unfold attrAt
  cases hj : P[j]? with
  | none => rfl
  | some l =>
    have : dget l k = none := dget_eq_none.2 fun hk => h ⟨l, List.mem_of_getElem? hj, hk⟩
    simp [this]

theorem attrAt_beyond {P : List (List (Name × Option ℝ))} {k : Name} {j : ℕ} (h : P.length ≤ j) : attrAt P k j = none := by
  unfold attrAt
  rw [List.getElem?_eq_none h]
  rfl

open Classical in
/-- the signal under a name after the import, before the joining -/
theorem dget_import (n : ℕ) (attrs : List (List (Name × Option ℝ))) (hl : ∀ l ∈ attrs, (dkeys l).Nodup) (k : Name) :
    dget (importSignals n attrs) k = if ∃ l ∈ attrs, k ∈ dkeys l then some fun j => attrAt attrs k j.1 else none := by
  induction attrs using List.reverseRecOn with
  | nil => simp [importSignals, dget]
  | append_singleton P l ih =>
    have ih := ih fun l' h' => hl l' (List.mem_append.2 (.inl h'))
    have hstep : importSignals n (P ++ [l]) = l.foldl (setAttr P.length) (importSignals n P) := by
      unfold importSignals
      rw [List.zipIdx_append, List.foldl_append]
      simp
    rw [hstep, dget_setAttrs _ _ (hl l (by simp)), ih]
    cases hk : dget l k with
    | none =>
      have hkl := dget_eq_none.1 hk
      have hiff : (∃ l' ∈ P ++ [l], k ∈ dkeys l') ↔ ∃ l' ∈ P, k ∈ dkeys l' := by
        constructor
        · rintro ⟨l', h1, h2⟩
          rcases List.mem_append.1 h1 with h1 | h1
          · exact ⟨l', h1, h2⟩
          · rw [List.mem_singleton] at h1
            subst h1
            exact absurd h2 hkl
        · rintro ⟨l', h1, h2⟩
          exact ⟨l', List.mem_append.2 (.inl h1), h2⟩
      simp only [hiff]
      split
      · congr 1
        funext j
        rw [attrAt_append, hk]
        by_cases h : j.1 < P.length
        · rw [if_pos h]
        · rw [if_neg h, attrAt_beyond (by omega)]
          split <;> rfl
      · rfl
    | some v =>
      have hkl : k ∈ dkeys l := by
        by_contra h
        rw [dget_eq_none.2 h] at hk
        cases hk
      have hex : ∃ l' ∈ P ++ [l], k ∈ dkeys l' := ⟨l, by simp, hkl⟩
      rw [if_pos hex]
      simp only
      congr 1
      funext j
      rw [attrAt_append, hk]
      by_cases h : j.1 = P.length
      · rw [if_pos h, if_neg (by omega), if_pos h]
        rfl
      · rw [if_neg h, if_neg h]
        have e1 : ((if ∃ l ∈ P, k ∈ dkeys l then some fun j : Fin n => attrAt P k j.1 else none).getD fun _ => none) j = attrAt P k j.1 := by
          split
          · rfl
          · rename_i hn
            rw [attrAt_none hn]
            rfl
        rw [e1]
        by_cases h' : j.1 < P.length
        · rw [if_pos h']
        · rw [if_neg h', attrAt_beyond (by omega)]

theorem nodup_import (n : ℕ) (attrs : List (List (Name × Option ℝ))) : (dkeys (importSignals n attrs)).Nodup := by
  have h1 : ∀ (i : ℕ) (l : List (Name × Option ℝ)) (s : List (Name × (Fin n → Option ℝ))), (dkeys s).Nodup → (dkeys (l.foldl (setAttr i) s)).Nodup := by
    intro i l
    induction l with
    | nil => exact fun s h => h
    | cons e l ih =>
      intro s h
      refine ih _ ?_
      rw [setAttr_eq]
      exact nodup_dset h _ _
  unfold importSignals
  generalize attrs.zipIdx = L
  have h2 : ∀ (L : List (List (Name × Option ℝ) × ℕ)) (s : List (Name × (Fin n → Option ℝ))), (dkeys s).Nodup →
      (dkeys (L.foldl (fun s p => p.1.foldl (setAttr p.2) s) s)).Nodup := by
    intro L
    induction L with
    | nil => exact fun s h => h
    | cons p L ih => exact fun s h => ih _ (h1 _ _ _ h)
  exact h2 L [] (by simp [dkeys])

theorem dict_ext {α : Type} {d d' : List (Name × α)} (hk : dkeys d = dkeys d') (hn : (dkeys d).Nodup) (hg : ∀ k, dget d k = dget d' k) : d = d' := by
  induction d generalizing d' with
  | nil =>
    cases d' with
    | nil => rfl
    | cons e d' => simp [dkeys] at hk
  | cons e d ih =>
    obtain ⟨k, v⟩ := e
    cases d' with
    | nil => simp [dkeys] at hk
    | cons e' d' =>
      obtain ⟨k', v'⟩ := e'
      simp only [dkeys, List.map_cons, List.cons.injEq] at hk
      obtain ⟨rfl, hk⟩ := hk
      have h0 := hg k
      simp only [dget, if_true] at h0
      rw [Option.some.inj h0]
      rw [dkeys, List.map_cons, List.nodup_cons] at hn
      congr 1
      refine ih hk hn.2 fun j => ?_
      have := hg j
      simp only [dget] at this
      by_cases hj : k = j
      · subst hj
        rw [dget_eq_none.2 hn.1, dget_eq_none.2 (by rw [← show dkeys d = dkeys d' from hk]; exact hn.1)]
      · rwa [if_neg hj, if_neg hj] at this

theorem dkeys_setAttrs_fresh {n : ℕ} (i : ℕ) (l : List (Name × Option ℝ)) (s : List (Name × (Fin n → Option ℝ))) (h : (dkeys s ++ dkeys l).Nodup) :
    dkeys (l.foldl (setAttr i) s) = dkeys s ++ dkeys l := by
  induction l generalizing s with
  | nil => simp [dkeys]
  | cons e l ih =>
    have he : e.1 ∉ dkeys s := fun he => (List.nodup_append.1 h).2.2 _ he _ (by simp [dkeys]) rfl
    have hd : dkeys (setAttr i s e) = dkeys s ++ [e.1] := by rw [setAttr_eq, dkeys_dset, if_neg he]
    rw [List.foldl_cons, ih _ (by rw [hd]; simpa [dkeys] using h), hd]
    simp [dkeys]

theorem dget_map {α β : Type} (l : List (Name × α)) (f : α → β) (k : Name) : dget (l.map fun e => (e.1, f e.2)) k = (dget l k).map f := by
  induction l with
  | nil => rfl
  | cons e l ih =>
    obtain ⟨k', v⟩ := e
    rw [List.map_cons, dget, dget, ih]
    split <;> rfl

theorem dkeys_map {α β : Type} (l : List (Name × α)) (f : α → β) : dkeys (l.map fun e => (e.1, f e.2)) = dkeys l := by
  simp [dkeys, List.map_map, Function.comp_def]

/-- the import of exported signals -/
theorem import_export {n : ℕ} (hn : 0 < n) (l : List (Name × (Fin n → Option ℝ))) (hl : (dkeys l).Nodup) :
    importSignals n ((List.finRange n).map fun v => l.map fun e => (e.1, e.2 v)) = l := by
  classical
  have hkeys : dkeys (importSignals n ((List.finRange n).map fun v => l.map fun e => (e.1, e.2 v))) = dkeys l := by
    obtain ⟨m, rfl⟩ : ∃ m, n = m + 1 := ⟨n - 1, by omega⟩
    unfold importSignals
    rw [List.finRange_succ, List.map_cons, List.zipIdx_cons, List.foldl_cons]
    have h0 : dkeys (List.foldl (setAttr 0) [] (l.map fun e => (e.1, e.2 0)) : List (Name × (Fin (m + 1) → Option ℝ))) = dkeys l := by
      rw [dkeys_setAttrs_fresh _ _ _ (by rw [dkeys_map l (fun x => x 0)]; simpa [dkeys] using hl), dkeys_map l (fun x => x 0)]
      rfl
    have h1 : ∀ (L : List (List (Name × Option ℝ) × ℕ)) (s : List (Name × (Fin (m + 1) → Option ℝ))), dkeys s = dkeys l →
        (∀ p ∈ L, dkeys p.1 = dkeys l) → dkeys (L.foldl (fun s p => p.1.foldl (setAttr p.2) s) s) = dkeys l := by
      intro L
      induction L with
      | nil => exact fun s h _ => h
      | cons p L ih =>
        intro s hs hp
        refine ih _ ?_ fun q hq => hp q (List.mem_cons_of_mem _ hq)
        rw [dkeys_setAttrs _ _ _ (by rw [hp p (by simp), hs]; exact fun x hx => hx), hs]
    refine h1 _ _ h0 fun p hp => ?_
    have := List.mem_map_of_mem (f := Prod.fst) hp
    rw [List.zipIdx_map_fst] at this
    obtain ⟨v, -, hv⟩ := List.mem_map.1 this
    rw [← hv]
    exact dkeys_map l (fun x => x v)
  refine dict_ext hkeys (nodup_import _ _) fun k => ?_
  rw [dget_import _ _ (by
    intro l' h'
    obtain ⟨v, -, rfl⟩ := List.mem_map.1 h'
    rw [dkeys_map l (fun x => x v)]
    exact hl)]
  cases hk : dget l k with
  | none =>
    rw [if_neg]
    rintro ⟨l', h', hk'⟩
    obtain ⟨v, -, rfl⟩ := List.mem_map.1 h'
    rw [dkeys_map l (fun x => x v)] at hk'
    exact dget_eq_none.1 hk hk'
  | some x =>
    rw [if_pos]
    · congr 1
      funext j
      unfold attrAt
      rw [List.getElem?_map, List.getElem?_eq_getElem (by simp)]
      simp [dget_map l (fun x => x j), hk]
    · refine ⟨_, List.mem_map.2 ⟨⟨0, hn⟩, List.mem_finRange _, rfl⟩, ?_⟩
      rw [dkeys_map l (fun x => x ⟨0, hn⟩)]
      by_contra h
      rw [dget_eq_none.2 h] at hk
      cases hk

/-! ## C82: NetworkX -/

theorem oneDim_asOne {V : Type} (l : List (Name × V)) : oneDim (asOne l) = .ok l := by
  induction l with
  | nil => rfl
  | cons e l ih =>
    obtain ⟨k, x⟩ := e
    have : asOne ((k, x) :: l) = (k, .one x) :: asOne l := rfl
    rw [this, oneDim, ih]

/-- every edge of the undirected graph in both directions, the loops once -/
theorem nxAdjacency_ok {n : ℕ} {nx : NxGraph} (h0 : 0 < n) (hb : ∀ e ∈ nx.edges, e.1 < n ∧ e.2.1 < n) :
    ∃ W, nxAdjacency n nx = .ok W ∧ W.Canonical ∧ ∀ i j, W.dense i j = if nx.directed then weightAt nx.edges i.1 j.1
      else if i = j then weightAt nx.edges i.1 i.1 else weightAt nx.edges i.1 j.1 + weightAt nx.edges j.1 i.1 := by
  unfold nxAdjacency
  rw [if_neg (by omega)]
  by_cases hd : nx.directed
  · rw [if_pos hd]
    obtain ⟨W, h1, h2, h3⟩ := coo_ok hb
    exact ⟨W, h1, h2, fun i j => by rw [h3, if_pos hd]⟩
  · rw [if_neg hd]
    have hb' : ∀ e ∈ nx.edges ++ nx.edges.map (fun e => (e.2.1, e.1, e.2.2)) ++
        (nx.edges.filter fun e => e.1 = e.2.1).map fun e => (e.1, e.1, -e.2.2), e.1 < n ∧ e.2.1 < n := by
      intro e he
      simp only [List.mem_append, List.mem_map, List.mem_filter] at he
      rcases he with (he | ⟨e', he, rfl⟩) | ⟨e', he, rfl⟩
      · exact hb e he
      · exact ⟨(hb e' he).2, (hb e' he).1⟩
      · exact ⟨(hb e' he.1).1, (hb e' he.1).1⟩
    obtain ⟨W, h1, h2, h3⟩ := coo_ok hb'
    refine ⟨W, h1, h2, fun i j => ?_⟩
    have hl := weightAt_loops (-1) nx.edges i.1 j.1
    simp only [neg_one_mul] at hl
    rw [h3, if_neg hd, weightAt_append, weightAt_append, weightAt_swap, hl]
    by_cases hij : i = j
    · subst hij
      rw [if_pos rfl, if_pos rfl]
      ring
    · rw [if_neg (fun e => hij (Fin.ext e)), if_neg hij, add_zero]

/-- the broken signals of separable ones -/
theorem broken_list {V : Type} {S : List (Name × Sig V)} (hS : Separable S) :
    ∃ L : List (Name × V), breakSignals S = asOne L ∧ (dkeys L).Nodup := by
  refine ⟨onesOf S ++ brokenOf (twosOf S), by rw [break_eq hS, asOne_append], ?_⟩
  have hp := (dkeys_split S).nodup_iff.1 hS.unique
  rw [dkeys_append, List.nodup_append]
  refine ⟨(List.nodup_append.1 hp).1, brokenOf_nodup (List.nodup_append.1 hp).2.1, ?_⟩
  rintro b hb c hc rfl
  obtain ⟨e, he, j, rfl⟩ := mem_brokenOf hc
  exact hS.two e.1 e.2 (mem_twosOf.1 he) _ ((dkeys_split S).mem_iff.2 (List.mem_append.2 (.inl hb))) (colName_extends _ _)

theorem symm_weights {n : ℕ} {g : Graph n ℝ} {l : List (ℕ × ℕ × ℝ)}
    (hw : ∀ i j : Fin n, weightAt l i.1 j.1 = if isDirected g.W then g.W.dense i j else if i ≤ j then g.W.dense i j else 0) (i j : Fin n) :
    (if isDirected g.W then weightAt l i.1 j.1 else if i = j then weightAt l i.1 i.1 else weightAt l i.1 j.1 + weightAt l j.1 i.1) =
      g.W.dense i j := by
  rw [hw, hw, hw]
  by_cases hd : isDirected g.W
  · simp only [if_pos hd]
  · rw [if_neg hd, if_neg hd, if_neg hd, if_neg hd]
    have hu : Undirected g.W.dense := (isDirected_eq_false_iff _).1 (by simpa using hd)
    by_cases hij : i = j
    · subst hij
      rw [if_pos rfl, if_pos le_rfl]
    · rw [if_neg hij]
      rcases lt_or_gt_of_ne hij with h | h
      · rw [if_pos h.le, if_neg (not_le.2 h), add_zero]
      · rw [if_neg (not_le.2 h), if_pos h.le, zero_add, hu]

/-- **C82** `from_networkx(G.to_networkx())` has the same weights as `G` and, if the names do not interfere, the same signals (with
the columns of a two-dimensional signal in the order of the decimal representations of their numbers). -/
theorem C82_round_trip {n : ℕ} (hn : 0 < n) {g : Graph n ℝ} (hg : g.Built) {S : List (Name × Sig (Fin n → Option ℝ))} (hS : Separable S)
    (h2 : ∀ a cols, (a, .two cols) ∈ S → 2 ≤ cols.length) :
    ∃ nx g' S', toNetworkx g S = .ok (nx, breakSignals S) ∧ nx.attrs.length = n ∧ (nx.directed ↔ ¬ Undirected g.W.dense) ∧
      fromNetworkx nx = .ok ⟨n, g', S'⟩ ∧ g'.Built ∧ g'.W.dense = g.W.dense ∧
      (∀ a x, dget S a = some (.one x) → dget S' a = some (.one x)) ∧
      (∀ a cols, dget S a = some (.two cols) → dget S' a = some (.two (lexCols cols)) ∧
        (cols.length ≤ 10 → dget S' a = some (.two cols))) ∧
      (∀ a, dget S a = none → dget S' a = none) := by
  obtain ⟨S', hj, hk, j1, j2, j3⟩ := C81_round_trip hS h2
  obtain ⟨l, hl, hw⟩ := edgeList_weights hg
  obtain ⟨L, hbr, hLn⟩ := broken_list hS
  let nx : NxGraph := { directed := isDirected g.W, attrs := (List.finRange n).map fun v => L.map fun e => (e.1, e.2 v), edges := edgeNumbers l }
  have hlen : nx.attrs.length = n := by simp [nx]
  obtain ⟨W, w1, w2, w3⟩ := nxAdjacency_ok (nx := nx) hn (edgeNumbers_bound l)
  obtain ⟨g', g1, g2, g3, -⟩ := Graph.ofCsr_canonical W w2 (lt := .combinatorial) (.inl rfl)
  have hsig : joinSignals (signalsOf (importSignals n nx.attrs)) = .ok S' := by
    have : importSignals n nx.attrs = L := import_export hn L hLn
    rw [this, ← hj, hbr]
    rfl
  have hto : toNetworkx g S = .ok (nx, breakSignals S) := by
    unfold toNetworkx
    simp only [hbr, oneDim_asOne, hl]
    rfl
  have hdir : nx.directed = true ↔ ¬ Undirected g.W.dense := by
    show isDirected g.W = true ↔ _
    rw [← not_iff_not, not_not, Bool.not_eq_true, isDirected_eq_false_iff]
  refine ⟨nx, g', S', hto, hlen, hdir, ?_, g2, ?_, j1, fun a cols hc => ⟨j2 a cols hc, fun h10 => ?_⟩, j3⟩
  · rw [fromNetworkx, hlen, fromNodes, w1]
    simp only [g1, hsig]
  · ext i j
    rw [g3, w3]
    exact symm_weights hw i j
  · rw [j2 a cols hc, lexCols_small h10]

theorem onesOf_asOne {V : Type} (l : List (Name × V)) : onesOf (asOne l) = l ∧ twosOf (asOne l) = [] := by
  induction l with
  | nil => exact ⟨rfl, rfl⟩
  | cons e l ih =>
    obtain ⟨k, x⟩ := e
    have : asOne ((k, x) :: l) = (k, .one x) :: asOne l := rfl
    rw [this, onesOf, twosOf, ih.1, ih.2]
    exact ⟨rfl, rfl⟩

/-- one-dimensional signals whose names do not interfere are left alone by the joining -/
theorem join_ones {V : Type} {l : List (Name × V)} (hl : (dkeys l).Nodup)
    (h : ∀ a ∈ dkeys l, ∀ b ∈ dkeys l, ¬ Extends a b ∧ (a ≠ b → ¬ ∃ c, Extends c a ∧ Extends c b)) :
    ∃ S, joinSignals (asOne l) = .ok S ∧ (dkeys S).Nodup ∧ ∀ k, dget S k = (dget l k).map .one := by
  have hS : Separable (asOne l) := by
    refine ⟨by rwa [dkeys_asOne], ?_, ?_⟩
    · intro a cols ha
      obtain ⟨e, -, he⟩ := List.mem_map.1 ha
      cases (Prod.mk.inj he).2
    · intro a x b y ha hb
      refine h a ?_ b ?_
      · rw [← dkeys_asOne]; exact List.mem_map.2 ⟨_, ha, rfl⟩
      · rw [← dkeys_asOne]; exact List.mem_map.2 ⟨_, hb, rfl⟩
  have hbr : breakSignals (asOne l) = asOne l := by
    rw [break_eq hS, (onesOf_asOne l).1, (onesOf_asOne l).2]
    simp [brokenOf, asOne]
  obtain ⟨S, h1, h2, h3, h4, h5⟩ := C81_round_trip hS (by
    intro a cols ha
    obtain ⟨e, -, he⟩ := List.mem_map.1 ha
    cases (Prod.mk.inj he).2)
  rw [hbr] at h1
  refine ⟨S, h1, h2, fun k => ?_⟩
  have hm : dget (asOne l) k = (dget l k).map Sig.one := dget_map l Sig.one k
  cases hk : dget l k with
  | none => exact h5 k (by rw [hm, hk]; rfl)
  | some x => exact h3 k x (by rw [hm, hk]; rfl)

open Classical in
/-- **C82** importing any NetworkX graph: the weight between two nodes is the sum of the weights of the edges between them (in that
direction if the graph is directed), and every attribute becomes a signal, with NaN where it is not set. -/
theorem C82_import {nx : NxGraph} (hn : nx.attrs ≠ []) (hb : ∀ e ∈ nx.edges, e.1 < nx.attrs.length ∧ e.2.1 < nx.attrs.length)
    (hu : ∀ l ∈ nx.attrs, (dkeys l).Nodup)
    (hsep : ∀ a b, (∃ l ∈ nx.attrs, a ∈ dkeys l) → (∃ l ∈ nx.attrs, b ∈ dkeys l) →
      ¬ Extends a b ∧ (a ≠ b → ¬ ∃ c, Extends c a ∧ Extends c b)) :
    ∃ g S, fromNetworkx nx = .ok ⟨nx.attrs.length, g, S⟩ ∧ g.Built ∧
      (∀ i j, g.W.dense i j =
        if nx.directed then (nx.edges.map fun e => if e.1 = i.1 ∧ e.2.1 = j.1 then e.2.2 else 0).sum
        else (nx.edges.map fun e => if (e.1 = i.1 ∧ e.2.1 = j.1) ∨ (e.1 = j.1 ∧ e.2.1 = i.1) then e.2.2 else 0).sum) ∧
      ∀ a, dget S a = if ∃ l ∈ nx.attrs, a ∈ dkeys l then
        some (.one fun i => (dget (nx.attrs[i.1]) a).getD none) else none := by
  have hpos : 0 < nx.attrs.length := List.length_pos_iff.2 hn
  obtain ⟨W, w1, w2, w3⟩ := nxAdjacency_ok (nx := nx) hpos hb
  obtain ⟨g, g1, g2, g3, -⟩ := Graph.ofCsr_canonical W w2 (lt := .combinatorial) (.inl rfl)
  set I := importSignals nx.attrs.length nx.attrs with hI
  have hget := dget_import nx.attrs.length nx.attrs hu
  rw [← hI] at hget
  obtain ⟨S, s1, s2, s3⟩ := join_ones (nodup_import nx.attrs.length nx.attrs) (by
    intro a ha b hb
    have key : ∀ c, c ∈ dkeys I → ∃ l ∈ nx.attrs, c ∈ dkeys l := by
      intro c hc
      by_contra h
      have := hget c
      rw [if_neg h] at this
      exact dget_eq_none.1 this hc
    exact hsep a b (key a ha) (key b hb))
  refine ⟨g, S, ?_, g2, fun i j => ?_, fun a => ?_⟩
  · rw [fromNetworkx, fromNodes, w1]
    simp only [g1]
    rw [show signalsOf (importSignals nx.attrs.length nx.attrs) = asOne I from rfl, s1]
  · rw [g3, w3]
    split
    · rfl
    · unfold weightAt
      by_cases hij : i = j
      · subst hij
        rw [if_pos rfl]
        simp
      · rw [if_neg hij, ← List.sum_map_add]
        refine congrArg List.sum (List.map_congr_left fun e _ => ?_)
        have hij' : i.1 ≠ j.1 := fun h => hij (Fin.ext h)
        by_cases h1 : e.1 = i.1 ∧ e.2.1 = j.1
        · have h2 : ¬ (e.1 = j.1 ∧ e.2.1 = i.1) := by
            rintro ⟨h2, -⟩
            exact hij' (h1.1.symm.trans h2)
          rw [if_pos h1, if_neg h2, add_zero, if_pos (.inl h1)]
        · rw [if_neg h1, zero_add]
          exact if_congr (by tauto) rfl rfl
  · rw [s3, hget]
    split
    · simp only [Option.map_some]
      congr 2
      funext i
      unfold attrAt
      rw [List.getElem?_eq_getElem i.2]
      rfl
    · rfl

/-- A path with two vertices, with a signal and a two-dimensional signal with two columns. -/
example : ∃ (g : Graph 2 ℝ) (S : List (Name × Sig (Fin 2 → Option ℝ))), g.Built ∧ Separable S ∧ S ≠ [] ∧
    ∀ a cols, (a, .two cols) ∈ S → 2 ≤ cols.length := by
  obtain ⟨g, -, hg, -⟩ := Gen.ofEdges_ok (N := 2) (l := [(0, 1, 1), (1, 0, 1)]) (by simp) (lt := .combinatorial) (.inl rfl)
  refine ⟨g, [("v".toList, .two [fun _ => some 1, fun _ => none])], hg, ⟨by simp [dkeys], ?_, ?_⟩, by simp, ?_⟩
  · intro a cols ha b hb
    simp only [List.mem_singleton, Prod.mk.injEq, dkeys, List.map_cons, List.map_nil] at ha hb
    rw [ha.1, hb]
    exact not_extends_self _
  · intro a x b y ha
    simp at ha
  · intro a cols ha
    simp only [List.mem_singleton, Prod.mk.injEq, Sig.two.injEq] at ha
    rw [ha.2]
    simp

/-! ## C83: graph-tool -/

theorem gtVertices_spec (l : List (ℕ × ℕ × ℝ)) :
    (∀ e ∈ l, e.1 < gtVertices l ∧ e.2.1 < gtVertices l) ∧ (0 < gtVertices l → ∃ e ∈ l, max e.1 e.2.1 + 1 = gtVertices l) := by
  induction l with
  | nil => simp [gtVertices]
  | cons e l ih =>
    have h : gtVertices (e :: l) = max (gtVertices l) (max e.1 e.2.1 + 1) := rfl
    rw [h]
    refine ⟨fun e' he' => ?_, fun _ => ?_⟩
    · rcases List.mem_cons.1 he' with rfl | he'
      · omega
      · have := ih.1 e' he'
        omega
    · by_cases hc : gtVertices l ≤ max e.1 e.2.1 + 1
      · exact ⟨e, by simp, by omega⟩
      · obtain ⟨e', h1, h2⟩ := ih.2 (by omega)
        exact ⟨e', by simp [h1], by omega⟩

theorem gtAdjacency_ok (c : ℝ) {gt : GtGraph} (h0 : 0 < gt.n) (hb : ∀ e ∈ gt.edges, e.1 < gt.n ∧ e.2.1 < gt.n) :
    ∃ W, gtAdjacency c gt = .ok W ∧ W.Canonical ∧ ∀ i j, W.dense i j = if gt.directed then weightAt gt.edges i.1 j.1
      else if i = j then c * weightAt gt.edges i.1 i.1 else weightAt gt.edges i.1 j.1 + weightAt gt.edges j.1 i.1 := by
  unfold gtAdjacency
  rw [if_neg (by omega)]
  by_cases hd : gt.directed
  · rw [if_pos hd]
    obtain ⟨W, h1, h2, h3⟩ := coo_ok hb
    exact ⟨W, h1, h2, fun i j => by rw [h3, if_pos hd]⟩
  · rw [if_neg hd]
    have hb' : ∀ e ∈ (gt.edges.filter fun e => e.1 ≠ e.2.1) ++ (gt.edges.filter fun e => e.1 ≠ e.2.1).map (fun e => (e.2.1, e.1, e.2.2)) ++
        (gt.edges.filter fun e => e.1 = e.2.1).map fun e => (e.1, e.1, c * e.2.2), e.1 < gt.n ∧ e.2.1 < gt.n := by
      intro e he
      simp only [List.mem_append, List.mem_map, List.mem_filter] at he
      rcases he with (he | ⟨e', he, rfl⟩) | ⟨e', he, rfl⟩
      · exact hb e he.1
      · exact ⟨(hb e' he.1).2, (hb e' he.1).1⟩
      · exact ⟨(hb e' he.1).1, (hb e' he.1).1⟩
    obtain ⟨W, h1, h2, h3⟩ := coo_ok hb'
    refine ⟨W, h1, h2, fun i j => ?_⟩
    rw [h3, if_neg hd, weightAt_append, weightAt_append, weightAt_swap, weightAt_loops, weightAt_noloops, weightAt_noloops]
    by_cases hij : i = j
    · subst hij
      simp
    · have hij' : i.1 ≠ j.1 := fun e => hij (Fin.ext e)
      rw [if_neg hij', if_neg hij'.symm, if_neg hij', if_neg hij, add_zero]

theorem gtProps_same {n : ℕ} (l : List (Name × (Fin n → Option ℝ))) : gtProps n l = .ok l := by
  induction l with
  | nil => rfl
  | cons e l ih =>
    obtain ⟨k, x⟩ := e
    rw [gtProps, gtAssign, dif_pos rfl, ih]

/-- the number of vertices that graph-tool creates -/
theorem gtVertices_edges {n : ℕ} {g : Graph n ℝ} (hg : g.Built) {l : List (Fin n × Fin n × ℝ)} (hl : g.getEdgeList = .ok l) :
    gtVertices (edgeNumbers l) ≤ n ∧
      (∀ i : Fin n, gtVertices (edgeNumbers l) ≤ i.1 → ∀ j, g.W.dense i j = 0 ∧ g.W.dense j i = 0) ∧
      ∀ i : Fin n, i.1 + 1 = gtVertices (edgeNumbers l) → ∃ j, g.W.dense i j ≠ 0 ∨ g.W.dense j i ≠ 0 := by
  obtain ⟨l', hl', -, -, hmem⟩ := C04_edge_list g hg
  rw [hl] at hl'
  obtain rfl := Except.ok.inj hl'
  obtain ⟨h1, h2⟩ := gtVertices_spec (edgeNumbers l)
  have hin : ∀ i j : Fin n, g.W.dense i j ≠ 0 → i.1 < gtVertices (edgeNumbers l) ∧ j.1 < gtVertices (edgeNumbers l) := by
    intro i j hij
    by_cases hu : Undirected g.W.dense ∧ ¬ i ≤ j
    · have := (hmem j i (g.W.dense j i)).2 ⟨rfl, by rwa [hu.1], fun _ => (not_le.1 hu.2).le⟩
      have := h1 _ (List.mem_map.2 ⟨_, this, rfl⟩)
      exact ⟨this.2, this.1⟩
    · have := (hmem i j (g.W.dense i j)).2 ⟨rfl, hij, fun h => by_contra fun h' => hu ⟨h, h'⟩⟩
      exact h1 _ (List.mem_map.2 ⟨_, this, rfl⟩)
  refine ⟨?_, fun i hi j => ⟨?_, ?_⟩, fun i hi => ?_⟩
  · by_contra hc
    obtain ⟨e, he, hem⟩ := h2 (by omega)
    have := edgeNumbers_bound l e he
    omega
  · by_contra hc
    have := (hin i j hc).1
    omega
  · by_contra hc
    have := (hin j i hc).2
    omega
  · obtain ⟨e, he, hem⟩ := h2 (by omega)
    obtain ⟨⟨a, b, w⟩, hab, rfl⟩ := List.mem_map.1 he
    have hw := (hmem a b w).1 hab
    simp only at hem
    by_cases hc : a.1 = i.1
    · obtain rfl : a = i := Fin.ext hc
      exact ⟨b, .inl (by rw [hw.1]; exact hw.2.1)⟩
    · obtain rfl : b = i := Fin.ext (by omega)
      exact ⟨a, .inr (by rw [hw.1]; exact hw.2.1)⟩

/-- **C83** `from_graphtool(G.to_graphtool())` has the same weights and signals as `G` if the last vertex of `G` has an edge (and if
graph-tool counts the self-loops of undirected graphs once, or there are none). -/
theorem C83_round_trip {n : ℕ} {g : Graph n ℝ} (hg : g.Built) {S : List (Name × Sig (Fin n → Option ℝ))} (hS : Separable S)
    (h2 : ∀ a cols, (a, .two cols) ∈ S → 2 ≤ cols.length) (last : Fin n) (hlast : last.1 + 1 = n)
    (hedge : ∃ j, g.W.dense last j ≠ 0 ∨ g.W.dense j last ≠ 0) (c : ℝ)
    (hloops : c = 1 ∨ ¬ Undirected g.W.dense ∨ ∀ i, g.W.dense i i = 0) :
    ∃ gt g' S', toGraphtool g S = .ok (gt, breakSignals S) ∧ gt.n = n ∧
      fromGraphtool c gt = .ok ⟨n, g', S'⟩ ∧ g'.Built ∧ g'.W.dense = g.W.dense ∧
      (∀ a x, dget S a = some (.one x) → dget S' a = some (.one x)) ∧
      (∀ a cols, dget S a = some (.two cols) → dget S' a = some (.two (lexCols cols)) ∧
        (cols.length ≤ 10 → dget S' a = some (.two cols))) ∧
      (∀ a, dget S a = none → dget S' a = none) := by
  obtain ⟨S', hj, hk, j1, j2, j3⟩ := C81_round_trip hS h2
  obtain ⟨l, hl, hw⟩ := edgeList_weights hg
  obtain ⟨L, hbr, hLn⟩ := broken_list hS
  obtain ⟨v1, v2, v3⟩ := gtVertices_edges hg hl
  have hm : gtVertices (edgeNumbers l) = n := by
    by_contra hc
    obtain ⟨j, hj⟩ := hedge
    have := v2 last (by omega) j
    rcases hj with hj | hj
    · exact hj this.1
    · exact hj this.2
  let gt : GtGraph := { directed := isDirected g.W, n := n, edges := edgeNumbers l, props := L }
  obtain ⟨W, w1, w2, w3⟩ := gtAdjacency_ok c (gt := gt) (by show 0 < n; omega) (edgeNumbers_bound l)
  obtain ⟨g', g1, g2, g3, -⟩ := Graph.ofCsr_canonical W w2 (lt := .combinatorial) (.inl rfl)
  refine ⟨gt, g', S', ?_, rfl, ?_, g2, ?_, j1, fun a cols hc => ⟨j2 a cols hc, fun h10 => ?_⟩, j3⟩
  · unfold toGraphtool
    simp only [hl, hbr, oneDim_asOne]
    have key : ∀ m, m = n → ∃ P, gtProps m L = .ok P ∧
        (⟨isDirected g.W, m, edgeNumbers l, P⟩ : GtGraph) = ⟨isDirected g.W, n, edgeNumbers l, L⟩ := by
      rintro m rfl
      exact ⟨L, gtProps_same L, rfl⟩
    obtain ⟨P, hP, he⟩ := key _ hm
    rw [hP]
    exact congrArg (fun x => Except.ok (x, asOne L)) he
  · unfold fromGraphtool
    rw [w1]
    have : joinSignals (signalsOf gt.props) = .ok S' := by
      rw [← hj, hbr]
      rfl
    simp only [g1, this]
    rfl
  · ext i j
    rw [g3, w3]
    have := symm_weights hw i j
    show (if isDirected g.W then weightAt (edgeNumbers l) i.1 j.1 else if i = j then c * weightAt (edgeNumbers l) i.1 i.1
      else weightAt (edgeNumbers l) i.1 j.1 + weightAt (edgeNumbers l) j.1 i.1) = _
    rw [← this]
    split
    · rfl
    · rename_i hd
      have hu : Undirected g.W.dense := (isDirected_eq_false_iff _).1 (by simpa using hd)
      split
      · rename_i hij
        rw [hw, if_neg hd, if_pos le_rfl]
        rcases hloops with rfl | h | h
        · rw [one_mul]
        · exact absurd hu h
        · rw [h, mul_zero]
      · rfl
  · rw [j2 a cols hc, lexCols_small h10]

/-- Violation: graph-tool creates the vertices up to the last one that has an edge only.  The isolated vertices at the end are
lost, and if the graph has a signal the export fails with ValueError. -/
theorem C83_isolated_violated {n : ℕ} {g : Graph n ℝ} (hg : g.Built) (last : Fin n) (hlast : last.1 + 1 = n)
    (hiso : ∀ j, g.W.dense last j = 0 ∧ g.W.dense j last = 0) :
    (∃ gt, toGraphtool g [] = .ok (gt, []) ∧ gt.n < n ∧ ∀ i : Fin n, gt.n ≤ i.1 → ∀ j, g.W.dense i j = 0 ∧ g.W.dense j i = 0) ∧
      ∀ S, 2 ≤ n → S ≠ [] → Separable S → (∀ a cols, (a, .two cols) ∈ S → cols ≠ []) → toGraphtool g S = .error .valueError := by
  obtain ⟨l, hl, hw⟩ := edgeList_weights hg
  obtain ⟨v1, v2, v3⟩ := gtVertices_edges hg hl
  have hm : gtVertices (edgeNumbers l) < n := by
    by_contra hc
    obtain ⟨j, hj⟩ := v3 last (by omega)
    rcases hj with hj | hj
    · exact hj (hiso j).1
    · exact hj (hiso j).2
  refine ⟨⟨⟨isDirected g.W, gtVertices (edgeNumbers l), edgeNumbers l, []⟩, ?_, hm, v2⟩, fun S hn hS hsep hne => ?_⟩
  · simp only [toGraphtool, hl]
    rfl
  · have hbr := break_eq hsep
    rw [← asOne_append] at hbr
    simp only [toGraphtool, hl, hbr, oneDim_asOne]
    have hL : onesOf S ++ brokenOf (twosOf S) ≠ [] := by
      intro e
      obtain ⟨⟨k, v⟩, S', rfl⟩ := List.exists_cons_of_ne_nil hS
      cases v with
      | one x => simp [onesOf] at e
      | two cols =>
        have := hne k cols (by simp)
        simp [twosOf, brokenOf, colsOf, List.zipIdx_eq_nil_iff, this] at e
    obtain ⟨⟨k, x⟩, L, hL⟩ := List.exists_cons_of_ne_nil hL
    rw [hL, gtProps, gtAssign, dif_neg (by omega), dif_neg (by omega)]

/-- The path with two vertices meets the hypotheses of `C83_round_trip`; the graph with two vertices and one self-loop at the first
meets those of `C83_isolated_violated`. -/
example : (∃ g : Graph 2 ℝ, g.Built ∧ (∃ j, g.W.dense 1 j ≠ 0 ∨ g.W.dense j 1 ≠ 0) ∧ ∀ i, g.W.dense i i = 0) ∧
    ∃ g : Graph 2 ℝ, g.Built ∧ (∀ j, g.W.dense 1 j = 0 ∧ g.W.dense j 1 = 0) ∧ g.W.dense 0 0 ≠ 0 := by
  constructor
  · obtain ⟨g, -, hg, hw, -⟩ := Gen.ofEdges_ok (N := 2) (l := [(0, 1, 1), (1, 0, 1)]) (by simp) (lt := .combinatorial) (.inl rfl)
    refine ⟨g, hg, ⟨0, .inl ?_⟩, fun i => ?_⟩
    · rw [hw]
      simp [Gen.weightAt]
    · rw [hw]
      fin_cases i <;> simp [Gen.weightAt]
  · obtain ⟨g, -, hg, hw, -⟩ := Gen.ofEdges_ok (N := 2) (l := [(0, 0, 1)]) (by simp) (lt := .combinatorial) (.inl rfl)
    refine ⟨g, hg, fun j => ?_, ?_⟩
    · rw [hw, hw]
      simp [Gen.weightAt]
    · rw [hw]
      simp [Gen.weightAt]

end PyGSP.IO
