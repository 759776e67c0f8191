import Verif.Model.Signals
import Mathlib.Data.List.Basic
import Mathlib.Data.List.Nodup
import Mathlib.Data.List.Perm.Basic
import Mathlib.Data.List.Sort
import Mathlib.Data.String.Basic
import Mathlib.Tactic.Linarith
import Mathlib.Tactic.Push

/-!
# C81: the signals survive the export and the import
-/

namespace PyGSP.IO

variable {α V : Type}

/-! ## Dictionaries -/

theorem dget_eq_some {d : List (Name × α)} (h : (dkeys d).Nodup) {k : Name} {v : α} : dget d k = some v ↔ (k, v) ∈ d := by
  induction d with
  | nil => simp [dget]
  | cons e d ih =>
    obtain ⟨k', v'⟩ := e
    rw [dkeys, List.map_cons, List.nodup_cons] at h
    rw [dget]
    split
    · rename_i hk
      subst hk
      rw [List.mem_cons]
      constructor
      · rintro h'
        exact .inl (by rw [Option.some.inj h'])
      · rintro (h' | h')
        · rw [(Prod.mk.inj h').2]
        · exact absurd (List.mem_map.2 ⟨_, h', rfl⟩) h.1
    · rename_i hk
      rw [ih h.2, List.mem_cons]
      constructor
      · exact .inr
      · rintro (h' | h')
        · exact absurd (Prod.mk.inj h').1.symm hk
        · exact h'

theorem dget_eq_none {d : List (Name × α)} {k : Name} : dget d k = none ↔ k ∉ dkeys d := by
  induction d with
  | nil => simp [dget, dkeys]
  | cons e d ih =>
    obtain ⟨k', v'⟩ := e
    rw [dget]
    split
    · rename_i hk
      simp [dkeys, hk]
    · rename_i hk
      rw [ih]
      simp only [dkeys, List.map_cons, List.mem_cons, not_or]
      exact ⟨fun h => ⟨fun e => hk e.symm, h⟩, fun h => h.2⟩

theorem dset_fresh {d : List (Name × α)} {k : Name} (h : k ∉ dkeys d) (v : α) : dset d k v = d ++ [(k, v)] := by
  induction d with
  | nil => rfl
  | cons e d ih =>
    obtain ⟨k', v'⟩ := e
    simp only [dkeys, List.map_cons, List.mem_cons, not_or] at h
    rw [dset, if_neg (fun e => h.1 e.symm), ih h.2]
    rfl

theorem dkeys_append (d d' : List (Name × α)) : dkeys (d ++ d') = dkeys d ++ dkeys d' := List.map_append ..

theorem dset_last {d : List (Name × α)} {k : Name} (h : k ∉ dkeys d) (v v' : α) : dset (d ++ [(k, v)]) k v' = d ++ [(k, v')] := by
  induction d with
  | nil => simp [dset]
  | cons e d ih =>
    obtain ⟨k', w⟩ := e
    simp only [dkeys, List.map_cons, List.mem_cons, not_or] at h
    rw [List.cons_append, dset, if_neg (fun e => h.1 e.symm), ih h.2]
    rfl

theorem ddel_fresh {d : List (Name × α)} {k : Name} (h : k ∉ dkeys d) : ddel d k = d := by
  refine List.filter_eq_self.2 fun e he => ?_
  simp only [ne_eq, decide_eq_true_eq]
  rintro rfl
  exact h (List.mem_map.2 ⟨e, he, rfl⟩)

theorem foldl_ddel (names : List Name) (d : List (Name × α)) : names.foldl ddel d = d.filter fun e => e.1 ∉ names := by
  induction names generalizing d with
  | nil => simp
  | cons n names ih =>
    rw [List.foldl_cons, ih, ddel, List.filter_filter]
    refine List.filter_congr fun e _ => ?_
    simp only [List.mem_cons, not_or, ne_eq, Bool.decide_and]
    exact Bool.and_comm ..

/-! ## Names -/

/-- `b` is `a`, an underscore, and more characters without underscore -/
def Extends (a b : Name) : Prop := ∃ t, '_' ∉ t ∧ b = a ++ '_' :: t

theorem rsplit_extends {a : Name} {t : List Char} (h : '_' ∉ t) : rsplitBase (a ++ '_' :: t) = a := by
  unfold rsplitBase
  rw [if_pos (by simp), List.reverse_append, List.reverse_cons, List.append_assoc, List.dropWhile_append_of_pos]
  · simp
  · intro c hc
    simp only [ne_eq, decide_eq_true_eq]
    rintro rfl
    exact h (List.mem_reverse.1 hc)

theorem rsplit_cases (b : Name) : (∃ t, '_' ∉ t ∧ b = rsplitBase b ++ '_' :: t) ∨ '_' ∉ b ∧ rsplitBase b = b := by
  by_cases h : '_' ∈ b
  · left
    obtain ⟨s, t, rfl, ht⟩ : ∃ s t, b = s ++ '_' :: t ∧ '_' ∉ t := by
      obtain ⟨t, s, h1, h2⟩ := List.eq_append_cons_of_mem (List.mem_reverse.2 h)
      refine ⟨s.reverse, t.reverse, ?_, fun h => h2 (List.mem_reverse.1 h)⟩
      rw [← List.reverse_reverse b, h1]
      simp
    exact ⟨t, ht, by rw [rsplit_extends ht]⟩
  · exact .inr ⟨h, if_neg h⟩

theorem rsplit_colName (k : Name) (i : ℕ) : rsplitBase (colName k i) = k := rsplit_extends Nat.underscore_not_in_toDigits

theorem colName_inj {k k' : Name} {i j : ℕ} (h : colName k i = colName k' j) : k = k' ∧ i = j := by
  have hk : k = k' := by rw [← rsplit_colName k i, h, rsplit_colName]
  subst hk
  refine ⟨rfl, ?_⟩
  have := (List.cons.inj (List.append_cancel_left h)).2
  rw [← Nat.ofDigitChars_ten_toDigits (n := i), this, Nat.ofDigitChars_ten_toDigits]

theorem colName_extends (k : Name) (i : ℕ) : Extends k (colName k i) := ⟨_, Nat.underscore_not_in_toDigits, rfl⟩

theorem extends_rsplit {a b : Name} (h : Extends a b) : rsplitBase b = a := by
  obtain ⟨t, ht, rfl⟩ := h
  exact rsplit_extends ht

theorem not_extends_self (a : Name) : ¬ Extends a a := by
  rintro ⟨t, -, h⟩
  have := congrArg List.length h
  simp at this

/-! ## Breaking -/

/-- the one-dimensional signals -/
def onesOf : List (Name × Sig V) → List (Name × V)
  | [] => []
  | (k, .one x) :: S => (k, x) :: onesOf S
  | (_, .two _) :: S => onesOf S

/-- the two-dimensional signals -/
def twosOf : List (Name × Sig V) → List (Name × List V)
  | [] => []
  | (_, .one _) :: S => twosOf S
  | (k, .two cols) :: S => (k, cols) :: twosOf S

/-- the columns of a signal under their names -/
def colsOf (k : Name) (cols : List V) : List (Name × V) := cols.zipIdx.map fun p => (colName k p.2, p.1)

def asOne (l : List (Name × V)) : List (Name × Sig V) := l.map fun e => (e.1, .one e.2)

theorem dkeys_asOne (l : List (Name × V)) : dkeys (asOne l) = dkeys l := by simp [dkeys, asOne, List.map_map, Function.comp_def]

theorem asOne_append (l l' : List (Name × V)) : asOne (l ++ l') = asOne l ++ asOne l' := List.map_append ..

theorem mem_onesOf {S : List (Name × Sig V)} {k : Name} {x : V} : (k, x) ∈ onesOf S ↔ (k, .one x) ∈ S := by
  induction S with
  | nil => simp [onesOf]
  | cons e S ih =>
    obtain ⟨k', x' | c⟩ := e <;> simp [onesOf, ih]

theorem mem_twosOf {S : List (Name × Sig V)} {k : Name} {c : List V} : (k, c) ∈ twosOf S ↔ (k, .two c) ∈ S := by
  induction S with
  | nil => simp [twosOf]
  | cons e S ih =>
    obtain ⟨k', x' | c⟩ := e <;> simp [twosOf, ih]

theorem foldl_dset_fresh (l : List (Name × α)) (d : List (Name × α)) (h : (dkeys (d ++ l)).Nodup) :
    l.foldl (fun d p => dset d p.1 p.2) d = d ++ l := by
  induction l generalizing d with
  | nil => simp
  | cons e l ih =>
    rw [List.foldl_cons, dset_fresh, ih]
    · simp
    · simpa using h
    · intro he
      rw [dkeys_append, List.nodup_append] at h
      exact h.2.2 _ he _ (by simp [dkeys]) rfl

/-- all the broken signals -/
def brokenOf (T : List (Name × List V)) : List (Name × V) := T.flatMap fun e => colsOf e.1 e.2

theorem key_middle {A R : List (Name × α)} {k : Name} {v : α} (h : (dkeys (A ++ (k, v) :: R)).Nodup) : k ∉ dkeys (A ++ R) := by
  have := ((List.perm_middle (a := (k, v)) (l₁ := A) (l₂ := R)).map (fun e : Name × α => e.1)).nodup_iff.1 h
  exact (List.nodup_cons.1 this).1

theorem break_aux (S : List (Name × Sig V)) (A B : List (Name × Sig V))
    (h : (dkeys (A ++ S ++ B ++ asOne (brokenOf (twosOf S)))).Nodup) :
    (dkeys S).foldl breakOne (A ++ S ++ B) = A ++ asOne (onesOf S) ++ B ++ asOne (brokenOf (twosOf S)) := by
  induction S generalizing A B with
  | nil => simp [dkeys, onesOf, twosOf, brokenOf, asOne]
  | cons e S ih =>
    obtain ⟨k, v⟩ := e
    have hnd : (dkeys (A ++ (k, v) :: S ++ B)).Nodup := by
      rw [dkeys_append] at h
      exact (List.nodup_append.1 h).1
    have hget : dget (A ++ (k, v) :: S ++ B) k = some v := (dget_eq_some hnd).2 (by simp)
    rw [dkeys, List.map_cons, List.foldl_cons, breakOne, hget]
    cases v with
    | one x =>
      simp only
      have := ih (A ++ [(k, .one x)]) B (by simpa [twosOf] using h)
      simp only [List.append_assoc, List.cons_append, List.nil_append] at this
      simp only [List.append_assoc, List.cons_append]
      rw [dkeys] at this
      rw [this]
      simp [onesOf, twosOf, asOne]
    | two cols =>
      simp only
      have e1 : cols.zipIdx.foldl (fun d p => dset d (colName k p.2) (Sig.one p.1)) (A ++ (k, .two cols) :: S ++ B) =
          A ++ (k, .two cols) :: S ++ B ++ asOne (colsOf k cols) := by
        rw [← foldl_dset_fresh (asOne (colsOf k cols)), asOne, colsOf, List.map_map, List.foldl_map]
        · rfl
        · refine h.sublist (List.Sublist.map _ ?_)
          refine List.Sublist.append_left ?_ _
          simp only [twosOf, brokenOf, List.flatMap_cons, asOne_append]
          exact List.sublist_append_left _ _
      have hk : k ∉ dkeys (A ++ S ++ B ++ asOne (colsOf k cols)) := by
        have h' : (dkeys (A ++ (k, Sig.two cols) :: (S ++ B ++ asOne (colsOf k cols)))).Nodup := by
          refine h.sublist (List.Sublist.map _ ?_)
          simp only [twosOf, brokenOf, List.flatMap_cons, asOne_append, List.append_assoc, List.cons_append]
          refine List.Sublist.append_left (List.Sublist.cons_cons _ ?_) _
          refine List.Sublist.append_left (List.Sublist.append_left ?_ _) _
          exact List.sublist_append_left _ _
        simpa only [List.append_assoc] using key_middle h'
      have e2 : ddel (A ++ (k, .two cols) :: S ++ B ++ asOne (colsOf k cols)) k = A ++ S ++ (B ++ asOne (colsOf k cols)) := by
        have e3 := ddel_fresh hk
        rw [ddel] at e3 ⊢
        simp only [List.filter_append, List.filter_cons] at e3 ⊢
        simpa using e3
      rw [e1, e2]
      have := ih A (B ++ asOne (colsOf k cols)) (by
        refine h.sublist (List.Sublist.map _ ?_)
        simp only [twosOf, brokenOf, List.flatMap_cons, asOne_append, List.append_assoc]
        refine List.Sublist.append_left ?_ _
        exact List.sublist_cons_self _ _)
      rw [dkeys] at this
      rw [this]
      simp [onesOf, twosOf, brokenOf, asOne_append]

/-! ## Joining -/

theorem joined_fresh (names : List Name) (J : List (Name × List Name)) (h : (dkeys J ++ names.map rsplitBase).Nodup) :
    names.foldl (fun joined name => dset joined (rsplitBase name) ((dget joined (rsplitBase name)).getD [] ++ [name])) J =
      J ++ names.map fun n => (rsplitBase n, [n]) := by
  induction names generalizing J with
  | nil => simp
  | cons n names ih =>
    have hn : rsplitBase n ∉ dkeys J := by
      intro hn
      exact (List.nodup_append.1 h).2.2 _ hn _ (by simp) rfl
    rw [List.foldl_cons, dget_eq_none.2 hn, dset_fresh hn, ih]
    · simp
    · rw [dkeys_append]
      simpa [dkeys] using h

theorem joined_same (names l : List Name) (J : List (Name × List Name)) {k : Name} (hk : k ∉ dkeys J) (hJ : (dkeys J).Nodup)
    (h : ∀ n ∈ names, rsplitBase n = k) :
    names.foldl (fun joined name => dset joined (rsplitBase name) ((dget joined (rsplitBase name)).getD [] ++ [name])) (J ++ [(k, l)]) =
      J ++ [(k, l ++ names)] := by
  induction names generalizing l with
  | nil => simp
  | cons n names ih =>
    have hg : dget (J ++ [(k, l)]) k = some l := (dget_eq_some (by
      rw [dkeys_append, List.nodup_append]
      refine ⟨hJ, by simp [dkeys], ?_⟩
      rintro a ha b hb rfl
      simp only [dkeys, List.map_cons, List.map_nil, List.mem_singleton] at hb
      exact hk (hb ▸ ha))).2 (by simp)
    rw [List.foldl_cons, h n (by simp), hg, dset_last hk, ih _ fun m hm => h m (by simp [hm])]
    simp

/-- the names of the columns -/
def colNames (k : Name) (m : ℕ) : List Name := (List.range m).map (colName k)

theorem snd_zipIdx (cols : List V) : cols.zipIdx.map (fun p => p.2) = List.range cols.length := by
  rw [List.range_eq_range']
  exact List.zipIdx_map_snd 0 cols

theorem dkeys_colsOf (k : Name) (cols : List V) : dkeys (colsOf k cols) = colNames k cols.length := by
  unfold dkeys colsOf colNames
  rw [List.map_map, ← snd_zipIdx cols, List.map_map]
  rfl

theorem joined_group {k : Name} {m : ℕ} (hm : 0 < m) (J : List (Name × List Name)) (hk : k ∉ dkeys J) (hJ : (dkeys J).Nodup) :
    (colNames k m).foldl (fun joined name => dset joined (rsplitBase name) ((dget joined (rsplitBase name)).getD [] ++ [name])) J =
      J ++ [(k, colNames k m)] := by
  obtain ⟨n, rfl⟩ : ∃ n, m = n + 1 := ⟨m - 1, by omega⟩
  have hcons : colNames k (n + 1) = colName k 0 :: (List.range n).map fun i => colName k (i + 1) := by
    unfold colNames
    rw [List.range_succ_eq_map, List.map_cons, List.map_map]
    rfl
  rw [hcons, List.foldl_cons, rsplit_colName, dget_eq_none.2 hk, dset_fresh hk]
  have := joined_same ((List.range n).map fun i => colName k (i + 1)) ([] ++ [colName k 0]) J hk hJ (by
    intro x hx
    obtain ⟨i, -, rfl⟩ := List.mem_map.1 hx
    exact rsplit_colName _ _)
  exact this

theorem joined_twos (T : List (Name × List V)) (J : List (Name × List Name)) (hT : ∀ e ∈ T, 0 < e.2.length)
    (h : (dkeys J ++ dkeys T).Nodup) :
    (dkeys (brokenOf T)).foldl (fun joined name => dset joined (rsplitBase name) ((dget joined (rsplitBase name)).getD [] ++ [name])) J =
      J ++ T.map fun e => (e.1, colNames e.1 e.2.length) := by
  induction T generalizing J with
  | nil => simp [dkeys, brokenOf]
  | cons e T ih =>
    obtain ⟨k, cols⟩ := e
    have h1 : k ∉ dkeys J := by
      intro hn
      exact (List.nodup_append.1 h).2.2 _ hn _ (by simp [dkeys]) rfl
    rw [brokenOf, List.flatMap_cons, dkeys_append, List.foldl_append, dkeys_colsOf,
      joined_group (hT (k, cols) (by simp)) J h1 (List.nodup_append.1 h).1]
    have := ih (J ++ [(k, colNames k cols.length)]) (fun e he => hT e (by simp [he])) (by
      rw [dkeys_append]
      simpa [dkeys] using h)
    rw [brokenOf] at this
    rw [this]
    simp

/-- the columns in the order of the decimal representations of their numbers -/
def lexCols (cols : List V) : List V :=
  (cols.zipIdx.mergeSort fun p q => nameLe (Nat.toDigits 10 p.2) (Nat.toDigits 10 q.2)).map fun p => p.1

theorem colName_le (k : Name) (i j : ℕ) : nameLe (colName k i) (colName k j) = nameLe (Nat.toDigits 10 i) (Nat.toDigits 10 j) := by
  have key : ∀ (k x y : List Char), nameLe (k ++ x) (k ++ y) = nameLe x y := by
    intro k x y
    induction k with
    | nil => rfl
    | cons c k ih => rw [List.cons_append, List.cons_append, nameLe, if_pos rfl, ih]
  rw [colName, colName, key, nameLe, if_pos rfl]

theorem stack_ok {d : List (Name × Sig V)} (hd : (dkeys d).Nodup) (l : List (Name × V)) (h : ∀ e ∈ l, (e.1, Sig.one e.2) ∈ d) :
    stackSignals d (l.map fun e => e.1) = .ok (l.map fun e => e.2) := by
  induction l with
  | nil => rfl
  | cons e l ih =>
    rw [List.map_cons, stackSignals, (dget_eq_some hd).2 (h e (by simp))]
    simp only [ih fun e he => h e (by simp [he]), List.map_cons]

theorem sort_colsOf (k : Name) (cols : List V) :
    ∃ l : List (Name × V), l.Perm (colsOf k cols) ∧ l.map (fun e => e.1) = sortNames (colNames k cols.length) ∧
      l.map (fun e => e.2) = lexCols cols := by
  refine ⟨(cols.zipIdx.mergeSort fun p q => nameLe (Nat.toDigits 10 p.2) (Nat.toDigits 10 q.2)).map fun p => (colName k p.2, p.1),
    (List.mergeSort_perm _ _).map _, ?_, ?_⟩
  · rw [List.map_map]
    unfold sortNames colNames
    rw [← snd_zipIdx cols, List.map_map]
    refine List.map_mergeSort fun a _ b _ => ?_
    simp only [Function.comp, colName_le]
  · rw [List.map_map]
    rfl

theorem joinLoop_singles (d : List (Name × Sig V)) (G H : List (Name × List Name)) (h : ∀ e ∈ G, e.2.length ≤ 1) :
    joinLoop d (G ++ H) = joinLoop d H := by
  induction G with
  | nil => rfl
  | cons e G ih =>
    obtain ⟨k, n⟩ := e
    have : ¬ 1 < n.length := not_lt.2 (h (k, n) (by simp))
    rw [List.cons_append, joinLoop, joinOne, if_neg this]
    exact ih fun e he => h e (by simp [he])

theorem joinLoop_twos (T : List (Name × List V)) (A C : List (Name × Sig V)) (hT : ∀ e ∈ T, 2 ≤ e.2.length)
    (h : (dkeys (A ++ asOne (brokenOf T) ++ C) ++ dkeys T).Nodup) :
    joinLoop (A ++ asOne (brokenOf T) ++ C) (T.map fun e => (e.1, colNames e.1 e.2.length)) =
      .ok (A ++ C ++ T.map fun e => (e.1, .two (lexCols e.2))) := by
  induction T generalizing C with
  | nil => simp [brokenOf, asOne, joinLoop]
  | cons e T ih =>
    obtain ⟨k, cols⟩ := e
    obtain ⟨l, l1, l2, l3⟩ := sort_colsOf k cols
    have hd := (List.nodup_append.1 h).1
    have hlen : 1 < (colNames k cols.length).length := by
      have := hT (k, cols) (by simp)
      simpa [colNames, Nat.lt_iff_add_one_le] using this
    have hst := stack_ok hd l (by
      intro e he
      have := l1.mem_iff.1 he
      simp only [List.mem_append]
      exact .inl (.inr (List.mem_map.2 ⟨e, by simp [brokenOf, this], rfl⟩)))
    have hk : k ∉ dkeys (A ++ asOne (brokenOf ((k, cols) :: T)) ++ C) := by
      intro hk
      exact (List.nodup_append.1 h).2.2 _ hk _ (by simp [dkeys]) rfl
    rw [List.map_cons, joinLoop, joinOne, if_pos hlen, ← l2, hst]
    simp only
    rw [dset_fresh hk, foldl_ddel, l3]
    have hmem : ∀ n : Name, n ∈ l.map (fun e => e.1) ↔ n ∈ dkeys (colsOf k cols) := fun n => (l1.map _).mem_iff
    have hf : (A ++ asOne (brokenOf ((k, cols) :: T)) ++ C ++ [(k, Sig.two (lexCols cols))]).filter
        (fun e => e.1 ∉ l.map fun e => e.1) = A ++ asOne (brokenOf T) ++ (C ++ [(k, Sig.two (lexCols cols))]) := by
      have hkeep : ∀ L : List (Name × Sig V), (∀ n ∈ dkeys L, n ∉ dkeys (colsOf k cols)) →
          L.filter (fun e => e.1 ∉ l.map fun e => e.1) = L := by
        intro L hL
        refine List.filter_eq_self.2 fun e he => ?_
        rw [decide_eq_true_eq, hmem]
        exact hL _ (List.mem_map.2 ⟨e, he, rfl⟩)
      have hdrop : (asOne (colsOf k cols)).filter (fun e => e.1 ∉ l.map fun e => e.1) = [] := by
        refine List.filter_eq_nil_iff.2 fun e he => ?_
        rw [decide_eq_true_eq, hmem, not_not, ← dkeys_asOne]
        exact List.mem_map.2 ⟨e, he, rfl⟩
      have hd' := hd
      simp only [brokenOf, List.flatMap_cons, asOne_append, dkeys_append, dkeys_asOne] at hd'
      rw [List.nodup_append, List.nodup_append, List.nodup_append] at hd'
      obtain ⟨⟨a1, ⟨a2, a3, a4⟩, a5⟩, a6, a7⟩ := hd'
      simp only [brokenOf, List.flatMap_cons, asOne_append, List.filter_append, hdrop, List.nil_append]
      rw [hkeep A, hkeep (asOne _), hkeep C, hkeep [_]]
      · simp
      · intro n hn hn'
        simp only [dkeys, List.map_cons, List.map_nil, List.mem_singleton] at hn
        subst hn
        rw [dkeys_colsOf] at hn'
        obtain ⟨i, -, hi⟩ := List.mem_map.1 hn'
        exact not_extends_self n (by conv => arg 2; rw [← hi]
                                     exact colName_extends n i)
      · intro n hn hn'
        exact a7 n (List.mem_append.2 (.inr (List.mem_append.2 (.inl hn')))) n hn rfl
      · intro n hn hn'
        rw [dkeys_asOne] at hn
        exact a4 n hn' n hn rfl
      · intro n hn hn'
        exact a5 n hn n (List.mem_append.2 (.inl hn')) rfl
    rw [hf]
    rw [ih (C ++ [(k, Sig.two (lexCols cols))]) (fun e he => hT e (by simp [he]))]
    · simp
    · refine h.sublist ?_
      simp only [brokenOf, List.flatMap_cons, asOne_append, dkeys_append, List.append_assoc]
      refine List.Sublist.append_left ?_ _
      refine (List.sublist_append_right (dkeys (asOne (colsOf k cols))) _).trans ?_
      simp [dkeys]

/-! ## The round trip -/

/-- Signals whose names do not interfere: the name of a signal is never that of a two-dimensional one followed by an underscore and
more characters, and two one-dimensional signals never differ only in (or by) what follows the last underscore. -/
structure Separable (S : List (Name × Sig V)) : Prop where
  unique : (dkeys S).Nodup
  two : ∀ a cols, (a, .two cols) ∈ S → ∀ b ∈ dkeys S, ¬ Extends a b
  one : ∀ a x b y, (a, .one x) ∈ S → (b, .one y) ∈ S → ¬ Extends a b ∧ (a ≠ b → ¬ ∃ c, Extends c a ∧ Extends c b)

theorem dkeys_split (S : List (Name × Sig V)) : (dkeys S).Perm (dkeys (onesOf S) ++ dkeys (twosOf S)) := by
  induction S with
  | nil => exact .refl _
  | cons e S ih =>
    obtain ⟨k, x | c⟩ := e
    · exact ih.cons k
    · exact (ih.cons k).trans List.perm_middle.symm

theorem colNames_nodup (k : Name) (m : ℕ) : (colNames k m).Nodup :=
  List.Nodup.map_on (fun _ _ _ _ h => (colName_inj h).2) List.nodup_range

theorem mem_brokenOf {T : List (Name × List V)} {n : Name} (h : n ∈ dkeys (brokenOf T)) :
    ∃ e ∈ T, ∃ i, n = colName e.1 i := by
  obtain ⟨⟨n', x⟩, hx, rfl⟩ := List.mem_map.1 h
  obtain ⟨e, he, hx⟩ := List.mem_flatMap.1 hx
  obtain ⟨p, -, hp⟩ := List.mem_map.1 hx
  exact ⟨e, he, p.2, (Prod.mk.inj hp).1.symm⟩

theorem brokenOf_nodup {T : List (Name × List V)} (h : (dkeys T).Nodup) : (dkeys (brokenOf T)).Nodup := by
  induction T with
  | nil => simp [dkeys, brokenOf]
  | cons e T ih =>
    obtain ⟨k, cols⟩ := e
    rw [dkeys, List.map_cons, List.nodup_cons] at h
    rw [brokenOf, List.flatMap_cons, dkeys_append, List.nodup_append]
    refine ⟨by rw [dkeys_colsOf]; exact colNames_nodup _ _, ih h.2, ?_⟩
    rintro a ha b hb rfl
    rw [dkeys_colsOf] at ha
    obtain ⟨i, -, rfl⟩ := List.mem_map.1 ha
    obtain ⟨e, he, j, hj⟩ := mem_brokenOf hb
    exact h.1 (List.mem_map.2 ⟨e, he, (colName_inj hj).1.symm⟩)

theorem break_eq {S : List (Name × Sig V)} (h : Separable S) :
    breakSignals S = asOne (onesOf S) ++ asOne (brokenOf (twosOf S)) := by
  have := break_aux S [] [] (by
    simp only [List.nil_append, List.append_nil, dkeys_append, dkeys_asOne]
    rw [List.nodup_append]
    refine ⟨h.unique, brokenOf_nodup ((List.nodup_append.1 ((dkeys_split S).nodup_iff.1 h.unique)).2.1), ?_⟩
    rintro a ha b hb rfl
    obtain ⟨⟨k, c⟩, he, i, rfl⟩ := mem_brokenOf hb
    exact h.two k c (mem_twosOf.1 he) _ ha (colName_extends k i))
  simpa [breakSignals] using this

/-- **C81** a graph's signals survive being broken for the export and joined after the import: the one-dimensional ones are unchanged,
the two-dimensional ones have their columns back, in the order of the decimal representations of the column numbers. -/
theorem C81_round_trip {S : List (Name × Sig V)} (h : Separable S) (h2 : ∀ a cols, (a, .two cols) ∈ S → 2 ≤ cols.length) :
    ∃ S', joinSignals (breakSignals S) = .ok S' ∧ (dkeys S').Nodup ∧
      (∀ a x, dget S a = some (.one x) → dget S' a = some (.one x)) ∧
      (∀ a cols, dget S a = some (.two cols) → dget S' a = some (.two (lexCols cols))) ∧
      (∀ a, dget S a = none → dget S' a = none) := by
  have hp := (dkeys_split S).nodup_iff.1 h.unique
  have hT : ∀ e ∈ twosOf S, 2 ≤ e.2.length := fun e he => h2 e.1 e.2 (mem_twosOf.1 he)
  have hsep : ∀ e ∈ twosOf S, ∀ b ∈ dkeys S, ¬ Extends e.1 b := fun e he => h.two e.1 e.2 (mem_twosOf.1 he)
  have ho : ∀ b ∈ dkeys (onesOf S), b ∈ dkeys S := fun b hb => (dkeys_split S).mem_iff.2 (List.mem_append.2 (.inl hb))
  have ht : ∀ b ∈ dkeys (twosOf S), b ∈ dkeys S := fun b hb => (dkeys_split S).mem_iff.2 (List.mem_append.2 (.inr hb))
  have hbase : ((dkeys (onesOf S)).map rsplitBase).Nodup := by
    refine List.Nodup.map_on ?_ (List.nodup_append.1 hp).1
    intro a ha b hb hab
    obtain ⟨⟨a, x⟩, hxa, rfl⟩ := List.mem_map.1 ha
    obtain ⟨⟨b, y⟩, hyb, rfl⟩ := List.mem_map.1 hb
    simp only at hab ⊢
    have o1 := h.one a x b y (mem_onesOf.1 hxa) (mem_onesOf.1 hyb)
    have o2 := h.one b y a x (mem_onesOf.1 hyb) (mem_onesOf.1 hxa)
    by_contra hne
    rcases rsplit_cases a with ⟨t, t1, t2⟩ | ⟨t1, t2⟩
    · rcases rsplit_cases b with ⟨u, u1, u2⟩ | ⟨u1, u2⟩
      · exact o1.2 hne ⟨rsplitBase a, ⟨t, t1, t2⟩, ⟨u, u1, hab ▸ u2⟩⟩
      · exact o2.1 ⟨t, t1, by rw [← u2, ← hab]; exact t2⟩
    · rcases rsplit_cases b with ⟨u, u1, u2⟩ | ⟨u1, u2⟩
      · exact o1.1 ⟨u, u1, by rw [← t2, hab]; exact u2⟩
      · exact hne (by rw [← t2, ← u2, hab])
  have hdisj : ∀ a ∈ dkeys (onesOf S), rsplitBase a ∉ dkeys (twosOf S) := by
    intro a ha hb
    obtain ⟨e, he, hb⟩ := List.mem_map.1 hb
    rcases rsplit_cases a with ⟨t, t1, t2⟩ | ⟨t1, t2⟩
    · exact hsep e he a (ho a ha) ⟨t, t1, by rw [hb]; exact t2⟩
    · exact (List.nodup_append.1 hp).2.2 a ha a (List.mem_map.2 ⟨e, he, hb.trans t2⟩) rfl
  have hjoined : joinedNames (dkeys (breakSignals S)) = (dkeys (onesOf S)).map (fun n => (rsplitBase n, [n])) ++
      (twosOf S).map fun e => (e.1, colNames e.1 e.2.length) := by
    rw [break_eq h, dkeys_append, dkeys_asOne, dkeys_asOne, joinedNames, List.foldl_append, joined_fresh _ [] (by simpa [dkeys] using hbase),
      List.nil_append, joined_twos _ _ fun e he => by have := hT e he; omega]
    have : dkeys ((dkeys (onesOf S)).map fun n => (rsplitBase n, [n])) = (dkeys (onesOf S)).map rsplitBase := by
      simp [dkeys, List.map_map, Function.comp_def]
    rw [this, List.nodup_append]
    refine ⟨hbase, (List.nodup_append.1 hp).2.1, ?_⟩
    rintro a ha b hb rfl
    obtain ⟨a, ha', rfl⟩ := List.mem_map.1 ha
    exact hdisj a ha' hb
  have hfinal : joinSignals (breakSignals S) = .ok (asOne (onesOf S) ++ (twosOf S).map fun e => (e.1, .two (lexCols e.2))) := by
    rw [joinSignals, hjoined, joinLoop_singles _ _ _ (by
      intro e he
      obtain ⟨n, -, rfl⟩ := List.mem_map.1 he
      simp), break_eq h]
    have := joinLoop_twos (twosOf S) (asOne (onesOf S)) [] hT (by
      simp only [List.append_nil, dkeys_append, dkeys_asOne]
      rw [List.nodup_append, List.nodup_append]
      refine ⟨⟨(List.nodup_append.1 hp).1, brokenOf_nodup (List.nodup_append.1 hp).2.1, ?_⟩, (List.nodup_append.1 hp).2.1, ?_⟩
      · rintro a ha b hb rfl
        obtain ⟨e, he, i, rfl⟩ := mem_brokenOf hb
        exact hsep e he _ (ho _ ha) (colName_extends _ _)
      · rintro a ha b hb rfl
        rcases List.mem_append.1 ha with ha | ha
        · exact (List.nodup_append.1 hp).2.2 a ha a hb rfl
        · obtain ⟨e, he, i, rfl⟩ := mem_brokenOf ha
          exact hsep e he _ (ht _ hb) (colName_extends _ _))
    simpa using this
  have hkeys : dkeys (asOne (onesOf S) ++ (twosOf S).map fun e => (e.1, Sig.two (lexCols e.2))) =
      dkeys (onesOf S) ++ dkeys (twosOf S) := by
    rw [dkeys_append, dkeys_asOne]
    simp [dkeys, List.map_map, Function.comp_def]
  have hnd : (dkeys (asOne (onesOf S) ++ (twosOf S).map fun e => (e.1, Sig.two (lexCols e.2)))).Nodup := by rw [hkeys]; exact hp
  refine ⟨_, hfinal, hnd, fun a x hx => ?_, fun a cols hx => ?_, fun a hx => ?_⟩
  · rw [dget_eq_some h.unique] at hx
    rw [dget_eq_some hnd, List.mem_append]
    exact .inl (List.mem_map.2 ⟨(a, x), mem_onesOf.2 hx, rfl⟩)
  · rw [dget_eq_some h.unique] at hx
    rw [dget_eq_some hnd, List.mem_append]
    exact .inr (List.mem_map.2 ⟨(a, cols), mem_twosOf.2 hx, rfl⟩)
  · rw [dget_eq_none] at hx ⊢
    rw [hkeys]
    exact fun h' => hx ((dkeys_split S).mem_iff.2 h')

theorem lexCols_small {cols : List V} (h : cols.length ≤ 10) : lexCols cols = cols := by
  have hz : cols.zipIdx.Pairwise fun p q => nameLe (Nat.toDigits 10 p.2) (Nat.toDigits 10 q.2) = true := by
    have h1 : (cols.zipIdx.map fun p => p.2).Pairwise (· < ·) := by
      rw [snd_zipIdx]
      exact List.pairwise_lt_range
    rw [List.pairwise_map] at h1
    refine h1.imp_of_mem fun {p q} _ hq hpq => ?_
    have hq' : q.2 ∈ List.range cols.length := by
      rw [← snd_zipIdx]
      exact List.mem_map.2 ⟨q, hq, rfl⟩
    have hq10 : q.2 < 10 := (List.mem_range.1 hq').trans_le h
    have key : ∀ j : Fin 10, ∀ i : Fin j.1, nameLe (Nat.toDigits 10 i.1) (Nat.toDigits 10 j.1) = true := by decide
    exact key ⟨q.2, hq10⟩ ⟨p.2, hpq⟩
  rw [lexCols, List.mergeSort_of_pairwise hz]
  exact List.zipIdx_map_fst 0 cols

/-- **C81** with two to ten columns in every two-dimensional signal, the round trip gives back exactly the same signals. -/
theorem C81_exact {S : List (Name × Sig V)} (h : Separable S)
    (h2 : ∀ a cols, (a, .two cols) ∈ S → 2 ≤ cols.length ∧ cols.length ≤ 10) :
    ∃ S', joinSignals (breakSignals S) = .ok S' ∧ (dkeys S').Nodup ∧ ∀ a, dget S' a = dget S a := by
  obtain ⟨S', h1, hn, h3, h4, h5⟩ := C81_round_trip h fun a c hc => (h2 a c hc).1
  refine ⟨S', h1, hn, fun a => ?_⟩
  cases hg : dget S a with
  | none => exact h5 a hg
  | some v =>
    cases v with
    | one x => exact h3 a x hg
    | two cols =>
      rw [h4 a cols hg, lexCols_small (h2 a cols ((dget_eq_some h.unique).1 hg)).2]

theorem nameLe_total (a b : Name) : (nameLe a b || nameLe b a) = true := by
  induction a generalizing b with
  | nil => simp [nameLe]
  | cons c a ih =>
    cases b with
    | nil => simp [nameLe]
    | cons d b =>
      by_cases h : c = d
      · subst h
        simpa [nameLe] using ih b
      · have : c.toNat ≠ d.toNat := fun e => h (Char.toNat_inj.1 e)
        rw [nameLe, nameLe, if_neg h, if_neg (Ne.symm h)]
        simp only [Bool.or_eq_true, decide_eq_true_eq]
        omega

theorem nameLe_trans (a b c : Name) (h1 : nameLe a b = true) (h2 : nameLe b c = true) : nameLe a c = true := by
  induction a generalizing b c with
  | nil => simp [nameLe]
  | cons x a ih =>
    cases b with
    | nil => simp [nameLe] at h1
    | cons y b =>
      cases c with
      | nil => simp [nameLe] at h2
      | cons z c =>
        rw [nameLe] at h1 h2 ⊢
        by_cases hxy : x = y
        · subst hxy
          rw [if_pos rfl] at h1
          by_cases hxz : x = z
          · subst hxz
            rw [if_pos rfl] at h2 ⊢
            exact ih b c h1 h2
          · rw [if_neg hxz] at h2 ⊢
            exact h2
        · rw [if_neg hxy] at h1
          by_cases hyz : y = z
          · subst hyz
            rw [if_neg hxy]
            exact h1
          · rw [if_neg hyz] at h2
            simp only [decide_eq_true_eq] at h1 h2
            have : x ≠ z := by
              rintro rfl
              omega
            rw [if_neg this]
            simp only [decide_eq_true_eq]
            omega

/-- Violation: a signal with eleven or more (different) columns comes back with its columns in another order (`_10` is sorted before
`_2`). -/
theorem C81_order_violated {cols : List V} (h : 11 ≤ cols.length) (hn : cols.Nodup) (a : Name) :
    ∃ cols', joinSignals (breakSignals [(a, .two cols)]) = .ok [(a, .two cols')] ∧ cols'.Perm cols ∧ cols' ≠ cols := by
  have hsep : Separable [(a, Sig.two cols)] := by
    refine ⟨by simp [dkeys], ?_, ?_⟩
    · intro b c hb d hd
      simp only [List.mem_singleton, Prod.mk.injEq, dkeys, List.map_cons, List.map_nil] at hb hd
      rw [hb.1, hd]
      exact not_extends_self a
    · intro b x c y hb
      simp at hb
  refine ⟨lexCols cols, ?_, ?_, fun e => ?_⟩
  · obtain ⟨S', h1, hn', h3, h4, h5⟩ := C81_round_trip hsep (by
      intro b c hb
      simp only [List.mem_singleton, Prod.mk.injEq, Sig.two.injEq] at hb
      rw [hb.2]
      omega)
    rw [h1]
    have hg := h4 a cols (by simp [dget])
    have hall : ∀ e ∈ S', e = (a, Sig.two (lexCols cols)) := by
      rintro ⟨b, v⟩ he
      have hb := (dget_eq_some hn').2 he
      by_cases hab : b = a
      · subst hab
        rw [hg] at hb
        rw [Option.some.inj hb]
      · rw [h5 b (by simp [dget, Ne.symm hab])] at hb
        cases hb
    have hmem : (a, Sig.two (lexCols cols)) ∈ S' := (dget_eq_some hn').1 hg
    congr 1
    match S', hall, hmem, hn' with
    | [], _, hm, _ => cases hm
    | [e], hall, _, _ => rw [hall e (by simp)]
    | e :: f :: L, hall, _, hn' =>
      rw [hall e (by simp), hall f (by simp)] at hn'
      simp [dkeys] at hn'
  · have h1 := (List.mergeSort_perm cols.zipIdx fun p q => nameLe (Nat.toDigits 10 p.2) (Nat.toDigits 10 q.2)).map fun p => p.1
    have h2 : cols.zipIdx.map (fun p => p.1) = cols := List.zipIdx_map_fst 0 cols
    rw [h2] at h1
    exact h1
  · have hf : cols.zipIdx.map (fun p => p.1) = cols := List.zipIdx_map_fst 0 cols
    unfold lexCols at e
    set Z := cols.zipIdx with hZ
    set L := Z.mergeSort fun p q => nameLe (Nat.toDigits 10 p.2) (Nat.toDigits 10 q.2) with hL
    have hperm : L.Perm Z := List.mergeSort_perm _ _
    have hinj := List.inj_on_of_nodup_map (f := fun p : V × ℕ => p.1) (l := Z) (by rw [hf]; exact hn)
    have hLZ : L = Z := by
      refine List.ext_getElem hperm.length_eq fun i h1 h2 => ?_
      refine hinj (hperm.mem_iff.1 (List.getElem_mem _)) (List.getElem_mem _) ?_
      have := congrArg (fun l => l[i]?) (e.trans hf.symm)
      simp only [List.getElem?_map, List.getElem?_eq_getElem h1, List.getElem?_eq_getElem h2, Option.map_some,
        Option.some.injEq] at this
      exact this
    have hpw : L.Pairwise fun p q => nameLe (Nat.toDigits 10 p.2) (Nat.toDigits 10 q.2) = true :=
      List.pairwise_mergeSort (le := fun p q : V × ℕ => nameLe (Nat.toDigits 10 p.2) (Nat.toDigits 10 q.2))
        (fun a b c => nameLe_trans _ _ _) (fun a b => nameLe_total _ _) Z
    rw [hLZ] at hpw
    have hlen : Z.length = cols.length := List.length_zipIdx ..
    have := List.pairwise_iff_getElem.1 hpw 2 10 (by omega) (by omega) (by omega)
    simp only [Z, List.getElem_zipIdx] at this
    exact absurd this (by decide)

/-- Violation: a two-dimensional signal with a single column comes back one-dimensional and under another name, and one without
columns does not come back. -/
theorem C81_one_column_violated (a : Name) (x : V) :
    joinSignals (breakSignals [(a, .two [x])]) = .ok [(colName a 0, .one x)] ∧
      joinSignals (breakSignals [(a, .two ([] : List V))]) = .ok [] := by
  have h : colName a 0 ≠ a := by
    intro e
    have := colName_extends a 0
    rw [e] at this
    exact not_extends_self a this
  constructor
  · simp [breakSignals, dkeys, breakOne, dget, dset, ddel, h, Ne.symm h, joinSignals, joinedNames, joinLoop, joinOne]
  · simp [breakSignals, dkeys, breakOne, dget, ddel, joinSignals, joinedNames, joinLoop]

/-- Violation: two one-dimensional signals named `x` and `x_1` (or `x_` followed by anything without underscore) are both lost. -/
theorem C81_lost_violated {a t : Name} (ha : '_' ∉ a) (ht : '_' ∉ t) (x y : V) :
    joinSignals (breakSignals [(a, .one x), (a ++ '_' :: t, .one y)]) = .ok [] := by
  have hne : a ++ '_' :: t ≠ a := fun e => not_extends_self a ⟨t, ht, e.symm⟩
  have hb : rsplitBase a = a := if_neg ha
  have hbr : breakSignals [(a, Sig.one x), (a ++ '_' :: t, .one y)] = [(a, .one x), (a ++ '_' :: t, .one y)] := by
    simp [breakSignals, dkeys, breakOne, dget, Ne.symm hne]
  have hj : joinedNames [a, a ++ '_' :: t] = [(a, [a, a ++ '_' :: t])] := by
    simp [joinedNames, hb, rsplit_extends ht, dget, dset]
  have hs : sortNames [a, a ++ '_' :: t] = [a, a ++ '_' :: t] := by
    refine List.mergeSort_of_pairwise ?_
    have : ∀ (a b : Name), nameLe a (a ++ b) = true := by
      intro a b
      induction a with
      | nil => simp [nameLe]
      | cons c a ih => rw [List.cons_append, nameLe, if_pos rfl, ih]
    simp [this]
  rw [hbr, joinSignals]
  simp only [dkeys, List.map_cons, List.map_nil, hj, joinLoop, joinOne, List.length_cons, List.length_nil, hs, stackSignals, dget,
    Ne.symm hne, if_true, if_false]
  simp [dset, ddel, Ne.symm hne, hne]

/-- Violation: two one-dimensional signals named `a_b` and `a_c` come back as one two-dimensional signal `a`. -/
theorem C81_merged_violated {a t u : Name} (ht : '_' ∉ t) (hu : '_' ∉ u) (hne : t ≠ u) (x y : V) :
    ∃ cols, joinSignals (breakSignals [(a ++ '_' :: t, .one x), (a ++ '_' :: u, .one y)]) = .ok [(a, .two cols)] ∧ cols.Perm [x, y] := by
  set A := a ++ '_' :: t with hA
  set B := a ++ '_' :: u with hB
  have hAB : A ≠ B := by
    intro e
    exact hne (List.cons.inj (List.append_cancel_left e)).2
  have hBA := Ne.symm hAB
  have hAa : A ≠ a := fun e => not_extends_self a ⟨t, ht, by rw [← hA, e]⟩
  have hBa : B ≠ a := fun e => not_extends_self a ⟨u, hu, by rw [← hB, e]⟩
  have hbr : breakSignals [(A, Sig.one x), (B, .one y)] = [(A, .one x), (B, .one y)] := by
    simp [breakSignals, dkeys, breakOne, dget, hAB]
  have hj : joinedNames [A, B] = [(a, [A, B])] := by
    simp [joinedNames, hA, hB, rsplit_extends ht, rsplit_extends hu, dget, dset]
  have hs : sortNames [A, B] = [A, B] ∨ sortNames [A, B] = [B, A] := by
    have hp : (sortNames [A, B]).Perm [A, B] := List.mergeSort_perm _ _
    have hlen := hp.length_eq
    have hnd : (sortNames [A, B]).Nodup := hp.nodup_iff.2 (by simp [hAB])
    match hS : sortNames [A, B], hp, hlen, hnd with
    | [p, q], hp, _, hnd =>
      have h1 : p ∈ [A, B] := hp.mem_iff.1 (by simp)
      have h2 : q ∈ [A, B] := hp.mem_iff.1 (by simp)
      simp only [List.mem_cons, List.not_mem_nil, or_false] at h1 h2
      simp only [List.nodup_cons, List.mem_singleton] at hnd
      rcases h1 with rfl | rfl <;> rcases h2 with rfl | rfl
      · exact absurd rfl hnd.1
      · exact .inl rfl
      · exact .inr rfl
      · exact absurd rfl hnd.1
  rw [hbr, joinSignals]
  simp only [dkeys, List.map_cons, List.map_nil, hj, joinLoop, joinOne, List.length_cons, List.length_nil]
  rcases hs with hs | hs
  · refine ⟨[x, y], ?_, .refl _⟩
    simp [hs, stackSignals, dget, dset, ddel, hAB, hBA, hAa, hBa, Ne.symm hAa, Ne.symm hBa]
  · refine ⟨[y, x], ?_, List.Perm.swap _ _ _⟩
    simp [hs, stackSignals, dget, dset, ddel, hAB, hBA, hAa, hBa, Ne.symm hAa, Ne.symm hBa]

/-- Violation: exporting changes the graph: the signals of the graph itself are broken, so that afterwards `G.signals` has no key for a
two-dimensional signal. -/
theorem C81_export_mutates_violated {S : List (Name × Sig V)} (h : Separable S) {a : Name} {cols : List V} (ha : dget S a = some (.two cols)) :
    dget (breakSignals S) a = none ∧ ∀ i x, cols[i]? = some x → dget (breakSignals S) (colName a i) = some (.one x) := by
  have hm := (dget_eq_some h.unique).1 ha
  have hp := (dkeys_split S).nodup_iff.1 h.unique
  have hak : a ∈ dkeys (twosOf S) := List.mem_map.2 ⟨(a, cols), mem_twosOf.2 hm, rfl⟩
  rw [break_eq h]
  constructor
  · rw [dget_eq_none, dkeys_append, dkeys_asOne, dkeys_asOne, List.mem_append]
    rintro (h' | h')
    · exact (List.nodup_append.1 hp).2.2 a h' a hak rfl
    · obtain ⟨e, he, i, hi⟩ := mem_brokenOf h'
      refine h.two e.1 e.2 (mem_twosOf.1 he) a (List.mem_map.2 ⟨_, hm, rfl⟩) ?_
      rw [hi]
      exact colName_extends _ _
  · intro i x hx
    rw [dget_eq_some]
    · refine List.mem_append.2 (.inr (List.mem_map.2 ⟨(colName a i, x), List.mem_flatMap.2 ⟨(a, cols), mem_twosOf.2 hm, ?_⟩, rfl⟩))
      exact List.mem_map.2 ⟨(x, i), List.mem_zipIdx_iff_getElem?.2 hx, rfl⟩
    · rw [dkeys_append, dkeys_asOne, dkeys_asOne, List.nodup_append]
      refine ⟨(List.nodup_append.1 hp).1, brokenOf_nodup (List.nodup_append.1 hp).2.1, ?_⟩
      rintro b hb c hc rfl
      obtain ⟨e, he, j, rfl⟩ := mem_brokenOf hc
      exact h.two e.1 e.2 (mem_twosOf.1 he) _ ((dkeys_split S).mem_iff.2 (List.mem_append.2 (.inl hb))) (colName_extends _ _)

/-- A one-dimensional signal `temp` and a two-dimensional one `wind_speed` with two columns. -/
example : ∃ S : List (Name × Sig ℕ), Separable S ∧ ∃ a cols, (a, .two cols) ∈ S ∧ 2 ≤ cols.length ∧ cols.length ≤ 10 := by
  refine ⟨[("temp".toList, .one 1), ("wind_speed".toList, .two [2, 3])], ⟨by decide, ?_, ?_⟩, "wind_speed".toList, [2, 3], by simp, by simp, by simp⟩
  · intro a cols ha b hb
    simp only [List.mem_cons, Prod.mk.injEq, reduceCtorEq, and_false, List.not_mem_nil, or_false, false_or, dkeys, List.map_cons,
      List.map_nil] at ha hb
    rintro ⟨t, -, h⟩
    have := congrArg List.length h
    rw [ha.1] at this
    simp only [List.length_append, List.length_cons] at this
    rcases hb with rfl | rfl
    · have e : "temp".toList.length = 4 := by decide
      have e' : "wind_speed".toList.length = 10 := by decide
      omega
    · omega
  · intro a x b y ha hb
    simp only [List.mem_cons, Prod.mk.injEq, reduceCtorEq, and_false, List.not_mem_nil, or_false] at ha hb
    rw [ha.1, hb.1]
    exact ⟨not_extends_self _, fun h => absurd rfl h⟩

end PyGSP.IO
