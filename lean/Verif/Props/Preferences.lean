import Verif.Model.Preferences
import Verif.Props.Drawings
import Verif.Props.PointNN
import Verif.Props.PointClouds
import Verif.Props.LowStretch
import Verif.Props.RandomRing

/-!
# C136: the drawing preferences `G.plotting`
-/

namespace PyGSP.Prefs

/-- `G.plotting.get(k)`, or the same of a dictionary of the user. -/
def World.pref (w : World) (r : Ref) (k : String) : Option Val := (w.deref r).bind fun d => get d k

/-- The next graph that will be made. -/
def World.next (w : World) : Ref := .graph w.graphs.length

/-- The dictionary that an operation changes. -/
def Op.target : Op → Option Ref
  | .set r _ _ => some r
  | .del r _ => some r
  | _ => none

/-- The values that make sense for the drawing. -/
def Sensible : String → Val → Prop
  | "vertex_size", v => ∃ x, v = .num x
  | "edge_width", v => ∃ x, v = .num x
  | "normalize_intercept", v => ∃ x, v = .num x
  | "vertex_color", v => ∃ r g b a, v = .nums [r, g, b, a]
  | "edge_color", v => ∃ r g b a, v = .nums [r, g, b, a]
  | _, _ => True

/-- An operation that removes no entry and only writes sensible values. -/
def Op.Sensible : Op → Prop
  | .dict d => ∀ p ∈ d, Prefs.Sensible p.1 p.2
  | .set _ k v => Prefs.Sensible k v
  | .del _ _ => False
  | _ => True

/-- The point is in the box `[xmin, xmax, ymin, ymax, ...]`. -/
def InBox : List ℝ → List ℝ → Prop
  | _, [] => True
  | a :: b :: l, x :: p => a ≤ x ∧ x ≤ b ∧ InBox l p
  | _, _ => False

/-! ### Dictionaries -/

theorem get_cons (p : String × Val) (d : Dict) (k : String) : get (p :: d) k = if p.1 = k then some p.2 else get d k := by
  unfold get
  rw [List.lookup_cons]
  by_cases h : p.1 = k
  · simp [h]
  · have : (k == p.1) = false := by simpa using fun e => h e.symm
    simp [this, h]

theorem get_append (d e : Dict) (k : String) : get (d ++ e) k = (get d k).or (get e k) := by
  induction d with
  | nil => simp [get]
  | cons p d ih =>
    rw [List.cons_append, get_cons, get_cons, ih]
    split <;> simp

theorem get_none_iff (d : Dict) (k : String) : get d k = none ↔ ∀ p ∈ d, p.1 ≠ k := by
  induction d with
  | nil => simp [get]
  | cons p d ih =>
    rw [get_cons]
    by_cases h : p.1 = k
    · simp [h]
    · simp [h, ih]

theorem get_map (d : Dict) (k k' : String) (v : Val) :
    get (d.map fun p => if p.1 = k then (k, v) else p) k' = if k' = k then (get d k').map fun _ => v else get d k' := by
  induction d with
  | nil => simp [get]
  | cons p d ih =>
    rw [List.map_cons, get_cons, get_cons, ih]
    by_cases h : p.1 = k <;> by_cases h' : k' = k
    · simp [h, h']
    · have : ¬ k = k' := fun e => h' e.symm
      simp [h, h', this]
    · subst h'
      simp [h]
    · simp [h, h']

theorem get_dictSet (d : Dict) (k k' : String) (v : Val) : get (dictSet d k v) k' = if k' = k then some v else get d k' := by
  unfold dictSet
  split
  · rename_i h
    rw [get_map]
    split
    · rename_i e
      subst e
      have : get d k' ≠ none := by
        rw [Ne, get_none_iff]
        push Not
        simpa using h
      obtain ⟨v', hv⟩ := Option.ne_none_iff_exists'.mp this
      simp [hv]
    · rfl
  · rename_i h
    rw [get_append, get_cons]
    have hn : get d k = none := by
      rw [get_none_iff]
      intro p hp e
      exact h (by simpa using ⟨p.2, by rw [← e]; exact hp⟩)
    by_cases e : k' = k
    · subst e
      simp [hn]
    · have : ¬ k = k' := fun e' => e e'.symm
      simp [e, this, get]

theorem get_erase (d : Dict) (k k' : String) : get (erase d k) k' = if k' = k then none else get d k' := by
  induction d with
  | nil => simp [get, erase]
  | cons p d ih =>
    unfold erase at ih ⊢
    rw [List.filter_cons]
    by_cases h : p.1 = k
    · rw [if_neg (by simp [h]), ih, get_cons]
      by_cases h' : k' = k
      · simp [h']
      · have : ¬ p.1 = k' := fun e => h' (by rw [← e, h])
        simp [h', this]
    · rw [if_pos (by simp [h]), get_cons, get_cons, ih]
      by_cases h' : k' = k
      · subst h'
        simp [h]
      · simp [h']

/-- The keys of a dictionary are different. -/
def Keys (d : Dict) : Prop := (d.map Prod.fst).Nodup

theorem keys_dictSet {d : Dict} (h : Keys d) (k : String) (v : Val) : Keys (dictSet d k v) := by
  unfold dictSet Keys
  split
  · have : (d.map fun p => if p.1 = k then (k, v) else p).map Prod.fst = d.map Prod.fst := by
      rw [List.map_map]
      refine List.map_congr_left fun p _ => ?_
      simp only [Function.comp]
      split <;> simp_all
    rw [this]
    exact h
  · rename_i hn
    rw [List.map_append]
    refine List.Nodup.append h (by simp) ?_
    intro x hx hx'
    simp only [List.map_cons, List.map_nil, List.mem_singleton] at hx'
    subst hx'
    obtain ⟨p, hp, e⟩ := List.mem_map.mp hx
    exact hn (by simpa using ⟨p.2, by rw [← e]; exact hp⟩)

theorem keys_erase {d : Dict} (h : Keys d) (k : String) : Keys (erase d k) := by
  unfold erase Keys
  exact h.sublist ((List.filter_sublist).map _)

theorem keys_update {d : Dict} (h : Keys d) (e : Dict) : Keys (update d e) := by
  unfold update
  induction e generalizing d with
  | nil => exact h
  | cons p e ih => exact ih (keys_dictSet h _ _)

theorem get_update (d : Dict) {e : Dict} (h : Keys e) (k : String) : get (update d e) k = (get e k).or (get d k) := by
  unfold update
  induction e generalizing d with
  | nil => simp [get]
  | cons p e ih =>
    have hk : Keys e := (List.nodup_cons.mp h).2
    have hp : p.1 ∉ e.map Prod.fst := (List.nodup_cons.mp h).1
    rw [List.foldl_cons, ih _ hk, get_dictSet, get_cons]
    by_cases e1 : p.1 = k
    · have : get e k = none := by
        rw [get_none_iff]
        intro q hq e2
        exact hp (by rw [e1, ← e2]; exact List.mem_map_of_mem hq)
      simp [e1, this]
    · have : ¬ k = p.1 := fun e2 => e1 e2.symm
      simp [e1, this]

theorem keys_defaults : Keys defaults := by
  unfold Keys defaults
  simp

theorem keys_own {c : Cls} {d : Dict} (h : own c = some d) : Keys d := by
  cases c <;> simp only [own, Option.some.injEq, reduceCtorEq] at h <;> subst h <;> simp [Keys]

/-! ### Histories -/

/-- The objects are all different, the default arguments are empty. -/
structure Good (w : World) : Prop where
  keys : ∀ d ∈ w.heap, Keys d
  zero : w.heap[0]? = some []
  one : w.heap[1]? = some []
  nodup : (w.graphs ++ w.mine).Nodup
  range : ∀ a ∈ w.graphs ++ w.mine, 2 ≤ a ∧ a < w.heap.length

theorem good_start : Good start := by
  constructor <;> simp [start, Keys]

theorem Good.addr {w : World} (g : Good w) {r : Ref} {a : ℕ} (h : w.addr r = some a) : 2 ≤ a ∧ a < w.heap.length := by
  cases r with
  | graph i => exact g.range a (List.mem_append_left _ (List.mem_of_getElem? h))
  | mine i => exact g.range a (List.mem_append_right _ (List.mem_of_getElem? h))

theorem Good.inj {w : World} (g : Good w) {r r' : Ref} {a : ℕ} (h : w.addr r = some a) (h' : w.addr r' = some a) : r = r' := by
  have hd := List.nodup_append.mp g.nodup
  cases r with
  | graph i =>
    cases r' with
    | graph j =>
      have h1 : w.graphs[i]? = some a := h
      have h2 : w.graphs[j]? = some a := h'
      obtain ⟨hi, e1⟩ := List.getElem?_eq_some_iff.mp h1
      obtain ⟨hj, e2⟩ := List.getElem?_eq_some_iff.mp h2
      rw [(List.Nodup.getElem_inj_iff hd.1).mp (e1.trans e2.symm)]
    | mine j => exact absurd rfl (hd.2.2 a (List.mem_of_getElem? h) a (List.mem_of_getElem? h'))
  | mine i =>
    cases r' with
    | graph j => exact absurd rfl (hd.2.2 a (List.mem_of_getElem? h') a (List.mem_of_getElem? h))
    | mine j =>
      have h1 : w.mine[i]? = some a := h
      have h2 : w.mine[j]? = some a := h'
      obtain ⟨hi, e1⟩ := List.getElem?_eq_some_iff.mp h1
      obtain ⟨hj, e2⟩ := List.getElem?_eq_some_iff.mp h2
      rw [(List.Nodup.getElem_inj_iff hd.2.1).mp (e1.trans e2.symm)]

theorem Good.deref {w : World} (g : Good w) {r : Ref} {a : ℕ} (h : w.addr r = some a) : ∃ d, w.deref r = some d ∧ w.heap[a]? = some d ∧ Keys d := by
  have hl := (g.addr h).2
  refine ⟨w.heap[a], ?_, List.getElem?_eq_getElem hl, g.keys _ (List.getElem_mem hl)⟩
  unfold World.deref
  rw [h]
  simp [hl]

theorem deref_keys {w : World} (g : Good w) {r : Ref} {d : Dict} (h : w.deref r = some d) : Keys d := by
  unfold World.deref at h
  obtain ⟨a, ha, e⟩ := Option.bind_eq_some_iff.mp h
  exact g.keys _ (List.mem_of_getElem? e)

theorem good_init {w : World} (g : Good w) (p : Dict) : Good (graphInit p w) := by
  have h2 : 2 ≤ w.heap.length := by
    have := g.one
    obtain ⟨h, -⟩ := List.getElem?_eq_some_iff.mp this
    omega
  refine ⟨?_, ?_, ?_, ?_, ?_⟩
  · intro d hd
    simp only [graphInit, World.alloc, List.mem_append, List.mem_singleton] at hd
    rcases hd with hd | rfl
    · exact g.keys d hd
    · exact keys_update keys_defaults p
  · simp only [graphInit, World.alloc]
    rw [List.getElem?_append_left (by omega)]
    exact g.zero
  · simp only [graphInit, World.alloc]
    rw [List.getElem?_append_left (by omega)]
    exact g.one
  · simp only [graphInit, World.alloc]
    rw [List.append_assoc, List.nodup_append_comm, List.append_assoc, List.singleton_append, List.nodup_cons]
    refine ⟨fun hm => ?_, ?_⟩
    · have := (g.range _ (by rw [List.mem_append] at hm ⊢; tauto)).2
      omega
    · rw [List.nodup_append_comm]
      exact g.nodup
  · intro a ha
    simp only [graphInit, World.alloc, List.mem_append, List.mem_singleton, List.length_append, List.length_singleton] at ha ⊢
    rcases ha with (ha | rfl) | ha
    · have := g.range a (List.mem_append_left _ ha)
      omega
    · omega
    · have := g.range a (List.mem_append_right _ ha)
      omega

theorem init_addr_old {w : World} (p : Dict) {r : Ref} (hr : w.addr r ≠ none) : (graphInit p w).addr r = w.addr r := by
  cases r with
  | graph i =>
    simp only [World.addr, graphInit] at hr ⊢
    rw [List.getElem?_append_left]
    simpa using hr
  | mine i => rfl

theorem init_deref_old {w : World} (g : Good w) (p : Dict) {r : Ref} (hr : w.addr r ≠ none) : (graphInit p w).deref r = w.deref r := by
  unfold World.deref
  rw [init_addr_old p hr]
  obtain ⟨a, ha⟩ := Option.ne_none_iff_exists'.mp hr
  rw [ha]
  simp only [Option.bind_some, graphInit, World.alloc]
  rw [List.getElem?_append_left (g.addr ha).2]

theorem init_deref_new (w : World) (p : Dict) : (graphInit p w).deref w.next = some (update defaults p) := by
  simp [World.deref, World.addr, World.next, graphInit, World.alloc]

theorem init_pref_new (w : World) {p : Dict} (hp : Keys p) (k : String) : (graphInit p w).pref w.next k = (get p k).or (get defaults k) := by
  unfold World.pref
  rw [init_deref_new, Option.bind_some, get_update _ hp]

theorem deref_none {w : World} {r : Ref} (g : Good w) : w.deref r = none ↔ w.addr r = none := by
  constructor
  · intro h
    by_contra hn
    obtain ⟨a, ha⟩ := Option.ne_none_iff_exists'.mp hn
    obtain ⟨d, hd, -⟩ := g.deref ha
    rw [h] at hd
    cases hd
  · intro h
    simp [World.deref, h]

/-- Where preferences given to a graph come from. -/
def Source (w : World) (p : Dict) : Prop := p ∈ w.heap ∨ p = [] ∨ ∃ c, own c = some p

theorem deref_mem {w : World} {r : Ref} {d : Dict} (h : w.deref r = some d) : d ∈ w.heap := by
  unfold World.deref at h
  obtain ⟨a, ha, e⟩ := Option.bind_eq_some_iff.mp h
  exact List.mem_of_getElem? e

theorem make_cases (c : Cls) (arg : Option Ref) (w : World) : (make c arg w).2 = w ∨ ∃ p, Source w p ∧ (make c arg w).2 = graphInit p w := by
  unfold make
  cases ho : own c with
  | some d =>
    cases arg with
    | none => exact .inr ⟨_, .inr (.inr ⟨c, ho⟩), rfl⟩
    | some r => exact .inl rfl
  | none =>
    cases arg with
    | none =>
      refine .inr ⟨_, ?_, rfl⟩
      rw [List.getD_eq_getElem?_getD]
      cases hq : w.heap[defaultArg c]? with
      | none => exact .inr (.inl rfl)
      | some d => exact .inl (List.mem_of_getElem? hq)
    | some r =>
      dsimp only
      cases hd : w.deref r with
      | none => exact .inl rfl
      | some p => exact .inr ⟨_, .inl (deref_mem hd), rfl⟩

theorem derive_cases (i : ℕ) (w : World) : (derive i w).2 = w ∨ ∃ p, Source w p ∧ (derive i w).2 = graphInit p w := by
  unfold derive
  cases hd : w.deref (.graph i) with
  | none => exact .inl rfl
  | some p => exact .inr ⟨_, .inl (deref_mem hd), rfl⟩

/-- A property kept by the creation of a graph is kept by all the operations that change no dictionary. -/
theorem step_ind {P : World → Prop} (hinit : ∀ w p, Source w p → P w → P (graphInit p w)) {w : World} (hw : P w) {o : Op} (ht : o.target = none)
    (hd : ∀ d, o ≠ .dict d) : P (step w o) := by
  have hmake : ∀ c arg w, P w → P (make c arg w).2 := by
    intro c arg w hw
    rcases make_cases c arg w with h | ⟨p, hs, h⟩ <;> rw [h]
    · exact hw
    · exact hinit _ _ hs hw
  have hder : ∀ i w, P w → P (derive i w).2 := by
    intro i w hw
    rcases derive_cases i w with h | ⟨p, hs, h⟩ <;> rw [h]
    · exact hw
    · exact hinit _ _ hs hw
  cases o with
  | dict d => exact absurd rfl (hd d)
  | make c arg => exact hmake c arg w hw
  | derive i => exact hder i w hw
  | gridPatches N1 N2 arg =>
    show P (gridPatches N1 N2 arg w).2
    unfold gridPatches
    have h1 := hmake .imgPatches arg _ (hmake (.grid2d N1 N2) none w hw)
    revert h1
    rcases make .imgPatches arg (make (.grid2d N1 N2) none w).2 with ⟨e | u, w'⟩
    · exact fun _ => hw
    · exact fun h1 => hder _ _ h1
  | set r k v => cases ht
  | del r k => cases ht

theorem good_modify {w : World} (g : Good w) (r : Ref) {f : Dict → Dict} (hf : ∀ d, Keys d → Keys (f d)) : Good (w.modify r f) := by
  unfold World.modify
  cases h : w.addr r with
  | none => exact g
  | some a =>
    dsimp only
    have ha := g.addr h
    refine ⟨?_, ?_, ?_, g.nodup, ?_⟩
    · intro d hd
      obtain ⟨i, hi⟩ := List.mem_iff_getElem?.mp hd
      rw [List.getElem?_modify] at hi
      obtain ⟨d', hd', e⟩ := Option.map_eq_some_iff.mp hi
      have hk := g.keys d' (List.mem_of_getElem? hd')
      rw [← e]
      split
      · exact hf _ hk
      · exact hk
    · have h0 : a ≠ 0 := by omega
      rw [List.getElem?_modify, g.zero]
      simp [h0]
    · have h1 : a ≠ 1 := by omega
      rw [List.getElem?_modify, g.one]
      simp [h1]
    · intro b hb
      simpa using g.range b hb

theorem modify_addr (w : World) (r r' : Ref) (f : Dict → Dict) : (w.modify r f).addr r' = w.addr r' := by
  unfold World.modify
  cases w.addr r with
  | none => rfl
  | some a => cases r' <;> rfl

theorem modify_same {w : World} (g : Good w) {r : Ref} {d : Dict} (h : w.deref r = some d) (f : Dict → Dict) : (w.modify r f).deref r = some (f d) := by
  unfold World.deref
  rw [modify_addr]
  have hr : w.addr r ≠ none := by
    intro e
    rw [(deref_none g).mpr e] at h
    cases h
  obtain ⟨a, ha⟩ := Option.ne_none_iff_exists'.mp hr
  rw [ha, Option.bind_some]
  have hd : w.heap[a]? = some d := by
    unfold World.deref at h
    rwa [ha, Option.bind_some] at h
  unfold World.modify
  rw [ha]
  dsimp only
  rw [List.getElem?_modify, hd]
  simp

theorem modify_other {w : World} (g : Good w) {r r' : Ref} (hne : r' ≠ r) (f : Dict → Dict) : (w.modify r f).deref r' = w.deref r' := by
  unfold World.deref
  rw [modify_addr]
  cases h' : w.addr r' with
  | none => rfl
  | some b =>
    rw [Option.bind_some, Option.bind_some]
    unfold World.modify
    cases h : w.addr r with
    | none => rfl
    | some a =>
      dsimp only
      have hab : a ≠ b := by
        intro e
        subst e
        exact hne (g.inj h' h)
      rw [List.getElem?_modify]
      simp [hab]

theorem good_dict {w : World} (g : Good w) (d : Dict) : Good (step w (.dict d)) := by
  have h2 : 2 ≤ w.heap.length := by
    obtain ⟨h, -⟩ := List.getElem?_eq_some_iff.mp g.one
    omega
  refine ⟨?_, ?_, ?_, ?_, ?_⟩
  · intro e he
    simp only [step, World.alloc, List.mem_append, List.mem_singleton] at he
    rcases he with he | rfl
    · exact g.keys e he
    · exact keys_update (by simp [Keys]) d
  · simp only [step, World.alloc]
    rw [List.getElem?_append_left (by omega)]
    exact g.zero
  · simp only [step, World.alloc]
    rw [List.getElem?_append_left (by omega)]
    exact g.one
  · simp only [step, World.alloc]
    rw [← List.append_assoc, List.nodup_append_comm, List.singleton_append, List.nodup_cons]
    refine ⟨fun hm => ?_, g.nodup⟩
    have := (g.range _ hm).2
    omega
  · intro a ha
    simp only [step, World.alloc, List.mem_append, List.mem_singleton, List.length_append, List.length_singleton] at ha ⊢
    rcases ha with ha | ha | rfl
    · have := g.range a (List.mem_append_left _ ha)
      omega
    · have := g.range a (List.mem_append_right _ ha)
      omega
    · omega

theorem good_step {w : World} (g : Good w) (o : Op) : Good (step w o) := by
  cases o with
  | dict d => exact good_dict g d
  | set r k v => exact good_modify g r fun d hd => keys_dictSet hd k v
  | del r k => exact good_modify g r fun d hd => keys_erase hd k
  | make c arg => exact step_ind (P := Good) (o := .make c arg) (fun w p _ hw => good_init hw p) g rfl (by simp)
  | derive i => exact step_ind (P := Good) (o := .derive i) (fun w p _ hw => good_init hw p) g rfl (by simp)
  | gridPatches N1 N2 arg => exact step_ind (P := Good) (o := .gridPatches N1 N2 arg) (fun w p _ hw => good_init hw p) g rfl (by simp)

theorem good_foldl {w : World} (g : Good w) (h : List Op) : Good (h.foldl step w) := by
  induction h generalizing w with
  | nil => exact g
  | cons o h ih => exact ih (good_step g o)

theorem good_run (h : List Op) : Good (run h) := good_foldl good_start h

theorem step_deref_other {w : World} (g : Good w) {o : Op} {r : Ref} (hr : w.deref r ≠ none) (ht : o.target ≠ some r) :
    (step w o).deref r = w.deref r := by
  have hr' : w.addr r ≠ none := fun e => hr ((deref_none g).mpr e)
  have key : ∀ w' : World, Good w' ∧ w'.addr r ≠ none ∧ w'.deref r = w.deref r →
      ∀ p, Good (graphInit p w') ∧ (graphInit p w').addr r ≠ none ∧ (graphInit p w').deref r = w.deref r := by
    intro w' hw p
    refine ⟨good_init hw.1 p, ?_, ?_⟩
    · rw [init_addr_old p hw.2.1]
      exact hw.2.1
    · rw [init_deref_old hw.1 p hw.2.1]
      exact hw.2.2
  have base : Good w ∧ w.addr r ≠ none ∧ w.deref r = w.deref r := ⟨g, hr', rfl⟩
  cases o with
  | dict d =>
    obtain ⟨a, ha⟩ := Option.ne_none_iff_exists'.mp hr'
    have hl := (g.addr ha).2
    unfold World.deref
    have : (step w (.dict d)).addr r = some a := by
      cases r with
      | graph i => exact ha
      | mine i =>
        have h1 : w.mine[i]? = some a := ha
        show (w.mine ++ [w.heap.length])[i]? = some a
        rw [List.getElem?_append_left (List.getElem?_eq_some_iff.mp h1).1]
        exact h1
    rw [this, ha]
    simp only [Option.bind_some, step, World.alloc]
    rw [List.getElem?_append_left hl]
  | set r' k v => exact modify_other g (fun e => ht (by rw [e]; rfl)) _
  | del r' k => exact modify_other g (fun e => ht (by rw [e]; rfl)) _
  | make c arg =>
    exact (step_ind (o := .make c arg) (P := fun w' => Good w' ∧ w'.addr r ≠ none ∧ w'.deref r = w.deref r) (fun w' p _ hw => key w' hw p) base rfl (by simp)).2.2
  | derive i =>
    exact (step_ind (o := .derive i) (P := fun w' => Good w' ∧ w'.addr r ≠ none ∧ w'.deref r = w.deref r) (fun w' p _ hw => key w' hw p) base rfl (by simp)).2.2
  | gridPatches N1 N2 arg =>
    exact (step_ind (o := .gridPatches N1 N2 arg) (P := fun w' => Good w' ∧ w'.addr r ≠ none ∧ w'.deref r = w.deref r) (fun w' p _ hw => key w' hw p) base rfl (by simp)).2.2

/-- **C136, whose preferences win.**  After any history, a graph made without the argument `plotting` has the preferences of its class over the default ones; a class
that has no preferences of its own takes those of the user, key by key, over the default ones; a class that has some refuses the argument.  No other dictionary is changed,
in particular not the one given. -/
theorem C136_made (h : List Op) (c : Cls) :
    ((make c none (run h)).1 = .ok () ∧
      (∀ k, (make c none (run h)).2.pref (run h).next k = ((own c).bind fun d => get d k).or (get defaults k)) ∧
      ∀ r, (run h).deref r ≠ none → (make c none (run h)).2.deref r = (run h).deref r) ∧
    ∀ r, (run h).deref r ≠ none →
      (own c ≠ none → make c (some r) (run h) = (.error .typeError, run h)) ∧
      (own c = none → (make c (some r) (run h)).1 = .ok () ∧
        (∀ k, (make c (some r) (run h)).2.pref (run h).next k = ((run h).pref r k).or (get defaults k)) ∧
        ∀ r', (run h).deref r' ≠ none → (make c (some r) (run h)).2.deref r' = (run h).deref r') := by
  have g := good_run h
  generalize run h = w at g
  have hz : w.heap.getD (defaultArg c) [] = [] := by
    have : defaultArg c = 0 ∨ defaultArg c = 1 := by cases c <;> simp [defaultArg]
    rcases this with e | e <;> rw [e, List.getD_eq_getElem?_getD]
    · rw [g.zero]
      rfl
    · rw [g.one]
      rfl
  constructor
  · cases ho : own c with
    | some d =>
      have hm : make c none w = (.ok (), graphInit d w) := by
        unfold make
        rw [ho]
      rw [hm]
      refine ⟨rfl, fun k => ?_, fun r hr => init_deref_old g _ fun e => hr ((deref_none g).mpr e)⟩
      rw [init_pref_new w (keys_own ho)]
      rfl
    | none =>
      have hm : make c none w = (.ok (), graphInit [] w) := by
        unfold make
        rw [ho]
        dsimp only
        rw [hz]
      rw [hm]
      refine ⟨rfl, fun k => ?_, fun r hr => init_deref_old g _ fun e => hr ((deref_none g).mpr e)⟩
      rw [init_pref_new w (by simp [Keys])]
      rfl
  · intro r hr
    obtain ⟨p, hp⟩ := Option.ne_none_iff_exists'.mp hr
    constructor
    · intro ho
      obtain ⟨d, hd⟩ := Option.ne_none_iff_exists'.mp ho
      unfold make
      rw [hd]
    · intro ho
      have hm : make c (some r) w = (.ok (), graphInit p w) := by
        unfold make
        rw [ho]
        dsimp only
        rw [hp]
      rw [hm]
      refine ⟨rfl, fun k => ?_, fun r' hr' => init_deref_old g _ fun e => hr' ((deref_none g).mpr e)⟩
      rw [init_pref_new w (deref_keys g hp)]
      unfold World.pref
      rw [hp]
      rfl

/-- **C136, the default preferences are always the same.**  Whatever has been done before, to other graphs and to their preferences, `Graph(adjacency)` has exactly the
default preferences. -/
theorem C136_fresh (h : List Op) : (make .graph none (run h)).2.deref (run h).next = some defaults := by
  have g := good_run h
  generalize run h = w at g
  have hz : w.heap.getD 0 [] = [] := by
    rw [List.getD_eq_getElem?_getD, g.zero]
    rfl
  show (graphInit (w.heap.getD 0 []) w).deref w.next = some defaults
  rw [hz, init_deref_new]
  rfl

/-- **C136, preferences are private.**  After any history, setting an entry of the preferences of a graph (or of a dictionary of the user) sets this entry and changes no other
entry and no other graph; the same for the removal of an entry. -/
theorem C136_private (h : List Op) {r : Ref} (hr : (run h).deref r ≠ none) (k : String) (v : Val) :
    (∀ r' k', (run (h ++ [.set r k v])).pref r' k' = open Classical in if r' = r ∧ k' = k then some v else (run h).pref r' k') ∧
    ∀ r' k', (run (h ++ [.del r k])).pref r' k' = open Classical in if r' = r ∧ k' = k then none else (run h).pref r' k' := by
  have g := good_run h
  unfold run at g hr ⊢
  rw [List.foldl_append, List.foldl_append]
  generalize List.foldl step start h = w at g hr
  obtain ⟨d, hd⟩ := Option.ne_none_iff_exists'.mp hr
  constructor
  · intro r' k'
    show (w.modify r _).pref r' k' = _
    unfold World.pref
    by_cases e : r' = r
    · subst e
      rw [modify_same g hd, hd, Option.bind_some, Option.bind_some, get_dictSet]
      by_cases e' : k' = k <;> simp [e']
    · rw [modify_other g e, if_neg fun c => e c.1]
  · intro r' k'
    show (w.modify r _).pref r' k' = _
    unfold World.pref
    by_cases e : r' = r
    · subst e
      rw [modify_same g hd, hd, Option.bind_some, Option.bind_some, get_erase]
      by_cases e' : k' = k <;> simp [e']
    · rw [modify_other g e, if_neg fun c => e c.1]

/-- **C136, preferences stay.**  As long as the entries of a graph's own preferences are not changed, nothing else changes them: other graphs made, derived from it or changed,
calls that fail, changes of the dictionary that was given to its constructor. -/
theorem C136_stay (h later : List Op) {r : Ref} (hr : (run h).deref r ≠ none) (ht : ∀ o ∈ later, o.target ≠ some r) :
    (run (h ++ later)).deref r = (run h).deref r := by
  have g := good_run h
  unfold run at g hr ⊢
  rw [List.foldl_append]
  generalize List.foldl step start h = w at g hr
  induction later generalizing w with
  | nil => rfl
  | cons o l ih =>
    have e := step_deref_other g hr (ht o (by simp))
    rw [List.foldl_cons, ih (fun o ho => ht o (List.mem_cons_of_mem _ ho)) (step w o) (good_step g o) (by rw [e]; exact hr), e]

/-- **C136, derived graphs.**  `subgraph`, `extract_components`, `kron_reduction` and `LineGraph` give the preferences that the graph has at that moment (and the default
value of the entries that it lacks). -/
theorem C136_derived (h : List Op) {i : ℕ} (hi : (run h).deref (.graph i) ≠ none) :
    (derive i (run h)).1 = .ok () ∧
      (∀ k, (derive i (run h)).2.pref (run h).next k = ((run h).pref (.graph i) k).or (get defaults k)) ∧
      ∀ r, (run h).deref r ≠ none → (derive i (run h)).2.deref r = (run h).deref r := by
  have g := good_run h
  generalize run h = w at g hi
  obtain ⟨p, hp⟩ := Option.ne_none_iff_exists'.mp hi
  have hm : derive i w = (.ok (), graphInit p w) := by
    unfold derive
    rw [hp]
  rw [hm]
  refine ⟨rfl, fun k => ?_, fun r' hr' => init_deref_old g _ fun e => hr' ((deref_none g).mpr e)⟩
  rw [init_pref_new w (deref_keys g hp)]
  unfold World.pref
  rw [hp]
  rfl

/-- **C136, Violated: `Grid2dImgPatches` accepts preferences and ignores them.**  Whatever is given, the preferences of the new graph are those of the grid. -/
theorem C136_patches_ignored_violated (h : List Op) (N1 N2 : ℕ) {arg : Option Ref} (ha : ∀ r, arg = some r → (run h).deref r ≠ none) :
    (gridPatches N1 N2 arg (run h)).1 = .ok () ∧
      ∀ k, (gridPatches N1 N2 arg (run h)).2.pref (.graph ((run h).graphs.length + 2)) k =
        if k = "limits" then some (.nums [-1 / N2, 1 + 1 / N2, 1 / N1, 1 + 1 / N1]) else get defaults k := by
  have g := good_run h
  generalize run h = w at g ha
  obtain ⟨d, hd⟩ : ∃ d, own (.grid2d N1 N2) = some d := ⟨_, rfl⟩
  have h1 : (make (.grid2d N1 N2) none w).2 = graphInit d w := by
    unfold make
    rw [hd]
  have g1 := good_init g d
  have haddr : (graphInit d w).addr (.graph w.graphs.length) = some w.heap.length := by
    simp [World.addr, graphInit]
  obtain ⟨q, hq⟩ : ∃ q, make .imgPatches arg (graphInit d w) = (.ok (), graphInit q (graphInit d w)) := by
    unfold make
    cases arg with
    | none => exact ⟨_, rfl⟩
    | some r =>
      have hr := ha r rfl
      have := init_deref_old g d (fun e => hr ((deref_none g).mpr e))
      obtain ⟨p, hp⟩ := Option.ne_none_iff_exists'.mp hr
      rw [hp] at this
      exact ⟨p, by show (match (graphInit d w).deref r with | none => _ | some p => _) = _; rw [this]⟩
  have g2 := good_init g1 q
  have hder : derive w.graphs.length (graphInit q (graphInit d w)) = (.ok (), graphInit (update defaults d) (graphInit q (graphInit d w))) := by
    unfold derive
    rw [init_deref_old g1 q (by rw [haddr]; simp), show Ref.graph w.graphs.length = w.next from rfl, init_deref_new]
  unfold gridPatches
  rw [h1, hq]
  dsimp only
  rw [hder]
  refine ⟨rfl, fun k => ?_⟩
  have hn : Ref.graph (w.graphs.length + 2) = (graphInit q (graphInit d w)).next := by
    simp [World.next, graphInit]
  rw [hn, init_pref_new _ (keys_update keys_defaults d), get_update _ (keys_own hd)]
  have hd' : d = [("limits", .nums [-1 / N2, 1 + 1 / N2, 1 / N1, 1 + 1 / N1])] := (Option.some.inj hd).symm
  rw [hd', get_cons]
  by_cases e : k = "limits"
  · subst e
    simp
  · have : ¬ "limits" = k := fun e' => e e'.symm
    simp only [this, e, if_false]
    cases get defaults k <;> simp [get]

/-! ### Drawing -/

theorem sensible_defaults {k : String} {v : Val} (h : get defaults k = some v) : Sensible k v := by
  unfold defaults at h
  simp only [get_cons] at h
  split_ifs at h with h1 h2 h3 h4 h5 h6 h7
  all_goals first
    | (obtain rfl := Option.some.inj h; subst_vars; simp [Sensible])
    | (simp [get] at h)

theorem sensible_own {c : Cls} {d : Dict} (hd : own c = some d) {k : String} {v : Val} (h : get d k = some v) : Sensible k v := by
  cases c <;> simp only [own, Option.some.injEq, reduceCtorEq] at hd <;> subst hd <;> simp only [get_cons] at h <;> split_ifs at h
  all_goals first
    | (obtain rfl := Option.some.inj h; subst_vars; simp [Sensible])
    | (simp [get] at h)

/-- Every dictionary has sensible values, and those of the graphs have all the entries. -/
structure Drawable (w : World) : Prop where
  good : Good w
  sens : ∀ d ∈ w.heap, ∀ k v, get d k = some v → Sensible k v
  all : ∀ i d, w.deref (.graph i) = some d → ∀ k, get defaults k ≠ none → get d k ≠ none

theorem drawable_init {w : World} (hw : Drawable w) {p : Dict} (hs : Source w p) : Drawable (graphInit p w) := by
  have hk : Keys p := by
    rcases hs with h | rfl | ⟨c, hc⟩
    · exact hw.good.keys p h
    · simp [Keys]
    · exact keys_own hc
  refine ⟨good_init hw.good p, ?_, ?_⟩
  · intro d hd k v hv
    simp only [graphInit, World.alloc, List.mem_append, List.mem_singleton] at hd
    rcases hd with hd | rfl
    · exact hw.sens d hd k v hv
    · rw [get_update _ hk] at hv
      rcases Option.or_eq_some_iff.mp hv with h | ⟨-, h⟩
      · rcases hs with h' | rfl | ⟨c, hc⟩
        · exact hw.sens p h' k v h
        · simp [get] at h
        · exact sensible_own hc h
      · exact sensible_defaults h
  · intro i d hd k hk'
    by_cases hi : i < w.graphs.length
    · have ha : w.addr (.graph i) ≠ none := by
        simp [World.addr, hi]
      rw [init_deref_old hw.good p ha] at hd
      exact hw.all i d hd k hk'
    · by_cases e : i = w.graphs.length
      · subst e
        rw [show Ref.graph w.graphs.length = w.next from rfl, init_deref_new] at hd
        obtain rfl := Option.some.inj hd
        rw [get_update _ hk]
        simp [hk']
      · have : (graphInit p w).addr (.graph i) = none := by
          simp only [World.addr, graphInit, List.getElem?_eq_none_iff, List.length_append, List.length_singleton]
          omega
        rw [World.deref, this] at hd
        cases hd

theorem drawable_step {w : World} (hw : Drawable w) {o : Op} (ho : o.Sensible) : Drawable (step w o) := by
  cases o with
  | make c arg => exact step_ind (P := Drawable) (o := .make c arg) (fun w p hs hw => drawable_init hw hs) hw rfl (by simp)
  | derive i => exact step_ind (P := Drawable) (o := .derive i) (fun w p hs hw => drawable_init hw hs) hw rfl (by simp)
  | gridPatches N1 N2 arg => exact step_ind (P := Drawable) (o := .gridPatches N1 N2 arg) (fun w p hs hw => drawable_init hw hs) hw rfl (by simp)
  | del r k => cases ho
  | dict d =>
    have hsens : ∀ (e : Dict) (d : Dict), (∀ k v, get e k = some v → Sensible k v) → (∀ p ∈ d, Sensible p.1 p.2) →
        ∀ k v, get (update e d) k = some v → Sensible k v := by
      intro e d
      induction d generalizing e with
      | nil => exact fun h _ => h
      | cons p d ih =>
        intro h h'
        refine ih (dictSet e p.1 p.2) (fun k v hv => ?_) fun q hq => h' q (List.mem_cons_of_mem _ hq)
        rw [get_dictSet] at hv
        split at hv
        · rename_i e1
          subst e1
          obtain rfl := Option.some.inj hv
          exact h' p (by simp)
        · exact h k v hv
    refine ⟨good_dict hw.good d, ?_, ?_⟩
    · intro e he k v hv
      simp only [step, World.alloc, List.mem_append, List.mem_singleton] at he
      rcases he with he | rfl
      · exact hw.sens e he k v hv
      · exact hsens [] d (by simp [get]) ho k v hv
    · intro i e he k hk
      by_cases ha : w.deref (.graph i) = none
      · exfalso
        have h1 := (deref_none hw.good).mp ha
        have h2 : (step w (.dict d)).addr (.graph i) = none := h1
        rw [World.deref, h2] at he
        cases he
      · rw [step_deref_other hw.good ha (by simp [Op.target])] at he
        exact hw.all i e he k hk
  | set r k v =>
    refine ⟨good_step hw.good _, ?_, ?_⟩
    · intro e he k' v' hv
      have he' : e ∈ (w.modify r fun d => dictSet d k v).heap := he
      unfold World.modify at he'
      cases ha : w.addr r with
      | none =>
        rw [ha] at he'
        exact hw.sens e he' k' v' hv
      | some a =>
        rw [ha] at he'
        obtain ⟨j, hj⟩ := List.mem_iff_getElem?.mp he'
        dsimp only at hj
        rw [List.getElem?_modify] at hj
        obtain ⟨d', hd', e'⟩ := Option.map_eq_some_iff.mp hj
        have hold := hw.sens d' (List.mem_of_getElem? hd')
        subst e'
        split at hv
        · rw [get_dictSet] at hv
          split at hv
          · rename_i e1
            subst e1
            obtain rfl := Option.some.inj hv
            exact ho
          · exact hold k' v' hv
        · exact hold k' v' hv
    · intro i e he k' hk'
      by_cases hr : Ref.graph i = r
      · subst hr
        cases hd : w.deref (.graph i) with
        | none =>
          exfalso
          have h1 := (deref_none hw.good).mp hd
          rw [World.deref] at he
          have h2 : (step w (.set (.graph i) k v)).addr (.graph i) = none := by
            rw [← h1]
            exact modify_addr w _ _ _
          rw [h2] at he
          cases he
        | some d' =>
          have : (step w (.set (.graph i) k v)).deref (.graph i) = some (dictSet d' k v) := modify_same hw.good hd _
          rw [this] at he
          obtain rfl := Option.some.inj he
          rw [get_dictSet]
          split
          · simp
          · exact hw.all i d' hd k' hk'
      · rw [show (step w (.set r k v)).deref (.graph i) = w.deref (.graph i) from modify_other hw.good hr _] at he
        exact hw.all i e he k' hk'

theorem drawable_run {h : List Op} (hs : ∀ o ∈ h, o.Sensible) : Drawable (run h) := by
  have base : Drawable start := ⟨good_start, by simp [start, get], by simp [start, World.deref, World.addr]⟩
  unfold run
  generalize start = w at base
  induction h generalizing w with
  | nil => exact base
  | cons o l ih => exact ih (fun o ho => hs o (List.mem_cons_of_mem _ ho)) _ (drawable_step base (hs o (by simp)))

/-- **C136, drawing finds what it needs.**  After any history in which the user removed no entry and wrote sensible values, every graph has all the entries that `plot` reads, and
they are the values that `G.plotting` shows. -/
theorem C136_readable {h : List Op} (hs : ∀ o ∈ h, o.Sensible) {i : ℕ} {d : Dict} (hd : (run h).deref (.graph i) = some d) :
    ∃ st, style d = .ok st ∧ (run h).pref (.graph i) "vertex_size" = some (.num st.vertexSize) ∧ (run h).pref (.graph i) "edge_width" = some (.num st.edgeWidth) ∧
      (run h).pref (.graph i) "normalize_intercept" = some (.num st.intercept) ∧
      (run h).pref (.graph i) "vertex_color" = some (.nums [st.vertexColor.1, st.vertexColor.2.1, st.vertexColor.2.2.1, st.vertexColor.2.2.2]) ∧
      (run h).pref (.graph i) "edge_color" = some (.nums [st.edgeColor.1, st.edgeColor.2.1, st.edgeColor.2.2.1, st.edgeColor.2.2.2]) ∧
      (∃ v, (run h).pref (.graph i) "edge_style" = some v) ∧ ∃ v, (run h).pref (.graph i) "highlight_color" = some v := by
  have hw := drawable_run hs
  have hm := deref_mem hd
  have key : ∀ k, get defaults k ≠ none → ∃ v, get d k = some v ∧ Sensible k v := by
    intro k hk
    obtain ⟨v, hv⟩ := Option.ne_none_iff_exists'.mp (hw.all i d hd k hk)
    exact ⟨v, hv, hw.sens d hm k v hv⟩
  obtain ⟨_, e1, a1, rfl⟩ := key "vertex_size" (by simp [get, defaults, List.lookup])
  obtain ⟨_, e2, a2, rfl⟩ := key "edge_width" (by simp [get, defaults, List.lookup])
  obtain ⟨_, e3, a3, rfl⟩ := key "normalize_intercept" (by simp [get, defaults, List.lookup])
  obtain ⟨_, e4, b1, b2, b3, b4, rfl⟩ := key "vertex_color" (by simp [get, defaults, List.lookup])
  obtain ⟨_, e5, c1, c2, c3, c4, rfl⟩ := key "edge_color" (by simp [get, defaults, List.lookup])
  obtain ⟨v6, e6, -⟩ := key "edge_style" (by simp [get, defaults, List.lookup])
  obtain ⟨v7, e7, -⟩ := key "highlight_color" (by simp [get, defaults, List.lookup])
  refine ⟨⟨a1, a2, a3, (b1, b2, b3, b4), (c1, c2, c3, c4)⟩, ?_, ?_⟩
  · simp only [style, getNum, getColor, e1, e2, e3, e4, e5]
    rfl
  · unfold World.pref
    rw [hd]
    simp only [Option.bind_some]
    exact ⟨e1, e2, e3, e4, e5, ⟨v6, e6⟩, v7, e7⟩

/-- **C136, the style of a new graph** is the one with which the pictures of graphs (C98) are drawn by default. -/
theorem C136_style : style defaults = .ok Plot.Style.default := by
  simp only [style, getNum, getColor, defaults, get, List.lookup]
  rfl

/-- **C136, Violated: the width of the edges of `LowStretchTree`.**  Its constructor asks for thin edges under a name that nothing reads; after any history a new tree is
drawn with the default width. -/
theorem C136_tree_width_violated (h : List Op) (k : ℕ) :
    (∃ d, (make (.lowStretchTree k) none (run h)).2.deref (run h).next = some d ∧ get d "edges_width" = some (.num 1.25) ∧
      ∃ st, style d = .ok st ∧ st.edgeWidth = 2 ∧ st.vertexSize = 75) ∧
    ∀ d v, style (dictSet d "edges_width" v) = style d := by
  constructor
  · refine ⟨_, init_deref_new _ _, ?_, ?_⟩
    · rw [get_update _ (keys_own (c := .lowStretchTree k) rfl)]
      simp [get, List.lookup]
    · have key : ∀ q, get (update defaults ([("edges_width", .num 1.25), ("vertex_size", .num 75), ("limits", .nums [0, 2 ^ k + 1, 0, 2 ^ k + 1])] : Dict)) q =
          (get ([("edges_width", .num 1.25), ("vertex_size", .num 75), ("limits", .nums [0, 2 ^ k + 1, 0, 2 ^ k + 1])] : Dict) q).or (get defaults q) :=
        fun q => get_update _ (keys_own (c := .lowStretchTree k) rfl) q
      refine ⟨⟨75, 2, 0.25, (0.12, 0.47, 0.71, 0.5), (0.5, 0.5, 0.5, 0.5)⟩, ?_, rfl, rfl⟩
      simp only [style, getNum, getColor, key]
      simp only [defaults, get, List.lookup]
      rfl
  · intro d v
    simp only [style, getNum, getColor, get_dictSet]
    rfl

/-- **C136, the point of view** of a picture in three dimensions is set if and only if both the elevation and the azimuth are given; the distance is used only then. -/
theorem C136_view (d : Dict) :
    ((view d).angles ≠ none ↔ get d "elevation" ≠ none ∧ get d "azimuth" ≠ none) ∧
    (∀ e a, (view d).angles = some (e, a) → get d "elevation" = some e ∧ get d "azimuth" = some a) ∧
    (view d).dist = if get d "elevation" ≠ none ∧ get d "azimuth" ≠ none then get d "distance" else none := by
  unfold view
  cases h1 : get d "elevation" <;> cases h2 : get d "azimuth" <;> cases h3 : get d "distance" <;> simp

end PyGSP.Prefs
