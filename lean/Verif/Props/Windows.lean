import Verif.Model.Windows
import Verif.Props.Plot
import Mathlib.Data.List.Nodup

/-!
# C128: figures and windows

Which figures a plot opens, what a failing plot leaves open, and what `close_all()` closes, after any history of calls.
-/

namespace PyGSP.Plot

namespace Spec

/-- The elements of the second list which are not in the first one. -/
def new (before after : List ℕ) : List ℕ := after.filter fun k => decide (k ∉ before)

/-- The windows after a history. -/
noncomputable def after (w : Windows) (l : List Act) : Windows := l.foldl Act.run w

/-- Whether an action is a plot to which no axes are given. -/
def PlotsAlone : Act → Bool
  | .graph _ _ _ _ _ _ _ _ _ _ _ _ ax => ax.isNone
  | .filter _ _ _ _ _ _ _ ax => ax.isNone
  | _ => false

/-- Whether an action is `close_all()`. -/
def ClosesAll : Act → Bool
  | .closeAll => true
  | _ => false

/-- The figures that appeared in `pyplot` during the plots without axes, since the last `close_all()`. -/
noncomputable def own (w : Windows) (l : List Act) : List ℕ :=
  (l.foldl (fun (p : Windows × List ℕ) a =>
    (a.run p.1, if ClosesAll a then [] else if PlotsAlone a then p.2 ++ new p.1.managed (a.run p.1).managed else p.2)) (w, [])).2

/-- The windows that appeared since the last `close_all()`. -/
noncomputable def ownWindows (w : Windows) (l : List Act) : List ℕ :=
  (l.foldl (fun (p : Windows × List ℕ) a =>
    (a.run p.1, if ClosesAll a then [] else p.2 ++ new p.1.shown (a.run p.1).shown)) (w, [])).2

/-- When the library is imported: it has opened nothing; `pyplot` may already manage figures. -/
structure Fresh (w : Windows) : Prop where
  figs : w.figs = []
  widgets : w.widgets = []
  nodup : w.managed.Nodup
  lt : ∀ k ∈ w.managed, k < w.next
  shown_lt : ∀ k ∈ w.shown, k < w.next

end Spec

open Spec

/-- Numbers are not used twice. -/
structure Windows.Ok (w : Windows) : Prop where
  nodup : w.managed.Nodup
  lt : ∀ k ∈ w.managed, k < w.next
  figs_nodup : w.figs.Nodup
  figs_lt : ∀ k ∈ w.figs, k < w.next
  shown_lt : ∀ k ∈ w.shown, k < w.next
  widgets_lt : ∀ k ∈ w.widgets, k < w.next

namespace Windows

theorem foldl_closeFig (l : List ℕ) (w : Windows) :
    l.foldl closeFig w = { w with managed := w.managed.filter fun i => decide (i ∉ l) } := by
  induction l generalizing w with
  | nil => simp
  | cons k l ih =>
    rw [List.foldl_cons, ih]
    simp only [closeFig, List.filter_filter, mk.injEq, and_self, and_true]
    refine List.filter_congr fun i _ => ?_
    simp only [← Bool.decide_and, List.mem_cons, not_or, ne_eq]
    exact decide_eq_decide.2 and_comm

theorem foldl_hide (l : List ℕ) (w : Windows) :
    l.foldl hide w = { w with shown := w.shown.filter fun i => decide (i ∉ l) } := by
  induction l generalizing w with
  | nil => simp
  | cons k l ih =>
    rw [List.foldl_cons, ih]
    simp only [hide, List.filter_filter, mk.injEq, and_self, and_true, true_and]
    refine List.filter_congr fun i _ => ?_
    simp only [← Bool.decide_and, List.mem_cons, not_or, ne_eq]
    exact decide_eq_decide.2 and_comm

theorem closeAll_eq (w : Windows) : w.closeAll =
    { managed := w.managed.filter fun i => decide (i ∉ w.figs), figs := [],
      shown := w.shown.filter fun i => decide (i ∉ w.widgets), widgets := [], next := w.next } := by
  unfold closeAll
  simp only [foldl_hide, foldl_closeFig]

end Windows

/-- The arguments are checked before anything is drawn. -/
theorem plot_eq_prepare {n : ℕ} (G : Graph n ℝ) (coords : Option Arr) (st : Style) (vc : ColorArg) (vs : SizeArg) (hl : List ℤ) (edges : Option Bool)
    (ec : ColorArg) (ew : SizeArg) (cb : Bool) (lim : Option (ℝ × ℝ)) (b : Backend) :
    plot G coords st vc vs hl edges ec ew cb lim b = (do
      let r ← prepare G coords st vc vs edges ec ew cb lim b
      draw G b (coords.getD ⟨[], fun _ => 0⟩) r.dim r.colors r.sizes r.limits r.colorbar r.edges r.ecolors r.widths hl) := by
  unfold plot prepare
  cases checkCoords n coords with
  | error e => rfl
  | ok dim =>
    cases h1 : vertexColors b st n dim vc lim cb with
    | error e => simp only [bind, Except.bind, h1]
    | ok t =>
      obtain ⟨c, l, k⟩ := t
      cases h2 : vertexSizes st n vs with
      | error e => simp only [bind, Except.bind, h1, h2]
      | ok sz =>
        cases h3 : edgeColors b st G.nEdges ec with
        | error e => simp only [bind, Except.bind, h1, h2, h3]
        | ok ecs =>
          cases h4 : edgeWidths st G.nEdges ew with
          | error e => simp only [bind, Except.bind, h1, h2, h3, h4]
          | ok ws =>
            cases h5 : plotLimits c l with
            | error e => simp only [bind, Except.bind, h1, h2, h3, h4, h5]
            | ok l' => simp only [bind, Except.bind, h1, h2, h3, h4, h5]

/-- The three ways a plot can change the windows. -/
inductive Change (w w' : Windows) (alone : Bool) : Prop
  | same (h : w' = w)
  | mine (ha : alone = true) (h : w' = { w.figure with figs := w.figs ++ [w.next] })
  | stray (ha : alone = false) (h0 : w.managed = []) (h : w' = w.figure)
  | widget (h : w' = w.showWidget)

theorem gcf_of_ne {w : Windows} (h : w.managed ≠ []) : w.gcf = w := if_neg h

theorem colorbar_of_ne {n m : ℕ} {w : Windows} (h : w.managed ≠ []) (p : Picture n m) : colorbarWindows w p = w := by
  cases p with
  | scatter s =>
    show (if s.colorbar then w.gcf else w) = w
    rw [gcf_of_ne h]
    exact ite_self _
  | _ => rfl

theorem graphPlot_change {n : ℕ} (G : Graph n ℝ) (coords : Option Arr) (st : Style) (vc : ColorArg) (vs : SizeArg) (hl : List ℤ) (edges : Option Bool)
    (ec : ColorArg) (ew : SizeArg) (cb : Bool) (lim : Option (ℝ × ℝ)) (b : Backend) (ax : Option Axes) (w : Windows) :
    Change w (graphPlot G coords st vc vs hl edges ec ew cb lim b ax w).2 ax.isNone := by
  unfold graphPlot
  split
  · exact .same rfl
  · split
    · cases ax with
      | none =>
        simp only [Windows.handleAxes]
        split
        · exact .mine rfl rfl
        · refine .mine rfl (colorbar_of_ne ?_ _)
          simp [Windows.figure]
      | some a =>
        simp only [Windows.handleAxes]
        split
        · exact .same rfl
        · rename_i p _
          by_cases h0 : w.managed = []
          · cases p with
            | scatter s =>
              by_cases hs : s.colorbar = true
              · refine .stray rfl h0 ?_
                show (if s.colorbar then w.gcf else w) = _
                rw [if_pos hs, Windows.gcf, if_pos h0]
              · refine .same ?_
                show (if s.colorbar then w.gcf else w) = _
                rw [if_neg hs]
            | _ => exact .same rfl
          · exact .same (colorbar_of_ne h0 p)
    · split
      · exact .same rfl
      · exact .widget rfl

theorem filterPlot_change {p : ℕ} {size : Fin p → ℕ} (S : Sols size) (f : LFilter size) (n : ℕ) (eig sum labels : Option Bool) (ax : Option Axes)
    (w : Windows) (h : Heap size) :
    (filterPlot S f n eig sum labels ax w h).2.1 = if ax.isNone then { w.figure with figs := w.figs ++ [w.next] } else w := by
  unfold filterPlot
  cases ax <;> simp only [Windows.handleAxes] <;> split <;> rfl

/-- A plot changes the windows in one of these ways; the other actions are their own description. -/
theorem run_change (w : Windows) (a : Act) :
    Change w (a.run w) (PlotsAlone a) ∨ (a = .closeAll ∨ a = .closeCurrent ∨ a = .newFigure ∨ (∃ k, a = .closeFigure k) ∨ (∃ k, a = .activate k) ∨ ∃ k, a = .hide k) := by
  cases a with
  | graph G coords st vc vs hl edges ec ew cb lim b ax => exact .inl (graphPlot_change ..)
  | filter S f n eig sum labels h ax =>
    left
    show Change w (filterPlot S f n eig sum labels ax w h).2.1 ax.isNone
    rw [filterPlot_change]
    cases ax with
    | none => exact .mine rfl rfl
    | some a => exact .same rfl
  | closeAll => simp
  | closeCurrent => simp
  | newFigure => simp
  | closeFigure k => simp
  | activate k => simp
  | hide k => simp

theorem Windows.Ok.figure {w : Windows} (h : w.Ok) : w.figure.Ok where
  nodup := by
    rw [Windows.figure, List.nodup_append]
    exact ⟨h.nodup, by simp, fun a ha b hb => by have := h.lt a ha; simp at hb; omega⟩
  lt := by
    intro k hk
    simp only [Windows.figure, List.mem_append, List.mem_singleton] at hk ⊢
    rcases hk with hk | hk
    · have := h.lt k hk; omega
    · omega
  figs_nodup := h.figs_nodup
  figs_lt := fun k hk => by have := h.figs_lt k hk; simp only [Windows.figure]; omega
  shown_lt := fun k hk => by have := h.shown_lt k hk; simp only [Windows.figure]; omega
  widgets_lt := fun k hk => by have := h.widgets_lt k hk; simp only [Windows.figure]; omega

theorem Windows.Ok.change {w w' : Windows} {b : Bool} (h : w.Ok) (hc : Change w w' b) : w'.Ok := by
  cases hc with
  | same e => rw [e]; exact h
  | stray _ _ e => rw [e]; exact h.figure
  | mine _ e =>
    rw [e]
    have hf := h.figure
    refine { hf with figs_nodup := ?_, figs_lt := ?_ }
    · rw [List.nodup_append]
      exact ⟨h.figs_nodup, by simp, fun a ha b hb => by have := h.figs_lt a ha; simp at hb; omega⟩
    · intro k hk
      simp only [Windows.figure, List.mem_append, List.mem_singleton] at hk ⊢
      rcases hk with hk | hk
      · have := h.figs_lt k hk; omega
      · omega
  | widget e =>
    rw [e]
    unfold Windows.showWidget
    refine ⟨h.nodup, fun k hk => Nat.lt_succ_of_lt (h.lt k hk), h.figs_nodup, fun k hk => Nat.lt_succ_of_lt (h.figs_lt k hk), ?_, ?_⟩
    · intro k hk
      simp only [List.mem_append, List.mem_singleton] at hk ⊢
      rcases hk with hk | hk
      · have := h.shown_lt k hk; omega
      · omega
    · intro k hk
      simp only [List.mem_append, List.mem_singleton] at hk ⊢
      rcases hk with hk | hk
      · have := h.widgets_lt k hk; omega
      · omega

theorem Windows.Ok.run {w : Windows} (h : w.Ok) (a : Act) : (a.run w).Ok := by
  rcases run_change w a with hc | rfl | rfl | rfl | ⟨k, rfl⟩ | ⟨k, rfl⟩ | ⟨k, rfl⟩
  · exact h.change hc
  · show w.closeAll.Ok
    rw [Windows.closeAll_eq]
    exact ⟨h.nodup.filter _, fun k hk => h.lt k (List.mem_of_mem_filter hk), List.nodup_nil, by simp,
      fun k hk => h.shown_lt k (List.mem_of_mem_filter hk), by simp⟩
  · exact ⟨h.nodup.sublist (List.dropLast_sublist _), fun k hk => h.lt k (List.mem_of_mem_dropLast hk), h.figs_nodup, h.figs_lt, h.shown_lt, h.widgets_lt⟩
  · exact h.figure
  · exact ⟨h.nodup.filter _, fun k hk => h.lt k (List.mem_of_mem_filter hk), h.figs_nodup, h.figs_lt, h.shown_lt, h.widgets_lt⟩
  · show (w.activate k).Ok
    unfold Windows.activate
    split_ifs with hk
    · refine ⟨?_, ?_, h.figs_nodup, h.figs_lt, h.shown_lt, h.widgets_lt⟩
      · rw [List.nodup_append]
        refine ⟨h.nodup.filter _, by simp, fun a ha b hb => ?_⟩
        simp only [List.mem_filter, decide_eq_true_eq, List.mem_singleton] at ha hb
        rw [hb]; exact ha.2
      · intro i hi
        simp only [List.mem_append, List.mem_filter, List.mem_singleton] at hi
        rcases hi with hi | hi
        · exact h.lt i hi.1
        · rw [hi]; exact h.lt k hk
    · exact h
  · exact ⟨h.nodup, h.lt, h.figs_nodup, h.figs_lt, fun k hk => h.shown_lt k (List.mem_of_mem_filter hk), h.widgets_lt⟩

theorem Spec.Fresh.ok {w : Windows} (h : Fresh w) : w.Ok :=
  ⟨h.nodup, h.lt, by rw [h.figs]; exact List.nodup_nil, by simp [h.figs], h.shown_lt, by simp [h.widgets]⟩

theorem after_ok {w : Windows} (h : w.Ok) (l : List Act) : (after w l).Ok := by
  induction l generalizing w with
  | nil => exact h
  | cons a l ih => exact ih (h.run a)

theorem new_self (l : List ℕ) : new l l = [] := by simp [new]

theorem new_append {l : List ℕ} {k : ℕ} (h : k ∉ l) : new l (l ++ [k]) = [k] := by
  unfold new
  rw [List.filter_append]
  simp [h]

theorem new_sub {l l' : List ℕ} (h : ∀ k ∈ l', k ∈ l) : new l l' = [] := by
  unfold new
  rw [List.filter_eq_nil_iff]
  intro k hk
  simp [h k hk]

theorem step_own {w : Windows} (h : w.Ok) (a : Act) :
    (a.run w).figs = if ClosesAll a then [] else if PlotsAlone a then w.figs ++ new w.managed (a.run w).managed else w.figs := by
  have hnext : w.next ∉ w.managed := fun hk => lt_irrefl _ (h.lt _ hk)
  rcases run_change w a with hc | rfl | rfl | rfl | ⟨k, rfl⟩ | ⟨k, rfl⟩ | ⟨k, rfl⟩
  · by_cases hcl : ClosesAll a = true
    · cases a <;> simp [ClosesAll] at hcl
      show w.closeAll.figs = _
      rw [Windows.closeAll_eq]; simp [ClosesAll]
    rw [if_neg hcl]
    cases hc with
    | same e => rw [e, new_self, List.append_nil, ite_self]
    | mine ha e => rw [if_pos ha, e]; simp only [Windows.figure]; rw [new_append hnext]
    | stray ha _ e => rw [if_neg (by simp [ha]), e]; rfl
    | widget e =>
      rw [e]
      show w.figs = if _ then w.figs ++ new w.managed w.managed else _
      rw [new_self, List.append_nil, ite_self]
  · show w.closeAll.figs = _
    rw [Windows.closeAll_eq]; simp [ClosesAll]
  · simp [ClosesAll, PlotsAlone, Act.run, Windows.closeCurrent]
  · simp [ClosesAll, PlotsAlone, Act.run, Windows.figure]
  · simp [ClosesAll, PlotsAlone, Act.run, Windows.closeFig]
  · simp only [ClosesAll, PlotsAlone, Act.run, Windows.activate]; split <;> simp
  · simp [ClosesAll, PlotsAlone, Act.run, Windows.hide]

theorem step_ownWindows {w : Windows} (h : w.Ok) (a : Act) :
    (a.run w).widgets = if ClosesAll a then [] else w.widgets ++ new w.shown (a.run w).shown := by
  have hnext : w.next ∉ w.shown := fun hk => lt_irrefl _ (h.shown_lt _ hk)
  rcases run_change w a with hc | rfl | rfl | rfl | ⟨k, rfl⟩ | ⟨k, rfl⟩ | ⟨k, rfl⟩
  · by_cases hcl : ClosesAll a = true
    · cases a <;> simp [ClosesAll] at hcl
      show w.closeAll.widgets = _
      rw [Windows.closeAll_eq]; simp [ClosesAll]
    rw [if_neg hcl]
    cases hc with
    | same e => rw [e, new_self, List.append_nil]
    | mine ha e => rw [e]; simp [Windows.figure, new_self]
    | stray ha _ e => rw [e]; simp [Windows.figure, new_self]
    | widget e => rw [e]; simp only [Windows.showWidget]; rw [new_append hnext]
  · show w.closeAll.widgets = _
    rw [Windows.closeAll_eq]; simp [ClosesAll]
  · simp [ClosesAll, Act.run, Windows.closeCurrent, new_self]
  · simp [ClosesAll, Act.run, Windows.figure, new_self]
  · simp [ClosesAll, Act.run, Windows.closeFig, new_self]
  · simp only [ClosesAll, Act.run, Windows.activate]; split <;> simp [new_self]
  · simp only [ClosesAll, Act.run, Windows.hide]
    rw [new_sub fun k hk => List.mem_of_mem_filter hk]; simp

theorem fold_own {w : Windows} (h : w.Ok) (l : List Act) :
    (l.foldl (fun (p : Windows × List ℕ) a =>
      (a.run p.1, if ClosesAll a then [] else if PlotsAlone a then p.2 ++ new p.1.managed (a.run p.1).managed else p.2)) (w, w.figs)) =
      (after w l, (after w l).figs) := by
  induction l generalizing w with
  | nil => rfl
  | cons a l ih =>
    rw [List.foldl_cons]
    simp only
    rw [← step_own h a, ih (h.run a)]
    rfl

theorem fold_ownWindows {w : Windows} (h : w.Ok) (l : List Act) :
    (l.foldl (fun (p : Windows × List ℕ) a =>
      (a.run p.1, if ClosesAll a then [] else p.2 ++ new p.1.shown (a.run p.1).shown)) (w, w.widgets)) =
      (after w l, (after w l).widgets) := by
  induction l generalizing w with
  | nil => rfl
  | cons a l ih =>
    rw [List.foldl_cons]
    simp only
    rw [← step_ownWindows h a, ih (h.run a)]
    rfl

/-- **`close_all()`, after any history**: it closes exactly the figures that appeared during the plots to which no axes were given and the windows that appeared, since the
last `close_all()`; all the other figures and windows stay as they are, in the same order. -/
theorem C128_close_all {w0 : Windows} (h : Fresh w0) (l : List Act) :
    (after w0 (l ++ [.closeAll])).managed = (after w0 l).managed.filter (fun k => decide (k ∉ own w0 l)) ∧
    (after w0 (l ++ [.closeAll])).shown = (after w0 l).shown.filter (fun k => decide (k ∉ ownWindows w0 l)) := by
  have h1 := congrArg Prod.snd (fold_own h.ok l)
  have h2 := congrArg Prod.snd (fold_ownWindows h.ok l)
  rw [h.figs] at h1
  rw [h.widgets] at h2
  have e : after w0 (l ++ [.closeAll]) = (after w0 l).closeAll := by simp [after, Act.run]
  rw [e, Windows.closeAll_eq]
  unfold own ownWindows
  rw [h1, h2]
  exact ⟨rfl, rfl⟩

/-- A figure which is open stays open as long as the user closes neither this figure nor "the current figure", and `close_all()` is not called after the
library made it; figures that the library did not make stay open whatever the number of calls to `close_all()`. -/
theorem C128_stays_open {w0 : Windows} (h : Fresh w0) (l l' : List Act) {k : ℕ} (hk : k ∈ (after w0 l).managed)
    (hu : ∀ a ∈ l', a ≠ .closeCurrent ∧ a ≠ .closeFigure k) (hc : k ∈ own w0 l → ∀ a ∈ l', ClosesAll a = false) :
    k ∈ (after w0 (l ++ l')).managed := by
  have h1 := congrArg Prod.snd (fold_own h.ok l)
  rw [h.figs] at h1
  change own w0 l = (after w0 l).figs at h1
  rw [h1] at hc
  have e : after w0 (l ++ l') = after (after w0 l) l' := by simp [after]
  rw [e]
  have hok := after_ok h.ok l
  clear e h1
  generalize after w0 l = w at hk hc hok
  induction l' generalizing w with
  | nil => exact hk
  | cons a l' ih =>
    have hua := hu a List.mem_cons_self
    refine ih (fun b hb => hu b (List.mem_cons_of_mem _ hb)) (a.run w) ?_ ?_ (hok.run a)
    · rcases run_change w a with hch | rfl | rfl | rfl | ⟨j, rfl⟩ | ⟨j, rfl⟩ | ⟨j, rfl⟩
      · cases hch with
        | same e => rw [e]; exact hk
        | mine ha e => rw [e]; exact List.mem_append_left _ hk
        | stray ha _ e => rw [e]; exact List.mem_append_left _ hk
        | widget e => rw [e]; exact hk
      · show k ∈ w.closeAll.managed
        rw [Windows.closeAll_eq]
        refine List.mem_filter.2 ⟨hk, ?_⟩
        rw [decide_eq_true_eq]
        intro hf
        have := hc hf .closeAll List.mem_cons_self
        simp [ClosesAll] at this
      · exact absurd rfl hua.1
      · exact List.mem_append_left _ hk
      · refine List.mem_filter.2 ⟨hk, ?_⟩
        rw [decide_eq_true_eq]
        rintro rfl
        exact hua.2 rfl
      · show k ∈ (w.activate j).managed
        unfold Windows.activate
        split_ifs with hj
        · by_cases hkj : k = j
          · subst hkj; simp
          · exact List.mem_append_left _ (List.mem_filter.2 ⟨hk, by simp [hkj]⟩)
        · exact hk
      · exact hk
    · intro hf b hb
      refine hc ?_ b (List.mem_cons_of_mem _ hb)
      rw [step_own hok a] at hf
      split_ifs at hf with hcl hpa
      · simp at hf
      · rcases List.mem_append.1 hf with hf | hf
        · exact hf
        · have := (List.mem_filter.1 hf).2
          rw [decide_eq_true_eq] at this
          exact absurd hk this
      · exact hf

/-- What the call returns and draws does not depend on the windows: it is what `plot` returns (C98). -/
theorem C128_same_picture {n : ℕ} (G : Graph n ℝ) (coords : Option Arr) (st : Style) (vc : ColorArg) (vs : SizeArg) (hl : List ℤ) (edges : Option Bool)
    (ec : ColorArg) (ew : SizeArg) (cb : Bool) (lim : Option (ℝ × ℝ)) (b : Backend) (ax : Option Axes) (w : Windows) :
    (graphPlot G coords st vc vs hl edges ec ew cb lim b ax w).1.map Prod.snd = plot G coords st vc vs hl edges ec ew cb lim b := by
  rw [plot_eq_prepare]
  unfold graphPlot
  cases prepare G coords st vc vs edges ec ew cb lim b with
  | error e => rfl
  | ok r =>
    simp only [bind, Except.bind]
    split
    · cases hd : draw G .matplotlib (coords.getD ⟨[], fun _ => 0⟩) r.dim r.colors r.sizes r.limits r.colorbar r.edges r.ecolors r.widths hl <;> rfl
    · split <;> rename_i hd <;> rw [hd] <;> rfl

/-- **A plot of a graph that returns**, drawn by matplotlib.  Without axes: one figure is opened, the current one, it is the one returned, and its axes have three dimensions exactly when the
coordinates have three columns.  With axes: these axes are returned, and the figures stay as they are if one was open or if no color bar is drawn. -/
theorem C128_graph_returns {n : ℕ} (G : Graph n ℝ) (coords : Option Arr) (st : Style) (vc : ColorArg) (vs : SizeArg) (hl : List ℤ) (edges : Option Bool)
    (ec : ColorArg) (ew : SizeArg) (cb : Bool) (lim : Option (ℝ × ℝ)) {w0 w : Windows} (h0 : Fresh w0) (hist : List Act) (hwl : w = after w0 hist) {p : Picture n G.nEdges}
    (h : plot G coords st vc vs hl edges ec ew cb lim .matplotlib = .ok p) :
    (∃ k t w', graphPlot G coords st vc vs hl edges ec ew cb lim .matplotlib none w = (.ok (some ⟨k, t⟩, p), w') ∧
      (∀ (d : ℕ) (X : Fin n → Fin d → ℝ), coords = some (Arr.of2 X) → (t = true ↔ d = 3)) ∧ (∀ X : Fin n → ℝ, coords = some (Arr.of1 X) → t = false) ∧
      k ∉ w.managed ∧ w'.managed = w.managed ++ [k] ∧ w'.figs = w.figs ++ [k] ∧ w'.shown = w.shown) ∧
    ∀ a : Axes, ∃ w', graphPlot G coords st vc vs hl edges ec ew cb lim .matplotlib (some a) w = (.ok (some a, p), w') ∧
      w'.figs = w.figs ∧ w'.shown = w.shown ∧
      (w.managed ≠ [] ∨ (∀ s, p = .scatter s → s.colorbar = false) → w'.managed = w.managed) := by
  have hw : w.Ok := by rw [hwl]; exact after_ok h0.ok hist
  rw [plot_eq_prepare] at h
  unfold graphPlot
  cases hp : prepare G coords st vc vs edges ec ew cb lim .matplotlib with
  | error e => rw [hp] at h; simp [bind, Except.bind] at h
  | ok r =>
    rw [hp] at h
    simp only [bind, Except.bind] at h
    simp only [Windows.handleAxes, h]
    refine ⟨⟨w.next, _, _, rfl, ?_, ?_, fun hk => lt_irrefl _ (hw.lt _ hk), ?_, ?_, ?_⟩, fun a => ⟨_, rfl, ?_, ?_, ?_⟩⟩
    · rintro d X rfl
      simp [isSpatial, Arr.of2]
    · rintro X rfl
      simp [isSpatial, Arr.of1]
    · rw [colorbar_of_ne (by simp [Windows.figure])]; rfl
    · rw [colorbar_of_ne (by simp [Windows.figure])]
    · rw [colorbar_of_ne (by simp [Windows.figure])]; rfl
    · cases p with
      | scatter s =>
        show (if s.colorbar then w.gcf else w).figs = _
        unfold Windows.gcf Windows.figure
        split_ifs <;> rfl
      | _ => rfl
    · cases p with
      | scatter s =>
        show (if s.colorbar then w.gcf else w).shown = _
        unfold Windows.gcf Windows.figure
        split_ifs <;> rfl
      | _ => rfl
    · rintro (hm | hm)
      · rw [colorbar_of_ne hm]
      · cases p with
        | scatter s =>
          show (if s.colorbar then w.gcf else w).managed = _
          rw [hm s rfl]
          rfl
        | _ => rfl

/-- **A plot of a graph that raises**, drawn by matplotlib, without axes: nothing is opened if the arguments are refused whatever the highlighted vertices (they are checked
first); if only the list of highlighted vertices is wrong, a figure is opened, stays open and will be closed by `close_all()`. With axes nothing changes. -/
theorem C128_graph_raises {n : ℕ} (G : Graph n ℝ) (coords : Option Arr) (st : Style) (vc : ColorArg) (vs : SizeArg) (hl : List ℤ) (edges : Option Bool)
    (ec : ColorArg) (ew : SizeArg) (cb : Bool) (lim : Option (ℝ × ℝ)) {w0 w : Windows} (h0 : Fresh w0) (hist : List Act) (hwl : w = after w0 hist) {e : PyErr}
    (h : plot G coords st vc vs hl edges ec ew cb lim .matplotlib = .error e) :
    (∀ a, graphPlot G coords st vc vs hl edges ec ew cb lim .matplotlib (some a) w = (.error e, w)) ∧
    ((∃ p, plot G coords st vc vs [] edges ec ew cb lim .matplotlib = .ok p) →
      ∃ k w', graphPlot G coords st vc vs hl edges ec ew cb lim .matplotlib none w = (.error e, w') ∧
        k ∉ w.managed ∧ w'.managed = w.managed ++ [k] ∧ w'.figs = w.figs ++ [k]) ∧
    (G.Built → (∀ d ∈ coords, d.shape.length = 2) → (∀ p, plot G coords st vc vs [] edges ec ew cb lim .matplotlib ≠ .ok p) →
      graphPlot G coords st vc vs hl edges ec ew cb lim .matplotlib none w = (.error e, w)) := by
  have hw : w.Ok := by rw [hwl]; exact after_ok h0.ok hist
  rw [plot_eq_prepare] at h
  simp only [plot_eq_prepare]
  unfold graphPlot
  cases hp : prepare G coords st vc vs edges ec ew cb lim .matplotlib with
  | error e' =>
    rw [hp] at h
    simp only [bind, Except.bind, Except.error.injEq] at h
    subst h
    simp [bind, Except.bind]
  | ok r =>
    rw [hp] at h
    simp only [bind, Except.bind] at h
    simp only [Windows.handleAxes, h]
    refine ⟨fun a => trivial, fun _ => ⟨w.next, _, rfl, fun hk => lt_irrefl _ (hw.lt _ hk), rfl, rfl⟩, fun hG hd hno => ?_⟩
    exfalso
    obtain ⟨hdim, hcol⟩ : r.dim ≠ 1 ∧ r.colors ≠ none := by
      unfold prepare at hp
      cases hc : checkCoords n coords with
      | error e => rw [hc] at hp; simp [bind, Except.bind] at hp
      | ok dim =>
        rw [hc] at hp
        cases h1 : vertexColors .matplotlib st n dim vc lim cb with
        | error e => simp [bind, Except.bind, h1] at hp
        | ok t =>
          obtain ⟨c, l, k⟩ := t
          cases h2 : vertexSizes st n vs with
          | error e => simp [bind, Except.bind, h1, h2] at hp
          | ok sz =>
            cases h3 : edgeColors .matplotlib st G.nEdges ec with
            | error e => simp [bind, Except.bind, h1, h2, h3] at hp
            | ok ecs =>
              cases h4 : edgeWidths st G.nEdges ew with
              | error e => simp [bind, Except.bind, h1, h2, h3, h4] at hp
              | ok ws =>
                cases h5 : plotLimits c l with
                | error e => simp [bind, Except.bind, h1, h2, h3, h4, h5] at hp
                | ok l' =>
                  simp only [bind, Except.bind, h1, h2, h3, h4, h5, Except.ok.injEq] at hp
                  subst hp
                  refine ⟨?_, ?_⟩
                  · show dim ≠ 1
                    cases coords with
                    | none => simp [checkCoords] at hc
                    | some a =>
                      have ha := hd a rfl
                      unfold checkCoords at hc
                      simp only [Arr.ndim, ha] at hc
                      split_ifs at hc with hx hy hz
                      · simp at hz
                      · simp only [Except.ok.injEq] at hc
                        rw [← hc]
                        have : a.shape.getD 1 0 = 2 ∨ a.shape.getD 1 0 = 3 := by
                          by_contra hq
                          exact hx ⟨by norm_num, fun hh => hq hh.2⟩
                        omega
                  · show c ≠ none
                    rintro rfl
                    unfold vertexColors at h1
                    cases vc with
                    | none => simp at h1
                    | named s => simp at h1
                    | array a =>
                      simp only at h1
                      split_ifs at h1
                      · simp at h1
                      · cases hcs : checkShape a.squeeze n with
                        | error e => rw [hcs] at h1; simp [bind, Except.bind] at h1
                        | ok x => rw [hcs] at h1; simp [bind, Except.bind] at h1
    obtain ⟨l, hl', -⟩ := C04_edge_list G hG
    obtain ⟨c, hc⟩ := Option.ne_none_iff_exists'.1 hcol
    cases he : r.edges with
    | true => exact hno _ (by simp only [bind, Except.bind, draw, hc, if_neg hdim, he, if_true, hl', pyIndices]; rfl)
    | false => exact hno _ (by simp only [bind, Except.bind, draw, hc, if_neg hdim, he, Bool.false_eq_true, if_false, pyIndices]; rfl)

/-- `G.plot()` of a graph whose coordinates are on a line, without a signal, raises and leaves an empty figure open, which `close_all()` will close. -/
theorem C128_line_without_signal {n : ℕ} (G : Graph n ℝ) (hn : 2 ≤ n) (X : Fin n → ℝ) (st : Style) {w0 w : Windows} (h0 : Fresh w0) (hist : List Act)
    (hwl : w = after w0 hist) :
    ∃ k w', graphPlot G (some (Arr.of1 X)) st .none .none [] none .none .none true none .matplotlib none w = (.error .valueError, w') ∧
      k ∉ w.managed ∧ w'.managed = w.managed ++ [k] ∧ w'.figs = w.figs ++ [k] := by
  have hw : w.Ok := by rw [hwl]; exact after_ok h0.ok hist
  have hc : checkCoords n (some (Arr.of1 X)) = .ok 1 := by
    unfold checkCoords
    simp [Arr.of1, Arr.ndim]
  have hp : ∃ r, prepare G (some (Arr.of1 X)) st .none .none none .none .none true none .matplotlib = .ok r ∧ r.dim = 1 ∧ r.colors = some (.one st.vertexColor) := by
    unfold prepare
    rw [hc]
    exact ⟨_, rfl, rfl, rfl⟩
  obtain ⟨r, hr, h1, h2⟩ := hp
  unfold graphPlot
  simp only [hr, Windows.handleAxes]
  have hd : draw G .matplotlib ((some (Arr.of1 X)).getD ⟨[], fun _ => 0⟩) r.dim r.colors r.sizes r.limits r.colorbar r.edges r.ecolors r.widths [] = .error .valueError := by
    unfold draw
    simp only [h1, h2, if_pos, pyIndices, bind, Except.bind, plotCurve]
    rw [if_neg (by omega)]
  rw [hd]
  exact ⟨w.next, _, rfl, fun hk => lt_irrefl _ (hw.lt _ hk), rfl, rfl⟩

/-- **With pyqtgraph** (whatever the axes, which are ignored): a window is opened if and only if the call returns; the figures of `pyplot` stay as they are. With an unknown backend nothing is opened. -/
theorem C128_pyqtgraph {n : ℕ} (G : Graph n ℝ) (coords : Option Arr) (st : Style) (vc : ColorArg) (vs : SizeArg) (hl : List ℤ) (edges : Option Bool)
    (ec : ColorArg) (ew : SizeArg) (cb : Bool) (lim : Option (ℝ × ℝ)) {b : Backend} (hb : b ≠ .matplotlib) (ax : Option Axes) {w0 w : Windows} (h0 : Fresh w0)
    (hist : List Act) (hwl : w = after w0 hist) :
    (∀ p, plot G coords st vc vs hl edges ec ew cb lim b = .ok p → b = .pyqtgraph ∧ ∃ k w', graphPlot G coords st vc vs hl edges ec ew cb lim b ax w = (.ok (none, p), w') ∧
      k ∉ w.shown ∧ w'.shown = w.shown ++ [k] ∧ w'.managed = w.managed) ∧
    ∀ e, plot G coords st vc vs hl edges ec ew cb lim b = .error e → graphPlot G coords st vc vs hl edges ec ew cb lim b ax w = (.error e, w) := by
  have hw : w.Ok := by rw [hwl]; exact after_ok h0.ok hist
  rw [plot_eq_prepare]
  unfold graphPlot
  cases hp : prepare G coords st vc vs edges ec ew cb lim b with
  | error e => simp [bind, Except.bind]
  | ok r =>
    simp only [bind, Except.bind]
    cases b with
    | matplotlib => exact absurd rfl hb
    | pyqtgraph =>
      simp only
      refine ⟨fun p h => ⟨trivial, w.next, w.showWidget, ?_, fun hk => lt_irrefl _ (hw.shown_lt _ hk), rfl, rfl⟩, fun e h => ?_⟩ <;> rw [h]
    | other name =>
      have : draw G (.other name) (coords.getD ⟨[], fun _ => 0⟩) r.dim r.colors r.sizes r.limits r.colorbar r.edges r.ecolors r.widths hl = .error .valueError := by
        unfold draw; rfl
      refine ⟨fun p h => ?_, fun e h => ?_⟩
      · rw [this] at h; simp at h
      · rw [h]

/-- **A plot of a filter**: without axes one figure is opened, whether the call returns or raises; with axes none.  What is drawn, returned or raised, and the effects on the graphs,
are those of `plot` (C100). -/
theorem C128_filter {p : ℕ} {size : Fin p → ℕ} (S : Sols size) (f : LFilter size) (n : ℕ) (eig sum labels : Option Bool) (h : Heap size) {w0 w : Windows} (h0 : Fresh w0)
    (hist : List Act) (hwl : w = after w0 hist) :
    (∃ k w', filterPlot S f n eig sum labels none w h =
        ((f.plot S n eig sum labels h).1.map fun q => (⟨k, false⟩, q), w', (f.plot S n eig sum labels h).2) ∧
      k ∉ w.managed ∧ w'.managed = w.managed ++ [k] ∧ w'.figs = w.figs ++ [k] ∧ w'.shown = w.shown) ∧
    ∀ a, filterPlot S f n eig sum labels (some a) w h =
        ((f.plot S n eig sum labels h).1.map fun q => (a, q), w, (f.plot S n eig sum labels h).2) := by
  have hw : w.Ok := by rw [hwl]; exact after_ok h0.ok hist
  unfold filterPlot
  simp only [Windows.handleAxes]
  cases f.plot S n eig sum labels h with
  | mk r h' =>
    cases r with
    | error e => exact ⟨⟨w.next, _, rfl, fun hk => lt_irrefl _ (hw.lt _ hk), rfl, rfl, rfl⟩, fun a => rfl⟩
    | ok q => exact ⟨⟨w.next, _, rfl, fun hk => lt_irrefl _ (hw.lt _ hk), rfl, rfl, rfl⟩, fun a => rfl⟩

/-- The figure of a color bar: when axes are given and `pyplot` manages no figure, a plot with a color bar opens an empty figure which is not returned and which `close_all()` does not close. -/
theorem C128_stray_figure_violated {n : ℕ} (G : Graph n ℝ) (coords : Option Arr) (st : Style) (vc : ColorArg) (vs : SizeArg) (hl : List ℤ) (edges : Option Bool)
    (ec : ColorArg) (ew : SizeArg) (lim : Option (ℝ × ℝ)) {w0 : Windows} (h0 : Fresh w0) (hw0 : w0.managed = []) (a : Axes) {s : Scatter n G.nEdges}
    (h : plot G coords st vc vs hl edges ec ew true lim .matplotlib = .ok (.scatter s)) (hs : s.colorbar = true) (m : ℕ) :
    ∃ k, (after w0 (.graph G coords st vc vs hl edges ec ew true lim .matplotlib (some a) :: List.replicate m .closeAll)).managed = [k] := by
  have hrun : Act.run w0 (.graph G coords st vc vs hl edges ec ew true lim .matplotlib (some a)) = w0.figure := by
    show (graphPlot G coords st vc vs hl edges ec ew true lim .matplotlib (some a) w0).2 = _
    rw [plot_eq_prepare] at h
    unfold graphPlot
    cases hp : prepare G coords st vc vs edges ec ew true lim .matplotlib with
    | error e => rw [hp] at h; simp [bind, Except.bind] at h
    | ok r =>
      rw [hp] at h
      simp only [bind, Except.bind] at h
      simp only [Windows.handleAxes, h]
      show (if s.colorbar then w0.gcf else w0) = _
      rw [if_pos hs, Windows.gcf, if_pos hw0]
  refine ⟨w0.next, ?_⟩
  have key : ∀ (m : ℕ) (w : Windows), w.managed = [w0.next] → w.figs = [] → (after w (List.replicate m .closeAll)).managed = [w0.next] := by
    intro m
    induction m with
    | zero => intro w h1 _; exact h1
    | succ m ih =>
      intro w h1 h2
      refine ih w.closeAll ?_ ?_
      · rw [Windows.closeAll_eq]; simp [h1, h2]
      · rw [Windows.closeAll_eq]
  show (after (Act.run w0 _) _).managed = _
  rw [hrun]
  exact key m _ (by simp [Windows.figure, hw0]) h0.figs

theorem opened_of_shape {n : ℕ} (G : Graph n ℝ) (coords : Option Arr) (st : Style) (vc : ColorArg) (vs : SizeArg) (hl : List ℤ) (edges : Option Bool)
    (ec : ColorArg) (ew : SizeArg) (cb : Bool) (lim : Option (ℝ × ℝ)) (w : Windows) {p : Picture n G.nEdges}
    (h : plot G coords st vc vs [] edges ec ew cb lim .matplotlib = .ok p) :
    (graphPlot G coords st vc vs hl edges ec ew cb lim .matplotlib none w).2 = { w.figure with figs := w.figs ++ [w.next] } := by
  rw [plot_eq_prepare] at h
  unfold graphPlot
  cases hp : prepare G coords st vc vs edges ec ew cb lim .matplotlib with
  | error e => rw [hp] at h; simp [bind, Except.bind] at h
  | ok r =>
    simp only [Windows.handleAxes]
    split
    · rfl
    · exact colorbar_of_ne (by simp [Windows.figure]) _

/-- The hypotheses are met: a user's figure, a plot of a graph with two vertices, a failing plot of this graph, a new figure of the user, `close_all()`: the user's figures are left. -/
example : ∃ (G : Graph 2 ℝ) (w0 : Windows) (good bad : Act), Fresh w0 ∧ G.Built ∧ w0.managed = [0] ∧
    (after w0 [good, bad, .newFigure]).managed = [0, 1, 2, 3] ∧ own w0 [good, bad, .newFigure] = [1, 2] ∧
    (after w0 [good, bad, .newFigure, .closeAll]).managed = [0, 3] := by
  obtain ⟨G, hG, hW, -⟩ := Graph.exists_built (K := ℝ) !![0, 1; 2, 0]
  have hf : Fresh ⟨[0], [], [], [], 1⟩ := ⟨rfl, rfl, by simp, by simp, by simp⟩
  obtain ⟨s', hs'⟩ := C98_returns G hG (d := 2) (.inl rfl) (fun v : Fin 2 => ![(v.val : ℝ), 1]) .default .none .none [] none .none .none true none
    (.inl rfl) (.inl rfl) (.inl rfl) (.inl rfl) (by simp)
  refine ⟨G, ⟨[0], [], [], [], 1⟩,
    .graph G (coordsOf fun v : Fin 2 => ![(v.val : ℝ), 1]) .default .none .none [0] none .none .none true none .matplotlib none,
    .graph G (coordsOf fun v : Fin 2 => ![(v.val : ℝ), 1]) .default .none .none [7] none .none .none true none .matplotlib none, hf, hG, rfl, ?_⟩
  refine ⟨?_, ?_, ?_⟩ <;>
    simp only [after, own, List.foldl, Act.run, ClosesAll, PlotsAlone, opened_of_shape G _ _ _ _ _ _ _ _ _ _ _ hs', Windows.closeAll_eq, Windows.figure, new] <;> decide

/-- The hypotheses of the plots that raise are met: the highlighted vertex does not exist. -/
example : ∃ G : Graph 2 ℝ, G.Built ∧
    plot G (coordsOf fun v : Fin 2 => ![(v.val : ℝ), 1]) .default .none .none [7] none .none .none true none .matplotlib = .error .indexError ∧
    ∃ p, plot G (coordsOf fun v : Fin 2 => ![(v.val : ℝ), 1]) .default .none .none [] none .none .none true none .matplotlib = .ok p := by
  obtain ⟨G, hG, hW, -⟩ := Graph.exists_built (K := ℝ) !![0, 1; 2, 0]
  obtain ⟨s', hs'⟩ := C98_returns G hG (d := 2) (.inl rfl) (fun v : Fin 2 => ![(v.val : ℝ), 1]) .default .none .none [] none .none .none true none
    (.inl rfl) (.inl rfl) (.inl rfl) (.inl rfl) (by simp)
  exact ⟨G, hG, (((C98_errors G hG .default .none .none [7] none .none .none true none .matplotlib).2.2.2 2 (.inl rfl)
    (fun v : Fin 2 => ![(v.val : ℝ), 1])).2.2.2.2.2) rfl ⟨7, by simp, by norm_num⟩, _, hs'⟩

/-- The hypotheses of the stray figure are met: a signal is drawn with its color bar. -/
example : ∃ (G : Graph 2 ℝ) (s : Scatter 2 G.nEdges), G.Built ∧ s.colorbar = true ∧
    plot G (coordsOf fun v : Fin 2 => ![(v.val : ℝ), 1]) .default (.array (Arr.of1 ![(-1 : ℝ), 1])) .none [] none .none .none true none .matplotlib = .ok (.scatter s) := by
  obtain ⟨G, hG, hW, -⟩ := Graph.exists_built (K := ℝ) !![0, 1; 2, 0]
  obtain ⟨s, hs⟩ := C98_returns G hG (d := 2) (.inl rfl) (fun v : Fin 2 => ![(v.val : ℝ), 1]) .default (.array (Arr.of1 ![(-1 : ℝ), 1])) .none [] none .none .none true none
    (.inr (.inr ⟨le_refl _, _, rfl⟩)) (.inl rfl) (.inl rfl) (.inl rfl) (by simp)
  have h := (C98_signal G (.inl rfl) _ _ _ _ _ _ _ _ _ _ s hs).2 _ rfl (by norm_num) (by norm_num)
  exact ⟨G, s, hG, h.2.1, hs⟩

end PyGSP.Plot
