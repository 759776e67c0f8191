import Verif.Model.Plot
import Verif.Props.Core

/-! # C98: what `Graph.plot` draws -/

namespace PyGSP.Plot

open PyGSP.Spec

variable {n : ℕ}

/-! ## Specification -/

/-- `r` is `y` scaled to `[c, 1]`: the least value of `y` is sent to `c`, the greatest to 1, and the others in between, linearly; a constant `y` is sent to 1/2. -/
def Scaled {k : ℕ} (c : ℝ) (y r : Fin k → ℝ) : Prop :=
  ((∀ i j, y i = y j) → ∀ i, r i = 1 / 2) ∧
  ∀ a b, (∀ i, y a ≤ y i ∧ y i ≤ y b) → y a < y b → ∀ i, r i = c + (1 - c) * ((y i - y a) / (y b - y a))

/-- The coordinates of the vertices as an array. -/
def coordsOf {d : ℕ} (X : Fin n → Fin d → ℝ) : Option Arr := some (Arr.of2 X)

/-- The vertex that the user calls `i`: a negative number counts from the end. -/
def Names (i : ℤ) (v : Fin n) : Prop := i = v ∨ i = (v : ℤ) - n

/-! ## Lemmas -/

theorem bind_ok {α β : Type} {x : Py α} {f : α → Py β} {b : β} (h : (x >>= f) = .ok b) : ∃ a, x = .ok a ∧ f a = .ok b := by
  cases x with
  | error e => cases h
  | ok a => exact ⟨a, rfl, h⟩

theorem range_ok {k : ℕ} {x : Fin k → ℝ} {l : ℝ × ℝ} (h : range x = .ok l) :
    (∃ a, x a = l.1) ∧ (∃ b, x b = l.2) ∧ ∀ i, l.1 ≤ x i ∧ x i ≤ l.2 := by
  unfold range at h
  obtain ⟨hi, h1, h⟩ := bind_ok h
  obtain ⟨lo, h2, h⟩ := bind_ok h
  cases h
  unfold arrMax at h1
  unfold arrMin at h2
  split at h1
  · rename_i hk
    rw [dif_pos hk] at h2
    cases h1; cases h2
    refine ⟨?_, ?_, fun i => ⟨Finset.inf'_le _ (Finset.mem_univ _), Finset.le_sup' _ (Finset.mem_univ _)⟩⟩
    · obtain ⟨a, -, h⟩ := Finset.exists_mem_eq_inf' (s := Finset.univ) ⟨⟨0, hk⟩, Finset.mem_univ _⟩ x
      exact ⟨a, h.symm⟩
    · obtain ⟨a, -, h⟩ := Finset.exists_mem_eq_sup' (s := Finset.univ) ⟨⟨0, hk⟩, Finset.mem_univ _⟩ x
      exact ⟨a, h.symm⟩
  · cases h1

theorem range_exists {k : ℕ} (hk : 0 < k) (x : Fin k → ℝ) : ∃ l, range x = .ok l := by
  unfold range arrMax arrMin
  rw [dif_pos hk, dif_pos hk]
  exact ⟨_, rfl⟩

theorem normalize_exists (st : Style) {k : ℕ} (hk : 0 < k) (x : Fin k → ℝ) : ∃ y, normalize st x = .ok y := by
  obtain ⟨l, h⟩ := range_exists hk x
  unfold normalize
  rw [h]
  show ∃ y, (if l.2 - l.1 = 0 then _ else _) = _
  split <;> exact ⟨_, rfl⟩

theorem normalize_ok {st : Style} {k : ℕ} {x y : Fin k → ℝ} (h : normalize st x = .ok y) : Scaled st.intercept x y := by
  unfold normalize at h
  obtain ⟨l, h1, h⟩ := bind_ok h
  obtain ⟨⟨a, ha⟩, ⟨b, hb⟩, hl⟩ := range_ok h1
  change (if l.2 - l.1 = 0 then _ else _) = _ at h
  split at h
  · rename_i h0
    cases h
    refine ⟨fun _ _ => by norm_num, fun a' b' _ hlt => ?_⟩
    have := (hl a').1; have := (hl b').2
    linarith
  · rename_i h0
    cases h
    refine ⟨fun hc => absurd (hc b a) fun q => h0 (by rw [← ha, ← hb, q, sub_self]), fun a' b' hab hlt i => ?_⟩
    have e1 : x a' = l.1 := le_antisymm (ha ▸ (hab a).1) (hl a').1
    have e2 : x b' = l.2 := le_antisymm (hl b').2 (hb ▸ (hab b).2)
    rw [e1, e2]
    ring

theorem squeeze_of1 {k : ℕ} (hk : k ≠ 1) (x : Fin k → ℝ) : (Arr.of1 x).squeeze = Arr.of1 x := by
  unfold Arr.squeeze Arr.of1
  ext1
  · simp [hk]
  · funext idx
    simp only [Arr.unsqueeze, hk]
    cases idx <;> simp [Arr.unsqueeze, hk]

theorem checkShape_of1 {k : ℕ} (hk : k ≠ 1) (x : Fin k → ℝ) : checkShape (Arr.of1 x).squeeze k = .ok x := by
  rw [squeeze_of1 hk]
  unfold checkShape
  rw [if_pos (show (Arr.of1 x).shape = [k] from rfl)]
  refine congrArg Except.ok (funext fun i => ?_)
  simp [Arr.of1]

theorem checkShape_of1_one (x : Fin 1 → ℝ) : checkShape (Arr.of1 x).squeeze 1 = .error .valueError := by
  unfold checkShape
  rw [if_neg]
  simp [Arr.squeeze, Arr.of1]

theorem point_of2 {d : ℕ} (X : Fin n → Fin d → ℝ) (v : Fin n) : point (Arr.of2 X) d v = List.ofFn (X v) := by
  unfold point
  apply List.ext_getElem
  · simp
  · intro i h1 h2
    simp at h1
    simp [Arr.of2, h1]


theorem checkCoords_of2 {d : ℕ} (hd : d = 2 ∨ d = 3) (X : Fin n → Fin d → ℝ) : checkCoords n (coordsOf X) = .ok d := by
  unfold coordsOf checkCoords
  dsimp only
  rw [if_neg, if_neg, if_neg]
  · rfl
  · simp [Arr.of2, Arr.ndim]
  · simp [Arr.of2]
  · simp [Arr.of2, Arr.ndim, hd]

theorem pyIndex_iff {i : ℤ} {v : Fin n} : pyIndex n i = .ok v ↔ Names i v := by
  unfold pyIndex Names
  dsimp only
  have := v.isLt
  split <;> split
  · rw [Except.ok.injEq, Fin.ext_iff]
    show (i + n).toNat = v.val ↔ _
    omega
  · rename_i h
    exact ⟨fun q => (by cases q), fun q => absurd (by omega) h⟩
  · rw [Except.ok.injEq, Fin.ext_iff]
    show i.toNat = v.val ↔ _
    omega
  · rename_i h
    exact ⟨fun q => (by cases q), fun q => absurd (by omega) h⟩

theorem pyIndices_iff {hl : List ℤ} {w : List (Fin n)} : pyIndices n hl = .ok w ↔ List.Forall₂ Names hl w := by
  induction hl generalizing w with
  | nil =>
    unfold pyIndices
    rw [Except.ok.injEq, List.forall₂_nil_left_iff, eq_comm]
  | cons i is ih =>
    unfold pyIndices
    constructor
    · intro h
      obtain ⟨v, h1, h⟩ := bind_ok h
      obtain ⟨vs, h2, h⟩ := bind_ok h
      cases h
      exact .cons (pyIndex_iff.1 h1) (ih.1 h2)
    · intro h
      cases h with
      | cons h1 h2 =>
        rw [pyIndex_iff.2 h1, ih.2 h2]
        rfl

theorem draw_scatter {G : Graph n ℝ} {a : Arr} {dim : ℕ} (hd : dim ≠ 1) {b : Backend} {c : Option (Colors n)} {sz : Sizes n} {lim : ℝ × ℝ} {cb e : Bool} {ec : Colors G.nEdges}
    {ew : Sizes G.nEdges} {hl : List ℤ} {s : Scatter n G.nEdges} (h : draw G b a dim c sz lim cb e ec ew hl = .ok (.scatter s)) :
    ∃ c' w l, c = some c' ∧ pyIndices n hl = .ok w ∧ (e = true → G.getEdgeList = .ok l) ∧
      Picture.scatter s = plotScatter a dim c' sz lim cb (if e then some l else none) ew ec w := by
  unfold draw at h
  split at h
  · rename_i c'
    rw [if_neg hd] at h
    split at h
    · rename_i he
      obtain ⟨l, h1, h⟩ := bind_ok h
      obtain ⟨w, h2, h⟩ := bind_ok h
      refine ⟨c', w, l, rfl, h2, fun _ => h1, ?_⟩
      rw [if_pos he]
      exact (Except.ok.inj h).symm
    · rename_i he
      obtain ⟨w, h2, h⟩ := bind_ok h
      refine ⟨c', w, [], rfl, h2, fun q => absurd q he, ?_⟩
      rw [if_neg he]
      exact (Except.ok.inj h).symm
  · exfalso
    have key : ∀ l, plotQtg (m := G.nEdges) a dim c lim l ≠ .ok (.scatter s) := by
      intro l
      unfold plotQtg
      rw [if_neg hd]
      split
      · intro q; cases q
      · split <;> intro q <;> cases q
      · intro q; cases q
    split at h
    · obtain ⟨l, -, h⟩ := bind_ok h
      exact key _ h
    · exact key _ h
  · cases h

theorem plot_scatter {G : Graph n ℝ} {d : ℕ} (hd : d = 2 ∨ d = 3) {X : Fin n → Fin d → ℝ} {st : Style} {vc : ColorArg} {vs : SizeArg} {hl : List ℤ} {e : Option Bool} {ec : ColorArg}
    {ew : SizeArg} {cb : Bool} {lim : Option (ℝ × ℝ)} {b : Backend} {s : Scatter n G.nEdges} (h : plot G (coordsOf X) st vc vs hl e ec ew cb lim b = .ok (.scatter s)) :
    ∃ c lim' cb' w l, vertexColors b st n d vc lim cb = .ok (some c, lim', cb') ∧ vertexSizes st n vs = .ok s.sizes ∧ edgeColors b st G.nEdges ec = .ok s.edgeColors ∧
      edgeWidths st G.nEdges ew = .ok s.widths ∧ plotLimits (some c) lim' = .ok (s.vmin, s.vmax) ∧ pyIndices n hl = .ok w ∧
      (e.getD (decide (G.nEdges < 10000)) = true → G.getEdgeList = .ok l) ∧ s.colors = c ∧ s.colorbar = cb' ∧ (s.points = fun v => List.ofFn (X v)) ∧
      s.segments = (if e.getD (decide (G.nEdges < 10000)) = true then l.map fun p => (List.ofFn (X p.1), List.ofFn (X p.2.1)) else []) ∧
      s.highlights = w.map fun v => (List.ofFn (X v), 2 * s.sizes.at v) := by
  unfold plot at h
  rw [checkCoords_of2 hd] at h
  obtain ⟨⟨c, lim', cb'⟩, h1, h⟩ := bind_ok (show (vertexColors b st n d vc lim cb >>= _) = _ from h)
  obtain ⟨sz, h2, h⟩ := bind_ok h
  obtain ⟨ecs, h3, h⟩ := bind_ok h
  obtain ⟨ews, h4, h⟩ := bind_ok h
  obtain ⟨lm, h5, h⟩ := bind_ok h
  obtain ⟨c', w, l, rfl, h6, h7, h8⟩ := draw_scatter (by omega) h
  have h8 := Picture.scatter.inj h8
  subst h8
  refine ⟨c', lim', cb', w, l, h1, h2, h3, h4, h5, h6, h7, rfl, rfl, funext fun v => point_of2 X v, ?_, ?_⟩
  · show (Option.map _ (if _ then _ else _)).getD [] = _
    split
    · exact List.map_congr_left fun p _ => Prod.ext (point_of2 X p.1) (point_of2 X p.2.1)
    · rfl
  · exact List.map_congr_left fun v _ => Prod.ext (point_of2 X v) rfl


theorem checked {k : ℕ} {y : Fin k → ℝ} {β : Type} {f : (Fin k → ℝ) → Py β} {b : β} (h : (checkShape (Arr.of1 y).squeeze k >>= f) = .ok b) : k ≠ 1 ∧ f y = .ok b := by
  by_cases hk : k = 1
  · subst hk
    rw [checkShape_of1_one] at h
    cases h
  · rw [checkShape_of1 hk] at h
    exact ⟨hk, h⟩

theorem isColor_of1 {k : ℕ} (y : Fin k → ℝ) : isColor .matplotlib (Arr.of1 y) ↔ k = 0 ∨ (k = 3 ∨ k = 4) ∧ ∀ i, 0 ≤ y i ∧ y i ≤ 1 := by
  unfold isColor
  dsimp only
  have h1 : isColorLike (Arr.of1 y) ↔ (k = 3 ∨ k = 4) ∧ ∀ i, 0 ≤ y i ∧ y i ≤ 1 := by
    unfold isColorLike
    constructor
    · rintro (⟨h1, h2⟩ | ⟨h1, -⟩)
      · refine ⟨by simpa [Arr.of1] using h1, fun i => ?_⟩
        have := h2 i i.isLt
        simpa [Arr.of1] using this
      · simp [Arr.of1] at h1
    · rintro ⟨h1, h2⟩
      refine Or.inl ⟨by simpa [Arr.of1] using h1, fun i hi => ?_⟩
      have hi : i < k := hi
      have := h2 ⟨i, hi⟩
      simpa [Arr.of1, hi] using this
  have h2 : ∀ i, ¬ isColorLike (item (Arr.of1 y) i) := by
    intro i
    unfold isColorLike item
    simp [Arr.of1]
  rw [h1]
  constructor
  · rintro (h | ⟨-, h⟩)
    · exact Or.inr h
    · by_contra hk
      exact h2 0 (h 0 (by show 0 < k; omega))
  · rintro (rfl | h)
    · exact Or.inr ⟨by simp [Arr.of1], fun i hi => by simp [Arr.of1] at hi⟩
    · exact Or.inl h

/-! ## The picture -/

/-- **C98**, positions: in a picture in two or three dimensions, the vertices are at their coordinates; the segments are those between the ends of the edges, in the order of
`get_edge_list`, so that there are as many segments as edges; they are drawn when the user asks for it, and by default when there are less than 10000 edges.  The highlighted
vertices are those of the user, drawn at their coordinates with twice their size. -/
theorem C98_positions (G : Graph n ℝ) (hG : G.Built) {d : ℕ} (hd : d = 2 ∨ d = 3) (X : Fin n → Fin d → ℝ) (st : Style) (vc : ColorArg) (vs : SizeArg) (hl : List ℤ)
    (edges : Option Bool) (ec : ColorArg) (ew : SizeArg) (cb : Bool) (lim : Option (ℝ × ℝ)) (b : Backend) (s : Scatter n G.nEdges)
    (h : plot G (coordsOf X) st vc vs hl edges ec ew cb lim b = .ok (.scatter s)) :
    (∀ v, s.points v = List.ofFn (X v)) ∧
    (edges = some true ∨ edges = none ∧ G.nEdges < 10000 → s.segments.length = G.nEdges ∧
      ∃ l, G.getEdgeList = .ok l ∧ s.segments = l.map fun p => (List.ofFn (X p.1), List.ofFn (X p.2.1))) ∧
    (edges = some false ∨ edges = none ∧ 10000 ≤ G.nEdges → s.segments = []) ∧
    ∃ w, List.Forall₂ Names hl w ∧ s.highlights = w.map fun v => (List.ofFn (X v), 2 * s.sizes.at v) := by
  obtain ⟨c, lim', cb', w, l, -, -, -, -, -, h6, h7, -, -, h8, h9, h10⟩ := plot_scatter hd h
  obtain ⟨l', e1, e2, -, -⟩ := C04_edge_list G hG
  refine ⟨fun v => by rw [h8], fun q => ?_, fun q => ?_, w, pyIndices_iff.1 h6, h10⟩
  · have q' : edges.getD (decide (G.nEdges < 10000)) = true := by rcases q with rfl | ⟨rfl, q⟩ <;> simp [*]
    have e3 := h7 q'
    rw [if_pos q'] at h9
    have e4 : l = l' := Except.ok.inj (e3.symm.trans e1)
    exact ⟨by rw [h9, List.length_map, e4, e2], l, e3, h9⟩
  · have q' : ¬ edges.getD (decide (G.nEdges < 10000)) = true := by
      rcases q with rfl | ⟨rfl, q⟩
      · simp
      · simp; omega
    rw [h9, if_neg q']

/-- **C98**, sizes of the vertices: the size of the style by default, the number of the user, or, when the user gives one value for each vertex, four times the size of the style
times the square of the values scaled to `[intercept, 1]`. -/
theorem C98_vertex_sizes (G : Graph n ℝ) {d : ℕ} (hd : d = 2 ∨ d = 3) (X : Fin n → Fin d → ℝ) (st : Style) (vc : ColorArg) (vs : SizeArg) (hl : List ℤ)
    (edges : Option Bool) (ec : ColorArg) (ew : SizeArg) (cb : Bool) (lim : Option (ℝ × ℝ)) (b : Backend) (s : Scatter n G.nEdges)
    (h : plot G (coordsOf X) st vc vs hl edges ec ew cb lim b = .ok (.scatter s)) :
    (vs = .none → ∀ v, s.sizes.at v = st.vertexSize) ∧
    (∀ x, vs = .scalar x → ∀ v, s.sizes.at v = x) ∧
    (∀ y : Fin n → ℝ, vs = .array (Arr.of1 y) → ∃ r, Scaled st.intercept y r ∧ ∀ v, s.sizes.at v = 4 * st.vertexSize * r v ^ 2) := by
  obtain ⟨c, lim', cb', w, l, -, h2, -, -, -, -, -, -, -, -, -, -⟩ := plot_scatter hd h
  refine ⟨?_, ?_, ?_⟩
  · rintro rfl v
    rw [← Except.ok.inj h2]
    rfl
  · rintro x rfl v
    rw [← Except.ok.inj h2]
    rfl
  · rintro y rfl
    unfold vertexSizes at h2
    obtain ⟨-, h2⟩ := checked h2
    obtain ⟨r, h3, h2⟩ := bind_ok h2
    refine ⟨r, normalize_ok h3, fun v => ?_⟩
    rw [← Except.ok.inj h2]
    show st.vertexSize * 4 * r v ^ 2 = _
    ring

/-- **C98**, edges: the width of the style by default, the number of the user, or, when the user gives one value for each edge, twice the width of the style times the
values scaled to `[intercept, 1]`; the color of the style by default, and, when the user gives one value for each edge (that are not the three or four components of a color), the
color of the style with the opacity 0.9 times the values scaled to `[intercept, 1]`. -/
theorem C98_edge_style (G : Graph n ℝ) {d : ℕ} (hd : d = 2 ∨ d = 3) (X : Fin n → Fin d → ℝ) (st : Style) (vc : ColorArg) (vs : SizeArg) (hl : List ℤ)
    (edges : Option Bool) (ec : ColorArg) (ew : SizeArg) (cb : Bool) (lim : Option (ℝ × ℝ)) (s : Scatter n G.nEdges)
    (h : plot G (coordsOf X) st vc vs hl edges ec ew cb lim .matplotlib = .ok (.scatter s)) :
    (ew = .none → ∀ k, s.widths.at k = st.edgeWidth) ∧
    (∀ x, ew = .scalar x → ∀ k, s.widths.at k = x) ∧
    (∀ y : Fin G.nEdges → ℝ, ew = .array (Arr.of1 y) → ∃ r, Scaled st.intercept y r ∧ ∀ k, s.widths.at k = 2 * st.edgeWidth * r k) ∧
    (ec = .none → s.edgeColors = .one st.edgeColor) ∧
    (∀ y : Fin G.nEdges → ℝ, ec = .array (Arr.of1 y) → G.nEdges ≠ 0 → (G.nEdges = 3 ∨ G.nEdges = 4 → ∃ k, y k < 0 ∨ 1 < y k) →
      ∃ r, Scaled st.intercept y r ∧ s.edgeColors = .each fun k => (st.edgeColor.1, st.edgeColor.2.1, st.edgeColor.2.2.1, 0.9 * r k)) := by
  obtain ⟨c, lim', cb', w, l, -, -, h3, h4, -, -, -, -, -, -, -, -⟩ := plot_scatter hd h
  refine ⟨?_, ?_, ?_, ?_, ?_⟩
  · rintro rfl v
    rw [← Except.ok.inj h4]
    rfl
  · rintro x rfl v
    rw [← Except.ok.inj h4]
    rfl
  · rintro y rfl
    unfold edgeWidths at h4
    obtain ⟨-, h4⟩ := checked h4
    obtain ⟨r, h5, h4⟩ := bind_ok h4
    refine ⟨r, normalize_ok h5, fun v => ?_⟩
    rw [← Except.ok.inj h4]
    show st.edgeWidth * 2 * r v = _
    ring
  · rintro rfl
    exact (Except.ok.inj h3).symm
  · rintro y rfl h0 hc
    unfold edgeColors at h3
    dsimp only at h3
    rw [if_neg] at h3
    · obtain ⟨-, h3⟩ := checked h3
      obtain ⟨r, h5, h3⟩ := bind_ok h3
      exact ⟨r, normalize_ok h5, (Except.ok.inj h3).symm⟩
    · rw [isColor_of1]
      rintro (q | ⟨q1, q2⟩)
      · exact h0 q
      · obtain ⟨k, hk⟩ := hc q1
        have := q2 k
        rcases hk with hk | hk <;> linarith [this.1, this.2]

/-- **C98**, the colors of the vertices: the color of the style without signal, and no color bar; a signal of `n ≥ 2` values that are not the three or four components of a color is
given to the color map, from `limits`, or else from 1.05 times its least value to 1.05 times its greatest value. -/
theorem C98_signal (G : Graph n ℝ) {d : ℕ} (hd : d = 2 ∨ d = 3) (X : Fin n → Fin d → ℝ) (st : Style) (vc : ColorArg) (vs : SizeArg) (hl : List ℤ)
    (edges : Option Bool) (ec : ColorArg) (ew : SizeArg) (cb : Bool) (lim : Option (ℝ × ℝ)) (s : Scatter n G.nEdges)
    (h : plot G (coordsOf X) st vc vs hl edges ec ew cb lim .matplotlib = .ok (.scatter s)) :
    (vc = .none → s.colors = .one st.vertexColor ∧ s.colorbar = false) ∧
    (∀ x : Fin n → ℝ, vc = .array (Arr.of1 x) → n ≠ 0 → (n = 3 ∨ n = 4 → ∃ v, x v < 0 ∨ 1 < x v) →
      s.colors = .values x ∧ s.colorbar = cb ∧ (∀ l, lim = some l → (s.vmin, s.vmax) = l) ∧
      (lim = none → ∀ u v, (∀ w, x u ≤ x w ∧ x w ≤ x v) → s.vmin = 1.05 * x u ∧ s.vmax = 1.05 * x v)) := by
  obtain ⟨c, lim', cb', w, l, h1, -, -, -, h5, -, -, h6, h7, -, -, -⟩ := plot_scatter hd h
  refine ⟨?_, ?_⟩
  · rintro rfl
    cases h1
    exact ⟨h6, h7⟩
  · rintro x rfl h0 hc
    unfold vertexColors at h1
    dsimp only at h1
    rw [if_neg, if_neg (by omega)] at h1
    · obtain ⟨-, h1⟩ := checked h1
      cases h1
      refine ⟨h6, h7, ?_, ?_⟩
      · rintro l rfl
        exact (Except.ok.inj h5).symm
      · rintro rfl u v huv
        unfold plotLimits at h5
        obtain ⟨r, h8, h5⟩ := bind_ok h5
        obtain ⟨⟨a, ha⟩, ⟨b, hb⟩, hr⟩ := range_ok h8
        have h5 := Except.ok.inj h5
        have e1 : x u = r.1 := le_antisymm (ha ▸ (huv a).1) (hr u).1
        have e2 : x v = r.2 := le_antisymm (hr v).2 (hb ▸ (huv b).2)
        rw [e1, e2]
        exact ⟨(congrArg Prod.fst h5).symm, (congrArg Prod.snd h5).symm⟩
    · rw [isColor_of1]
      rintro (q | ⟨q1, q2⟩)
      · exact h0 q
      · obtain ⟨k, hk⟩ := hc q1
        have := q2 k
        rcases hk with hk | hk <;> linarith [this.1, this.2]

/-- **C98**, scaled values: they keep the order of the values; the least becomes `c` and the greatest 1; they do not depend on the origin nor on the unit of the values. -/
theorem C98_scaled {k : ℕ} {c : ℝ} (h0 : 0 ≤ c) (h1 : c ≤ 1) {y r : Fin k → ℝ} (h : Scaled c y r) :
    (∀ i j, y i ≤ y j → r i ≤ r j) ∧ ((∃ i j, y i ≠ y j) → (∀ i, c ≤ r i ∧ r i ≤ 1) ∧ ∀ i, ((∀ j, y i ≤ y j) → r i = c) ∧ ((∀ j, y j ≤ y i) → r i = 1)) ∧
    ((∀ i j, y i = y j) → ∀ i, r i = 1 / 2) ∧
    ∀ a b r', 0 < a → Scaled c (fun i => a * y i + b) r' → r' = r := by
  have hex : (∃ i j, y i ≠ y j) → ∃ a b, (∀ i, y a ≤ y i ∧ y i ≤ y b) ∧ y a < y b := by
    rintro ⟨i, j, hij⟩
    haveI : Nonempty (Fin k) := ⟨i⟩
    obtain ⟨a, ha⟩ := Finite.exists_min y
    obtain ⟨b, hb⟩ := Finite.exists_max y
    refine ⟨a, b, fun l => ⟨ha l, hb l⟩, lt_of_le_of_ne ((ha i).trans (hb i)) fun q => hij ?_⟩
    have := ha i; have := hb i; have := ha j; have := hb j
    linarith
  have hval : ∀ {a b}, (∀ i, y a ≤ y i ∧ y i ≤ y b) → y a < y b → ∀ i, r i = c + (1 - c) * ((y i - y a) / (y b - y a)) := fun h2 h3 => h.2 _ _ h2 h3
  refine ⟨fun i j hij => ?_, fun hne => ?_, h.1, fun a b r' ha hr' => ?_⟩
  · by_cases hne : ∃ i j, y i ≠ y j
    · obtain ⟨a, b, h2, h3⟩ := hex hne
      rw [hval h2 h3 i, hval h2 h3 j]
      have : 0 < y b - y a := sub_pos.2 h3
      have h4 : (y i - y a) / (y b - y a) ≤ (y j - y a) / (y b - y a) := by gcongr
      have h5 : 0 ≤ 1 - c := by linarith
      nlinarith
    · push Not at hne
      rw [h.1 hne, h.1 hne]
  · obtain ⟨a, b, h2, h3⟩ := hex hne
    have h4 : 0 < y b - y a := sub_pos.2 h3
    refine ⟨fun i => ?_, fun i => ⟨fun hi => ?_, fun hi => ?_⟩⟩
    · rw [hval h2 h3 i]
      have h5 : 0 ≤ (y i - y a) / (y b - y a) := div_nonneg (sub_nonneg.2 (h2 i).1) h4.le
      have h6 : (y i - y a) / (y b - y a) ≤ 1 := (div_le_one h4).2 (by linarith [(h2 i).2])
      constructor <;> nlinarith
    · rw [hval h2 h3 i, le_antisymm (hi a) (h2 i).1, sub_self, zero_div, mul_zero, add_zero]
    · rw [hval h2 h3 i, le_antisymm (h2 i).2 (hi b), div_self h4.ne']
      ring
  · funext i
    by_cases hne : ∃ i j, y i ≠ y j
    · obtain ⟨u, v, h2, h3⟩ := hex hne
      rw [hval h2 h3 i, hr'.2 u v (fun l => ⟨by have := (h2 l).1; nlinarith, by have := (h2 l).2; nlinarith⟩) (by nlinarith) i]
      have h4 : y v - y u ≠ 0 := (sub_pos.2 h3).ne'
      have h5 : a * (y v - y u) ≠ 0 := mul_ne_zero ha.ne' h4
      rw [show a * y v + b - (a * y u + b) = a * (y v - y u) by ring, show a * y i + b - (a * y u + b) = a * (y i - y u) by ring, mul_div_mul_left _ _ ha.ne']
    · push Not at hne
      rw [h.1 hne, hr'.1 fun i j => by show a * y i + b = a * y j + b; rw [hne i j]]

/-- **C98**, default sizes: with the style of a new graph, the sizes of the vertices given by a signal that is not constant go from 25 to 400, that is from a quarter of the
default size to four times the default size, the widths of the edges from 1 to 4, half and twice the default width, and their opacity from 0.225 to 0.9. -/
theorem C98_default_ranges {k : ℕ} {y r : Fin k → ℝ} (h : Scaled Style.default.intercept y r) (hne : ∃ i j, y i ≠ y j) :
    (∀ i, Style.default.vertexSize / 4 ≤ 4 * Style.default.vertexSize * r i ^ 2 ∧ 4 * Style.default.vertexSize * r i ^ 2 ≤ 4 * Style.default.vertexSize) ∧
    (∃ i, 4 * Style.default.vertexSize * r i ^ 2 = 25) ∧ (∃ i, 4 * Style.default.vertexSize * r i ^ 2 = 400) ∧
    (∀ i, Style.default.edgeWidth / 2 ≤ 2 * Style.default.edgeWidth * r i ∧ 2 * Style.default.edgeWidth * r i ≤ 2 * Style.default.edgeWidth) ∧
    (∃ i, 2 * Style.default.edgeWidth * r i = 1) ∧ (∃ i, 2 * Style.default.edgeWidth * r i = 4) ∧
    (∀ i, 0.225 ≤ 0.9 * r i ∧ 0.9 * r i ≤ 0.9) := by
  have hc : Style.default.intercept = 1 / 4 := by show (0.25 : ℝ) = _; norm_num
  rw [hc] at h
  have hv : Style.default.vertexSize = 100 := rfl
  have hw : Style.default.edgeWidth = 2 := rfl
  obtain ⟨-, h1, -⟩ := C98_scaled (by norm_num) (by norm_num) h
  obtain ⟨h1, h2⟩ := h1 hne
  obtain ⟨i0, -, -⟩ := id hne
  haveI : Nonempty (Fin k) := ⟨i0⟩
  obtain ⟨a, ha⟩ := Finite.exists_min y
  obtain ⟨b, hb⟩ := Finite.exists_max y
  have ea := (h2 a).1 ha
  have eb := (h2 b).2 hb
  rw [hv, hw]
  refine ⟨fun i => ?_, ⟨a, by rw [ea]; norm_num⟩, ⟨b, by rw [eb]; norm_num⟩, fun i => ?_, ⟨a, by rw [ea]; norm_num⟩, ⟨b, by rw [eb]; norm_num⟩, fun i => ?_⟩
  · have := h1 i
    constructor <;> nlinarith [this.1, this.2]
  · have := h1 i
    constructor <;> linarith [this.1, this.2]
  · have := h1 i
    constructor <;> norm_num <;> linarith [this.1, this.2]

/-! ## When a picture is drawn -/

theorem vertexColors_none (b : Backend) (st : Style) (d : ℕ) (lim : Option (ℝ × ℝ)) (cb : Bool) :
    ∃ c, vertexColors b st n d .none lim cb = .ok (c, some (0, 0), false) ∧ (b = .matplotlib → c ≠ none) := by
  cases b <;> exact ⟨_, rfl, fun q => by first | (cases q; done) | (intro q; cases q)⟩

/-- **C98**, a picture is drawn: with the coordinates of the `n` vertices in two or three dimensions, when the signal, the sizes, the widths and the colors of the edges are given by nothing,
by a number, by the name of a color or by one number for each vertex or edge (and there are at least two of them), and the highlighted vertices exist. -/
theorem C98_returns (G : Graph n ℝ) (hG : G.Built) {d : ℕ} (hd : d = 2 ∨ d = 3) (X : Fin n → Fin d → ℝ) (st : Style) (vc : ColorArg) (vs : SizeArg) (hl : List ℤ)
    (edges : Option Bool) (ec : ColorArg) (ew : SizeArg) (cb : Bool) (lim : Option (ℝ × ℝ))
    (hvc : vc = .none ∨ (∃ c, vc = .named c) ∨ 2 ≤ n ∧ ∃ x : Fin n → ℝ, vc = .array (Arr.of1 x))
    (hvs : vs = .none ∨ (∃ c, vs = .scalar c) ∨ 2 ≤ n ∧ ∃ x : Fin n → ℝ, vs = .array (Arr.of1 x))
    (hec : ec = .none ∨ (∃ c, ec = .named c) ∨ G.nEdges ≠ 1 ∧ ∃ x : Fin G.nEdges → ℝ, ec = .array (Arr.of1 x))
    (hew : ew = .none ∨ (∃ c, ew = .scalar c) ∨ 2 ≤ G.nEdges ∧ ∃ x : Fin G.nEdges → ℝ, ew = .array (Arr.of1 x))
    (hhl : ∀ i ∈ hl, -(n : ℤ) ≤ i ∧ i < n) :
    ∃ s, plot G (coordsOf X) st vc vs hl edges ec ew cb lim .matplotlib = .ok (.scatter s) := by
  have h1 : ∃ c lim' cb', vertexColors .matplotlib st n d vc lim cb = .ok (some c, lim', cb') ∧ ∃ l, plotLimits (some c) lim' = .ok l := by
    rcases hvc with rfl | ⟨c, rfl⟩ | ⟨hn, x, rfl⟩
    · exact ⟨_, _, _, rfl, _, rfl⟩
    · exact ⟨_, _, _, rfl, _, rfl⟩
    · unfold vertexColors
      dsimp only
      split
      · exact ⟨_, _, _, rfl, _, rfl⟩
      · rw [if_neg (by omega), checkShape_of1 (by omega)]
        refine ⟨_, _, _, rfl, ?_⟩
        cases lim with
        | some l => exact ⟨l, rfl⟩
        | none =>
          obtain ⟨l, hl⟩ := range_exists (by omega) x
          unfold plotLimits
          dsimp only
          rw [hl]
          exact ⟨_, rfl⟩
  have h2 : ∃ sz, vertexSizes st n vs = .ok sz := by
    rcases hvs with rfl | ⟨c, rfl⟩ | ⟨hn, x, rfl⟩
    · exact ⟨_, rfl⟩
    · exact ⟨_, rfl⟩
    · obtain ⟨y, hy⟩ := normalize_exists st (by omega : 0 < n) x
      unfold vertexSizes
      dsimp only
      rw [checkShape_of1 (by omega)]
      show ∃ sz, (normalize st x >>= _) = _
      rw [hy]
      exact ⟨_, rfl⟩
  have h3 : ∃ c, edgeColors .matplotlib st G.nEdges ec = .ok c := by
    rcases hec with rfl | ⟨c, rfl⟩ | ⟨hn, x, rfl⟩
    · exact ⟨_, rfl⟩
    · exact ⟨_, rfl⟩
    · unfold edgeColors
      dsimp only
      split
      · exact ⟨_, rfl⟩
      · rename_i hc
        have h0 : G.nEdges ≠ 0 := fun q => hc ((isColor_of1 x).2 (Or.inl q))
        obtain ⟨y, hy⟩ := normalize_exists st (Nat.pos_of_ne_zero h0) x
        rw [checkShape_of1 hn]
        show ∃ sz, (normalize st x >>= _) = _
        rw [hy]
        exact ⟨_, rfl⟩
  have h4 : ∃ sz, edgeWidths st G.nEdges ew = .ok sz := by
    rcases hew with rfl | ⟨c, rfl⟩ | ⟨hn, x, rfl⟩
    · exact ⟨_, rfl⟩
    · exact ⟨_, rfl⟩
    · obtain ⟨y, hy⟩ := normalize_exists st (by omega : 0 < G.nEdges) x
      unfold edgeWidths
      dsimp only
      rw [checkShape_of1 (by omega)]
      show ∃ sz, (normalize st x >>= _) = _
      rw [hy]
      exact ⟨_, rfl⟩
  have h5 : ∃ w, pyIndices n hl = .ok w := by
    have : ∃ w : List (Fin n), List.Forall₂ Names hl w := by
      clear h1 h2 h3 h4
      induction hl with
      | nil => exact ⟨[], .nil⟩
      | cons i is ih =>
        obtain ⟨w, hw⟩ := ih fun j hj => hhl j (List.mem_cons_of_mem _ hj)
        have hi := hhl i List.mem_cons_self
        by_cases h0 : i < 0
        · exact ⟨⟨(i + n).toNat, by omega⟩ :: w, .cons (Or.inr (by show i = ((i + n).toNat : ℤ) - n; omega)) hw⟩
        · exact ⟨⟨i.toNat, by omega⟩ :: w, .cons (Or.inl (by show i = (i.toNat : ℤ); omega)) hw⟩
    obtain ⟨w, hw⟩ := this
    exact ⟨w, pyIndices_iff.2 hw⟩
  obtain ⟨c, lim', cb', h1, lm, h6⟩ := h1
  obtain ⟨sz, h2⟩ := h2
  obtain ⟨ecs, h3⟩ := h3
  obtain ⟨ews, h4⟩ := h4
  obtain ⟨w, h5⟩ := h5
  obtain ⟨l, h7, -⟩ := C04_edge_list G hG
  unfold plot
  rw [checkCoords_of2 hd]
  show ∃ s, (vertexColors .matplotlib st n d vc lim cb >>= _) = _
  rw [h1]
  show ∃ s, (vertexSizes st n vs >>= _) = _
  rw [h2]
  show ∃ s, (edgeColors .matplotlib st G.nEdges ec >>= _) = _
  rw [h3]
  show ∃ s, (edgeWidths st G.nEdges ew >>= _) = _
  rw [h4]
  show ∃ s, (plotLimits (some c) lim' >>= _) = _
  rw [h6]
  show ∃ s, draw G .matplotlib _ d (some c) sz lm cb' _ ecs ews hl = _
  unfold draw
  dsimp only
  rw [if_neg (by omega), h7, h5]
  split
  · exact ⟨_, rfl⟩
  · exact ⟨_, rfl⟩

theorem ok_bind {α β : Type} (a : α) (f : α → Py β) : ((.ok a : Py α) >>= f) = f a := rfl

theorem checkShape_len {p k : ℕ} (h : p ≠ k) (x : Fin p → ℝ) : checkShape (Arr.of1 x).squeeze k = .error .valueError := by
  unfold checkShape
  rw [if_neg]
  intro q
  by_cases hp : p = 1
  · simp [Arr.squeeze, Arr.of1, hp] at q
  · simp [Arr.squeeze, Arr.of1, hp] at q
    exact h q

theorem isColor_of2 {p q : ℕ} (hp : 2 ≤ p) (x : Fin p → Fin q → ℝ) (h : q = 3 ∨ q = 4 → ∃ i j, x i j < 0 ∨ 1 < x i j) : ¬ isColor .matplotlib (Arr.of2 x) := by
  unfold isColor
  dsimp only
  rintro (hc | ⟨-, hc⟩)
  · unfold isColorLike at hc
    rcases hc with ⟨hc, -⟩ | ⟨hc, -⟩
    · simp [Arr.of2] at hc
    · simp [Arr.of2] at hc
      omega
  · have hq : q = 3 ∨ q = 4 := by
      have := hc 0 (by show 0 < p; omega)
      unfold isColorLike item at this
      simp only [Arr.of2, List.tail_cons] at this
      rcases this with ⟨h1, -⟩ | ⟨h1, -⟩ <;> simpa using h1
    obtain ⟨i, j, hij⟩ := h hq
    have := hc i i.isLt
    unfold isColorLike item at this
    simp only [Arr.of2, List.tail_cons] at this
    rcases this with ⟨-, h1⟩ | ⟨h1, -⟩
    · have h2 := h1 j j.isLt
      simp only [i.isLt, j.isLt, and_self, dif_pos] at h2
      rcases hij with hij | hij <;> linarith [h2.1, h2.2]
    · simp at h1

theorem vertexColors_array {b : Backend} {st : Style} {d : ℕ} (hd : d ≠ 1) {a : Arr} (ha : ¬ isColor .matplotlib a) {lim : Option (ℝ × ℝ)} {cb : Bool} :
    vertexColors b st n d (.array a) lim cb = (do let x ← checkShape a.squeeze n; .ok (some (.values x), lim, cb)) := by
  unfold vertexColors
  dsimp only
  rw [if_neg, if_neg (by omega)]
  cases b
  · exact ha
  · exact id
  · exact id

theorem draw_other {G : Graph n ℝ} {name : String} {a : Arr} {dim : ℕ} {c : Option (Colors n)} {sz : Sizes n} {lim : ℝ × ℝ} {cb e : Bool} {ec : Colors G.nEdges}
    {ew : Sizes G.nEdges} {hl : List ℤ} : draw G (.other name) a dim c sz lim cb e ec ew hl = .error .valueError := rfl

theorem pyIndices_error {hl : List ℤ} (h : ∃ i ∈ hl, i < -(n : ℤ) ∨ n ≤ i) : pyIndices n hl = .error .indexError := by
  have hi : ∀ {i : ℤ}, i < -(n : ℤ) ∨ n ≤ i → pyIndex n i = .error .indexError := by
    intro i h
    unfold pyIndex
    dsimp only
    rw [dif_neg]
    split <;> omega
  have hp : ∀ i : ℤ, (∃ v : Fin n, pyIndex n i = .ok v) ∨ pyIndex n i = .error .indexError := by
    intro i
    unfold pyIndex
    dsimp only
    split <;> split
    · exact Or.inl ⟨_, rfl⟩
    · exact Or.inr rfl
    · exact Or.inl ⟨_, rfl⟩
    · exact Or.inr rfl
  induction hl with
  | nil => simp at h
  | cons j js ih =>
    unfold pyIndices
    rcases hp j with ⟨v, hv⟩ | hv
    · obtain ⟨i, hmem, hb⟩ := h
      rcases List.mem_cons.1 hmem with rfl | hmem
      · rw [hi hb] at hv
        cases hv
      · rw [hv]
        show (pyIndices n js >>= _) = _
        rw [ih ⟨i, hmem, hb⟩]
        rfl
    · rw [hv]
      rfl

/-- **C98**, errors: AttributeError without coordinates, with coordinates that are not in one, two or three dimensions, or whose number is not the number of vertices;
ValueError when the number of values of a signal, of the sizes or of the widths is wrong, when there are several signals, and for an unknown backend; IndexError when a highlighted vertex does not exist. -/
theorem C98_errors (G : Graph n ℝ) (hG : G.Built) (st : Style) (vc : ColorArg) (vs : SizeArg) (hl : List ℤ) (edges : Option Bool) (ec : ColorArg) (ew : SizeArg) (cb : Bool)
    (lim : Option (ℝ × ℝ)) (b : Backend) :
    plot G none st vc vs hl edges ec ew cb lim b = .error .attributeError ∧
    (∀ (p d : ℕ) (X : Fin p → Fin d → ℝ), p ≠ n ∨ d ≠ 2 ∧ d ≠ 3 → plot G (some (Arr.of2 X)) st vc vs hl edges ec ew cb lim b = .error .attributeError) ∧
    (∀ (p : ℕ) (X : Fin p → ℝ), p ≠ n → plot G (some (Arr.of1 X)) st vc vs hl edges ec ew cb lim b = .error .attributeError) ∧
    ∀ (d : ℕ), d = 2 ∨ d = 3 → ∀ X : Fin n → Fin d → ℝ,
      (∀ (p : ℕ) (x : Fin p → ℝ), p ≠ n → p ≠ 0 → (p = 3 ∨ p = 4 → ∃ i, x i < 0 ∨ 1 < x i) →
        plot G (coordsOf X) st (.array (Arr.of1 x)) vs hl edges ec ew cb lim b = .error .valueError) ∧
      (∀ (p q : ℕ) (x : Fin p → Fin q → ℝ), 2 ≤ p → 2 ≤ q → (q = 3 ∨ q = 4 → ∃ i j, x i j < 0 ∨ 1 < x i j) →
        plot G (coordsOf X) st (.array (Arr.of2 x)) vs hl edges ec ew cb lim b = .error .valueError) ∧
      (∀ (p : ℕ) (x : Fin p → ℝ), p ≠ n → plot G (coordsOf X) st .none (.array (Arr.of1 x)) hl edges ec ew cb lim b = .error .valueError) ∧
      (∀ (p : ℕ) (x : Fin p → ℝ), p ≠ G.nEdges → plot G (coordsOf X) st .none .none hl edges .none (.array (Arr.of1 x)) cb lim b = .error .valueError) ∧
      (∀ name, b = .other name → plot G (coordsOf X) st .none .none hl edges .none .none cb lim b = .error .valueError) ∧
      (b = .matplotlib → (∃ i ∈ hl, i < -(n : ℤ) ∨ n ≤ i) → plot G (coordsOf X) st .none .none hl edges .none .none cb lim b = .error .indexError) := by
  refine ⟨rfl, fun p d X h => ?_, fun p X h => ?_, fun d hd X => ?_⟩
  · unfold plot
    have : checkCoords n (some (Arr.of2 X)) = .error .attributeError := by
      unfold checkCoords
      dsimp only
      by_cases h1 : d = 2 ∨ d = 3
      · rw [if_neg, if_pos]
        · show p ≠ n
          omega
        · simp [Arr.of2, Arr.ndim, h1]
      · rw [if_pos]
        simpa [Arr.of2, Arr.ndim] using h1
    rw [this]
    rfl
  · unfold plot
    have : checkCoords n (some (Arr.of1 X)) = .error .attributeError := by
      unfold checkCoords
      dsimp only
      rw [if_neg, if_pos]
      · exact h
      · simp [Arr.of1, Arr.ndim]
    rw [this]
    rfl
  have hd1 : d ≠ 1 := by omega
  refine ⟨fun p x h1 h2 h3 => ?_, fun p q x hp hq hc => ?_, fun p x h => ?_, fun p x h => ?_, ?_, ?_⟩
  · unfold plot
    rw [checkCoords_of2 hd]
    show (vertexColors b st n d (.array (Arr.of1 x)) lim cb >>= _) = _
    rw [vertexColors_array hd1, checkShape_len h1]
    · rfl
    · rw [isColor_of1]
      rintro (q | ⟨q1, q2⟩)
      · exact h2 q
      · obtain ⟨k, hk⟩ := h3 q1
        have := q2 k
        rcases hk with hk | hk <;> linarith [this.1, this.2]
  · unfold plot
    rw [checkCoords_of2 hd]
    show (vertexColors b st n d (.array (Arr.of2 x)) lim cb >>= _) = _
    rw [vertexColors_array hd1 (isColor_of2 hp x hc)]
    have : checkShape (Arr.of2 x).squeeze n = .error .valueError := by
      unfold checkShape
      rw [if_neg]
      simp [Arr.squeeze, Arr.of2, show p ≠ 1 by omega, show q ≠ 1 by omega]
    rw [this]
    rfl
  · obtain ⟨c, hc, -⟩ := vertexColors_none (n := n) b st d lim cb
    unfold plot
    rw [checkCoords_of2 hd, ok_bind, hc, ok_bind]
    dsimp only
    unfold vertexSizes
    dsimp only
    rw [checkShape_len h]
    rfl
  · obtain ⟨c, hc, -⟩ := vertexColors_none (n := n) b st d lim cb
    unfold plot
    rw [checkCoords_of2 hd, ok_bind, hc, ok_bind]
    dsimp only
    rw [show vertexSizes st n .none = .ok (.one st.vertexSize) from rfl, ok_bind, show edgeColors b st G.nEdges .none = .ok (.one st.edgeColor) from rfl, ok_bind]
    unfold edgeWidths
    dsimp only
    rw [checkShape_len h]
    rfl
  · rintro name rfl
    unfold plot
    rw [checkCoords_of2 hd]
    rfl
  · rintro rfl hh
    obtain ⟨l, h7, -⟩ := C04_edge_list G hG
    unfold plot
    rw [checkCoords_of2 hd, ok_bind, show vertexColors .matplotlib st n d .none lim cb = .ok (some (.one st.vertexColor), some (0, 0), false) from rfl, ok_bind]
    dsimp only
    rw [show vertexSizes st n .none = .ok (.one st.vertexSize) from rfl, ok_bind, show edgeColors .matplotlib st G.nEdges .none = .ok (.one st.edgeColor) from rfl, ok_bind,
      show edgeWidths st G.nEdges .none = .ok (.one st.edgeWidth) from rfl, ok_bind, show plotLimits (some (.one st.vertexColor : Colors n)) (some (0, 0)) = .ok (0, 0) from rfl, ok_bind]
    unfold draw
    dsimp only
    rw [if_neg hd1, h7, pyIndices_error hh]
    split <;> rfl

/-! ## On a line -/

theorem checkCoords_of1 (X : Fin n → ℝ) : checkCoords n (some (Arr.of1 X)) = .ok 1 := by
  unfold checkCoords
  dsimp only
  rw [if_neg, if_neg, if_pos]
  · simp [Arr.of1, Arr.ndim]
  · simp [Arr.of1]
  · simp [Arr.of1, Arr.ndim]

/-- **C98**, coordinates on a line: the curve of the signal (of at least two values, that are not the components of a color) over the coordinates, without edges, between
`limits`, or else between 1.05 times its least and its greatest values, and a vertical line at the coordinate of each highlighted vertex. -/
theorem C98_curve (G : Graph n ℝ) (X x : Fin n → ℝ) (hn : 2 ≤ n) (hx : n = 3 ∨ n = 4 → ∃ v, x v < 0 ∨ 1 < x v) (st : Style) (hl : List ℤ) (edges : Option Bool) (cb : Bool)
    (lim : Option (ℝ × ℝ)) (w : List (Fin n)) (hw : List.Forall₂ Names hl w) :
    ∃ lo hi, plot G (some (Arr.of1 X)) st (.array (Arr.of1 x)) .none hl edges .none .none cb lim .matplotlib = .ok (.curve X x lo hi (w.map X)) ∧
      (∀ l, lim = some l → (lo, hi) = l) ∧ (lim = none → ∀ u v, (∀ w, x u ≤ x w ∧ x w ≤ x v) → lo = 1.05 * x u ∧ hi = 1.05 * x v) := by
  have h1 : vertexColors .matplotlib st n 1 (.array (Arr.of1 x)) lim cb = .ok (some (.values x), lim, cb) := by
    unfold vertexColors
    dsimp only
    rw [if_neg, if_neg, checkShape_of1 (by omega)]
    · rfl
    · rintro ⟨-, q, -⟩
      apply q
      rw [squeeze_of1 (by omega)]
      rfl
    · rw [isColor_of1]
      rintro (q | ⟨q1, q2⟩)
      · omega
      · obtain ⟨k, hk⟩ := hx q1
        have := q2 k
        rcases hk with hk | hk <;> linarith [this.1, this.2]
  obtain ⟨l, h2, h3, h4⟩ : ∃ l, plotLimits (some (.values x)) lim = .ok l ∧ (∀ l', lim = some l' → (l.1, l.2) = l') ∧
      (lim = none → ∀ u v, (∀ w, x u ≤ x w ∧ x w ≤ x v) → l.1 = 1.05 * x u ∧ l.2 = 1.05 * x v) := by
    cases lim with
    | some l => exact ⟨l, rfl, fun l' q => Option.some.inj q, fun q => by cases q⟩
    | none =>
      obtain ⟨r, hr⟩ := range_exists (by omega) x
      unfold plotLimits
      dsimp only
      rw [hr]
      refine ⟨_, rfl, fun l' q => (by cases q), fun _ u v huv => ?_⟩
      obtain ⟨⟨a, ha⟩, ⟨b, hb⟩, hr⟩ := range_ok hr
      have e1 : x u = r.1 := le_antisymm (ha ▸ (huv a).1) (hr u).1
      have e2 : x v = r.2 := le_antisymm (hr v).2 (hb ▸ (huv b).2)
      rw [e1, e2]
      exact ⟨rfl, rfl⟩
  refine ⟨l.1, l.2, ?_, h3, h4⟩
  unfold plot
  rw [checkCoords_of1, ok_bind, h1, ok_bind]
  dsimp only
  rw [show vertexSizes st n .none = .ok (.one st.vertexSize) from rfl, ok_bind, show edgeColors .matplotlib st G.nEdges .none = .ok (.one st.edgeColor) from rfl, ok_bind,
    show edgeWidths st G.nEdges .none = .ok (.one st.edgeWidth) from rfl, ok_bind, h2, ok_bind]
  unfold draw
  dsimp only
  rw [if_pos rfl, pyIndices_iff.2 hw, ok_bind]
  have e : ∀ v : Fin n, (Arr.of1 X).val [v.val] = X v := fun v => by simp [Arr.of1]
  show Except.ok (Picture.curve (fun v => (Arr.of1 X).val [v.val]) x l.1 l.2 (w.map fun v => (Arr.of1 X).val [v.val])) = _
  simp only [e]

/-- On a line, a graph of several vertices cannot be plotted without signal: ValueError. -/
theorem C98_line_without_signal_violated (G : Graph n ℝ) (hn : n ≠ 1) (X : Fin n → ℝ) (st : Style) (edges : Option Bool) (cb : Bool) (lim : Option (ℝ × ℝ)) :
    plot G (some (Arr.of1 X)) st .none .none [] edges .none .none cb lim .matplotlib = .error .valueError := by
  unfold plot
  rw [checkCoords_of1, ok_bind, show vertexColors .matplotlib st n 1 .none lim cb = .ok (some (.one st.vertexColor), some (0, 0), false) from rfl, ok_bind]
  dsimp only
  rw [show vertexSizes st n .none = .ok (.one st.vertexSize) from rfl, ok_bind, show edgeColors .matplotlib st G.nEdges .none = .ok (.one st.edgeColor) from rfl, ok_bind,
    show edgeWidths st G.nEdges .none = .ok (.one st.edgeWidth) from rfl, ok_bind, show plotLimits (some (.one st.vertexColor : Colors n)) (some (0, 0)) = .ok (0, 0) from rfl, ok_bind]
  unfold draw
  dsimp only
  rw [if_pos rfl, show pyIndices n [] = .ok [] from rfl, ok_bind]
  unfold plotCurve
  dsimp only
  rw [if_neg hn]

/-! ## Findings -/

/-- The default limits, which are said to be the least and the greatest values of the signal, are 1.05 times these; they contain the values of the signal exactly when it is
neither positive everywhere nor negative everywhere (the values out of the limits are drawn with the colors of the limits). -/
theorem C98_default_limits (G : Graph n ℝ) {d : ℕ} (hd : d = 2 ∨ d = 3) (X : Fin n → Fin d → ℝ) (st : Style) (x : Fin n → ℝ) (vs : SizeArg) (hl : List ℤ)
    (edges : Option Bool) (ec : ColorArg) (ew : SizeArg) (cb : Bool) (s : Scatter n G.nEdges) (hn : n ≠ 0) (hx : n = 3 ∨ n = 4 → ∃ v, x v < 0 ∨ 1 < x v)
    (h : plot G (coordsOf X) st (.array (Arr.of1 x)) vs hl edges ec ew cb none .matplotlib = .ok (.scatter s)) :
    (∀ v, s.vmin ≤ x v ∧ x v ≤ s.vmax) ↔ (∃ v, x v ≤ 0) ∧ ∃ v, 0 ≤ x v := by
  obtain ⟨-, h1⟩ := C98_signal G hd X st _ vs hl edges ec ew cb none s h
  obtain ⟨-, -, -, h1⟩ := h1 x rfl hn hx
  haveI : Nonempty (Fin n) := ⟨⟨0, Nat.pos_of_ne_zero hn⟩⟩
  obtain ⟨a, ha⟩ := Finite.exists_min x
  obtain ⟨b, hb⟩ := Finite.exists_max x
  obtain ⟨e1, e2⟩ := h1 rfl a b fun w => ⟨ha w, hb w⟩
  rw [e1, e2]
  constructor
  · intro q
    exact ⟨⟨a, by have := (q a).1; linarith⟩, ⟨b, by have := (q b).2; linarith⟩⟩
  · rintro ⟨⟨u, hu⟩, v, hv⟩ w
    have := ha u; have := hb v; have := ha w; have := hb w
    constructor <;> linarith

/-- A signal of three or four values between zero and one is taken for a color: the limits and the color bar of the user are ignored. -/
theorem C98_small_signal_violated (G : Graph n ℝ) {d : ℕ} (hd : d = 2 ∨ d = 3) (X : Fin n → Fin d → ℝ) (st : Style) (x : Fin n → ℝ) (vs : SizeArg) (hl : List ℤ)
    (edges : Option Bool) (ec : ColorArg) (ew : SizeArg) (cb : Bool) (lim : Option (ℝ × ℝ)) (s : Scatter n G.nEdges) (hn : n = 3 ∨ n = 4) (hx : ∀ v, 0 ≤ x v ∧ x v ≤ 1)
    (h : plot G (coordsOf X) st (.array (Arr.of1 x)) vs hl edges ec ew cb lim .matplotlib = .ok (.scatter s)) :
    s.colors = .asColors (Arr.of1 x) ∧ s.colorbar = false ∧ s.vmin = 0 ∧ s.vmax = 0 := by
  obtain ⟨c, lim', cb', w, l, h1, -, -, -, h5, -, -, h6, h7, -, -, -⟩ := plot_scatter hd h
  unfold vertexColors at h1
  dsimp only at h1
  rw [if_pos ((isColor_of1 x).2 (Or.inr ⟨hn, hx⟩))] at h1
  cases h1
  have h5 := Except.ok.inj h5
  exact ⟨h6, h7, (congrArg Prod.fst h5).symm, (congrArg Prod.snd h5).symm⟩

/-- One value for the only vertex of a graph, or for the only edge of a graph, is rejected with ValueError. -/
theorem C98_single_violated {d : ℕ} (hd : d = 2 ∨ d = 3) (st : Style) (hl : List ℤ) (edges : Option Bool) (cb : Bool) (lim : Option (ℝ × ℝ)) :
    (∀ (G : Graph 1 ℝ) (X : Fin 1 → Fin d → ℝ) (x : Fin 1 → ℝ),
      plot G (coordsOf X) st (.array (Arr.of1 x)) .none hl edges .none .none cb lim .matplotlib = .error .valueError ∧
      plot G (coordsOf X) st .none (.array (Arr.of1 x)) hl edges .none .none cb lim .matplotlib = .error .valueError) ∧
    ∀ (G : Graph n ℝ), G.nEdges = 1 → ∀ (X : Fin n → Fin d → ℝ) (y : Fin 1 → ℝ),
      plot G (coordsOf X) st .none .none hl edges (.array (Arr.of1 y)) .none cb lim .matplotlib = .error .valueError ∧
      plot G (coordsOf X) st .none .none hl edges .none (.array (Arr.of1 y)) cb lim .matplotlib = .error .valueError := by
  have nc : ∀ y : Fin 1 → ℝ, ¬ isColor .matplotlib (Arr.of1 y) := by
    intro y
    rw [isColor_of1]
    omega
  refine ⟨fun G X x => ⟨?_, ?_⟩, fun G hG X y => ⟨?_, ?_⟩⟩
  · unfold plot
    rw [checkCoords_of2 hd, ok_bind, vertexColors_array (by omega) (nc x), checkShape_of1_one]
    rfl
  · unfold plot
    rw [checkCoords_of2 hd, ok_bind, show vertexColors .matplotlib st 1 d .none lim cb = .ok (some (.one st.vertexColor), some (0, 0), false) from rfl, ok_bind]
    dsimp only
    unfold vertexSizes
    dsimp only
    rw [checkShape_of1_one]
    rfl
  · unfold plot
    rw [checkCoords_of2 hd, ok_bind, show vertexColors .matplotlib st n d .none lim cb = .ok (some (.one st.vertexColor), some (0, 0), false) from rfl, ok_bind]
    dsimp only
    rw [show vertexSizes st n .none = .ok (.one st.vertexSize) from rfl, ok_bind]
    unfold edgeColors
    dsimp only
    rw [if_neg (nc y)]
    have : checkShape (Arr.of1 y).squeeze G.nEdges = .error .valueError := by
      rw [hG]
      exact checkShape_of1_one y
    rw [this]
    rfl
  · unfold plot
    rw [checkCoords_of2 hd, ok_bind, show vertexColors .matplotlib st n d .none lim cb = .ok (some (.one st.vertexColor), some (0, 0), false) from rfl, ok_bind]
    dsimp only
    rw [show vertexSizes st n .none = .ok (.one st.vertexSize) from rfl, ok_bind, show edgeColors .matplotlib st G.nEdges .none = .ok (.one st.edgeColor) from rfl, ok_bind]
    unfold edgeWidths
    dsimp only
    have : checkShape (Arr.of1 y).squeeze G.nEdges = .error .valueError := by
      rw [hG]
      exact checkShape_of1_one y
    rw [this]
    rfl

/-- With `pyqtgraph`, the vertices are at their coordinates and the segments between the ends of the edges; the limits `(a, b)` are sent to the ends 1 and 64 of the color
map exactly when `a = 0`: with any other `a` the values of the signal do not have the colors they should have. -/
theorem C98_pyqtgraph_violated (G : Graph n ℝ) (hG : G.Built) {d : ℕ} (hd : d = 2 ∨ d = 3) (X : Fin n → Fin d → ℝ) (st : Style) (x : Fin n → ℝ) (hn : n ≠ 1) (hl : List ℤ)
    (cb : Bool) (a b : ℝ) (hb : b ≠ 0) :
    (∃ l y, G.getEdgeList = .ok l ∧
      plot G (coordsOf X) st (.array (Arr.of1 x)) .none hl (some true) .none .none cb (some (a, b)) .pyqtgraph =
        .ok (.qtg (fun v => List.ofFn (X v)) (some y) (l.map fun p => (List.ofFn (X p.1), List.ofFn (X p.2.1)))) ∧
      ∀ u v, x u = a → x v = b → ((y u = 1 ∧ y v = 64) ↔ a = 0)) := by
  obtain ⟨l, h1, -⟩ := C04_edge_list G hG
  refine ⟨l, fun v => qtgValue (a, b) (x v), h1, ?_, fun u v hu hv => ?_⟩
  · unfold plot
    have hc : vertexColors .pyqtgraph st n d (.array (Arr.of1 x)) (some (a, b)) cb = .ok (some (.values x), some (a, b), cb) := by
      unfold vertexColors
      dsimp only
      rw [if_neg (show ¬ isColor .pyqtgraph (Arr.of1 x) from id), if_neg (by omega), checkShape_of1 hn]
      rfl
    rw [checkCoords_of2 hd, ok_bind, hc, ok_bind]
    dsimp only
    rw [show vertexSizes st n .none = .ok (.one st.vertexSize) from rfl, ok_bind, show edgeColors .pyqtgraph st G.nEdges .none = .ok (.one st.edgeColor) from rfl, ok_bind,
      show edgeWidths st G.nEdges .none = .ok (.one st.edgeWidth) from rfl, ok_bind, show plotLimits (some (.values x)) (some (a, b)) = .ok (a, b) from rfl, ok_bind]
    unfold draw
    dsimp only
    rw [if_pos (show (some true).getD _ = true from rfl), h1, ok_bind]
    unfold plotQtg
    dsimp only
    rw [if_neg (by omega), if_neg hb]
    have e : ∀ v : Fin n, point ((coordsOf X).getD ⟨[], fun _ => 0⟩) d v = List.ofFn (X v) := fun v => point_of2 X v
    unfold segmentsOf
    simp only [e]
  · show (1 + 63 * (x u - a) / b - a = 1 ∧ 1 + 63 * (x v - a) / b - a = 64) ↔ a = 0
    rw [hu, hv]
    constructor
    · rintro ⟨h2, -⟩
      have : 63 * (a - a) / b = 0 := by simp
      linarith
    · rintro rfl
      constructor
      · simp
      · field_simp
        ring

/-- A graph of two vertices, with one edge in each direction, drawn with a signal, sizes and widths of the edges. -/
example : ∃ (G : Graph 2 ℝ) (_ : G.Built) (s : Scatter 2 G.nEdges), G.nEdges = 2 ∧
    plot G (coordsOf fun v : Fin 2 => ![(v.val : ℝ), 1]) .default (.array (Arr.of1 ![(-1 : ℝ), 1])) (.array (Arr.of1 ![(1 : ℝ), 5])) [-1] none .none
      (.array (Arr.of1 fun k : Fin G.nEdges => (k.val : ℝ))) true none .matplotlib = .ok (.scatter s) := by
  obtain ⟨G, hG, hW, -⟩ := Graph.exists_built (K := ℝ) !![0, 1; 2, 0]
  have hdir : ¬ Undirected G.W.dense := by
    rw [hW]
    intro h
    have := h 0 1
    simp at this
  have h2 : G.nEdges = 2 := by
    rw [C02_n_edges_directed G hG hdir, hW]
    have : arcs !![(0 : ℝ), 1; 2, 0] = {(0, 1), (1, 0)} := by
      ext ⟨i, j⟩
      fin_cases i <;> fin_cases j <;> simp [arcs]
    rw [this]
    rfl
  obtain ⟨s, hs⟩ := C98_returns G hG (Or.inl rfl) (fun v : Fin 2 => ![(v.val : ℝ), 1]) .default (.array (Arr.of1 ![(-1 : ℝ), 1])) (.array (Arr.of1 ![(1 : ℝ), 5])) [-1] none .none
    (.array (Arr.of1 fun k : Fin G.nEdges => (k.val : ℝ))) true none
    (.inr (.inr ⟨le_refl _, _, rfl⟩)) (.inr (.inr ⟨le_refl _, _, rfl⟩)) (.inl rfl) (.inr (.inr ⟨h2.ge, _, rfl⟩)) (by intro i hi; simp at hi; subst hi; norm_num)
  exact ⟨G, hG, s, h2, hs⟩

end PyGSP.Plot
