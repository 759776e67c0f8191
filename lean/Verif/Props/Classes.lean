import Verif.Model.Classes
import Verif.Props.Repr
import Verif.Props.Generators
import Verif.Props.Comet
import Verif.Props.Grid

/-!
# C129: what can be read in the printed form of a graph
-/

namespace PyGSP

open Repr Spec Gen

/-- two sequences without a comma, followed by something that is empty or begins with a comma -/
theorem comma_split : ∀ {a b r r' : Txt}, ',' ∉ a → ',' ∉ b → (r = [] ∨ r.head? = some ',') → (r' = [] ∨ r'.head? = some ',') → a ++ r = b ++ r' → a = b ∧ r = r'
  | [], [], r, r', _, _, _, _, h => ⟨rfl, h⟩
  | [], b :: bs, r, r', _, hb, hr, _, h => by
    have h1 : r = b :: (bs ++ r') := by simpa using h
    rcases hr with hr | hr
    · rw [hr] at h1; simp at h1
    · rw [h1] at hr
      simp only [List.head?_cons, Option.some.injEq] at hr
      exact absurd (by rw [hr]; exact List.mem_cons_self) hb
  | a :: as, [], r, r', ha, _, _, hr', h => by
    have h1 : r' = a :: (as ++ r) := by simpa using h.symm
    rcases hr' with hr | hr
    · rw [hr] at h1; simp at h1
    · rw [h1] at hr
      simp only [List.head?_cons, Option.some.injEq] at hr
      exact absurd (by rw [hr]; exact List.mem_cons_self) ha
  | a :: as, b :: bs, r, r', ha, hb, hr, hr', h => by
    simp only [List.cons_append, List.cons.injEq] at h
    obtain ⟨h1, h2⟩ := comma_split (fun hc => ha (List.mem_cons_of_mem _ hc)) (fun hc => hb (List.mem_cons_of_mem _ hc)) hr hr' h.2
    exact ⟨by rw [h.1, h1], h2⟩

theorem commaJoin_cons (t : Txt) (ts : List Txt) : commaJoin (t :: ts) = t ++ (if ts = [] then [] else [',', ' '] ++ commaJoin ts) := by
  cases ts with
  | nil => simp [commaJoin]
  | cons t' ts => simp [commaJoin]

theorem commaJoin_inj : ∀ {ts ts' : List Txt}, ts ≠ [] → ts' ≠ [] → (∀ t ∈ ts, ',' ∉ t) → (∀ t ∈ ts', ',' ∉ t) → commaJoin ts = commaJoin ts' → ts = ts'
  | [], _, h, _, _, _, _ => absurd rfl h
  | _ :: _, [], _, h, _, _, _ => absurd rfl h
  | t :: ts, t' :: ts', _, _, h1, h2, h => by
    rw [commaJoin_cons, commaJoin_cons] at h
    have hd : ∀ l : List Txt, (if l = [] then ([] : Txt) else [',', ' '] ++ commaJoin l) = [] ∨ (if l = [] then ([] : Txt) else [',', ' '] ++ commaJoin l).head? = some ',' := by
      intro l
      split_ifs
      · exact .inl rfl
      · exact .inr rfl
    obtain ⟨e1, e2⟩ := comma_split (h1 t List.mem_cons_self) (h2 t' List.mem_cons_self) (hd ts) (hd ts') h
    rw [e1]
    by_cases ha : ts = [] <;> by_cases hb : ts' = []
    · rw [ha, hb]
    · rw [if_pos ha, if_neg hb] at e2; simp at e2
    · rw [if_neg ha, if_pos hb] at e2; simp at e2
    · rw [if_neg ha, if_neg hb] at e2
      rw [commaJoin_inj ha hb (fun t ht => h1 t (List.mem_cons_of_mem _ ht)) (fun t ht => h2 t (List.mem_cons_of_mem _ ht)) (List.append_cancel_left e2)]

theorem eq_split : ∀ {a b v w : Txt}, '=' ∉ a → '=' ∉ b → a ++ '=' :: v = b ++ '=' :: w → a = b ∧ v = w
  | [], [], v, w, _, _, h => by simpa using h
  | [], b :: bs, v, w, _, hb, h => by
    simp only [List.nil_append, List.cons_append, List.cons.injEq] at h
    exact absurd (by rw [← h.1]; exact List.mem_cons_self) hb
  | a :: as, [], v, w, ha, _, h => by
    simp only [List.nil_append, List.cons_append, List.cons.injEq] at h
    exact absurd (by rw [h.1]; exact List.mem_cons_self) ha
  | a :: as, b :: bs, v, w, ha, hb, h => by
    simp only [List.cons_append, List.cons.injEq] at h
    obtain ⟨h1, h2⟩ := eq_split (fun hc => ha (List.mem_cons_of_mem _ hc)) (fun hc => hb (List.mem_cons_of_mem _ hc)) h.2
    exact ⟨by rw [h.1, h1], h2⟩

theorem assign_map_inj : ∀ {l l' : List (Txt × Txt)}, (∀ p ∈ l, '=' ∉ p.1) → (∀ p ∈ l', '=' ∉ p.1) → l.map assign = l'.map assign → l = l'
  | [], [], _, _, _ => rfl
  | [], _ :: _, _, _, h => by simp at h
  | _ :: _, [], _, _, h => by simp at h
  | p :: l, p' :: l', h1, h2, h => by
    simp only [List.map_cons, List.cons.injEq] at h
    obtain ⟨e1, e2⟩ := eq_split (h1 p List.mem_cons_self) (h2 p' List.mem_cons_self) h.1
    rw [assign_map_inj (fun q hq => h1 q (List.mem_cons_of_mem _ hq)) (fun q hq => h2 q (List.mem_cons_of_mem _ hq)) h.2, Prod.ext e1 e2]

/-- What can be printed without ambiguity: no comma, and no equals sign in the name. -/
def Spec.Plain (p : Txt × Txt) : Prop := ',' ∉ p.1 ∧ ',' ∉ p.2 ∧ '=' ∉ p.1

theorem decimal_comma (k : ℕ) : ',' ∉ decimal k := fun h => by have := decimal_digit h; simp at this

theorem Spec.Plain.assign {p : Txt × Txt} (h : Plain p) : ',' ∉ assign p := by
  unfold Spec.assign
  simp only [List.mem_append, List.mem_cons, not_or]
  exact ⟨h.1, by decide, h.2.1⟩

/-- **C129** The printed form can be read back: two graphs of one class whose attributes contain no comma and which print the same have as many vertices, as many edges, and the same attributes with the same values. -/
theorem C129_read_back {n m : ℕ} {K K' : Type} (cls : Txt) {extra extra' : List (Txt × Txt)} (g : Graph n K) (g' : Graph m K') (h1 : ∀ p ∈ extra, Plain p) (h2 : ∀ p ∈ extra', Plain p)
    (h : graphRepr cls extra none g = graphRepr cls extra' none g') : n = m ∧ g.nEdges = g'.nEdges ∧ extra = extra' := by
  obtain ⟨e1, e2⟩ := C117_counts cls extra extra' none none g g' h
  refine ⟨e1, e2, ?_⟩
  rw [C117_full, C117_full, List.append_assoc, List.append_assoc] at h
  have h := List.append_cancel_left h
  simp only [List.cons_append, List.cons.injEq, true_and] at h
  have h := List.append_cancel_right h
  have plain : ∀ {q : ℕ} (k : Txt), ',' ∉ k → ',' ∉ assign (k, decimal q) := fun {q} k hk => by
    unfold Spec.assign
    simp only [List.mem_append, List.mem_cons, not_or]
    exact ⟨hk, by decide, decimal_comma q⟩
  have h := commaJoin_inj (by simp) (by simp) ?_ ?_ h
  · simp only [List.cons.injEq] at h
    exact assign_map_inj (fun p hp => (h1 p hp).2.2) (fun p hp => (h2 p hp).2.2) h.2.2
  · intro t ht
    simp only [List.mem_cons, List.mem_map] at ht
    rcases ht with rfl | rfl | ⟨p, hp, rfl⟩
    · exact plain _ (by decide)
    · exact plain _ (by decide)
    · exact (h1 p hp).assign
  · intro t ht
    simp only [List.mem_cons, List.mem_map] at ht
    rcases ht with rfl | rfl | ⟨p, hp, rfl⟩
    · exact plain _ (by decide)
    · exact plain _ (by decide)
    · exact (h2 p hp).assign

/-- Same number of vertices, same weights. -/
def Spec.SameWeights {n m : ℕ} (g : Graph n ℝ) (g' : Graph m ℝ) : Prop := ∃ e : n = m, ∀ i j, g.W.dense i j = g'.W.dense (Fin.cast e i) (Fin.cast e j)

theorem ofCsr_W {n : ℕ} {A : Sp n n ℝ} {lt lt' : LapType} {g g' : Graph n ℝ} (h : Graph.ofCsr A lt = .ok g) (h' : Graph.ofCsr A lt' = .ok g') : g.W = g'.W := by
  unfold Graph.ofCsr at h h'
  cases lt <;> cases lt' <;> simp at h h' <;> rw [← h, ← h']

theorem ofEdges_W {n : ℕ} {l : List (ℕ × ℕ × ℝ)} {lt lt' : LapType} {g g' : Graph n ℝ} (h : ofEdges n l lt = .ok g) (h' : ofEdges n l lt' = .ok g') : g.W = g'.W := by
  unfold ofEdges at h h'
  cases hc : coo n l with
  | error e => rw [hc] at h; simp at h
  | ok W => rw [hc] at h h'; exact ofCsr_W h h'

theorem SameWeights.of_eq {n : ℕ} {g g' : Graph n ℝ} (h : g.W = g'.W) : SameWeights g g' := ⟨rfl, fun i j => by rw [h]; rfl⟩

theorem plain_num {k : Txt} (h1 : ',' ∉ k) (h2 : '=' ∉ k) (q : ℕ) : Plain (k, decimal q) := ⟨h1, decimal_comma q, h2⟩

theorem boolText_inj {a b : Bool} (h : boolText a = boolText b) : a = b := by
  cases a <;> cases b <;> simp [boolText] at h ⊢

/-- Two graphs of the class Path that print the same have the same parameters, and the same weights (whatever the types of their Laplacians). -/
theorem C129_path {N N' : ℕ} {d d' : Bool} {lt lt' : LapType} {g : Graph N ℝ} {g' : Graph N' ℝ} (hg : path N d lt = .ok g) (hg' : path N' d' lt' = .ok g') (cls : Txt)
    (h : graphRepr cls (pathExtra d) none g = graphRepr cls (pathExtra d') none g') : N = N' ∧ d = d' ∧ SameWeights g g' := by
  have hp : ∀ b, ∀ p ∈ pathExtra b, Plain p := by
    intro b p hp
    simp only [pathExtra, List.mem_singleton] at hp
    subst hp
    exact ⟨by simp, by cases b <;> decide, by simp⟩
  obtain ⟨e1, -, e2⟩ := C129_read_back cls g g' (hp d) (hp d') h
  simp only [pathExtra, List.cons.injEq, Prod.mk.injEq, true_and, and_true] at e2
  have e2 := boolText_inj e2
  subst e1 e2
  refine ⟨rfl, rfl, SameWeights.of_eq ?_⟩
  unfold path at hg hg'
  by_cases h0 : N = 0
  · rw [if_pos h0] at hg; simp at hg
  · rw [if_neg h0] at hg hg'
    cases d
    · exact ofEdges_W hg hg'
    · exact ofEdges_W hg hg'

/-- The flags are printed as Python prints them: a Path says `directed=True` exactly when it is directed, and `directed=False` otherwise. -/
theorem C129_path_text {N : ℕ} {K : Type} (cls : Txt) (d : Bool) (g : Graph N K) :
    graphRepr cls (pathExtra d) none g =
      cls ++ "(n_vertices=".toList ++ decimal N ++ ", n_edges=".toList ++ decimal g.nEdges ++ (bif d then ", directed=True)" else ", directed=False)").toList := by
  rw [C117_full]
  cases d <;> simp [commaJoin, assign, pathExtra, boolText]

/-- The same for the class Ring. -/
theorem C129_ring {N N' k k' : ℕ} {lt lt' : LapType} {g : Graph N ℝ} {g' : Graph N' ℝ} (hg : ring N k lt = .ok g) (hg' : ring N' k' lt' = .ok g') (cls : Txt)
    (h : graphRepr cls (ringExtra k) none g = graphRepr cls (ringExtra k') none g') : N = N' ∧ k = k' ∧ SameWeights g g' := by
  have hp : ∀ b, ∀ p ∈ ringExtra b, Plain p := by
    intro b p hp
    simp only [ringExtra, List.mem_singleton] at hp
    subst hp
    exact plain_num (by decide) (by decide) b
  obtain ⟨e1, -, e2⟩ := C129_read_back cls g g' (hp k) (hp k') h
  simp only [ringExtra, List.cons.injEq, Prod.mk.injEq, true_and, and_true] at e2
  have e2 := decimal_inj e2
  subst e1 e2
  refine ⟨rfl, rfl, SameWeights.of_eq ?_⟩
  unfold ring at hg hg'
  by_cases h1 : N < 3
  · rw [if_pos h1] at hg; simp at hg
  by_cases h2 : N < 2 * k
  · rw [if_neg h1, if_pos h2] at hg; simp at hg
  rw [if_neg h1, if_neg h2] at hg hg'
  exact ofEdges_W hg hg'

/-- The same for the class Comet. -/
theorem C129_comet {N N' k k' : ℕ} {lt lt' : LapType} {g : Graph N ℝ} {g' : Graph N' ℝ} (hg : comet N k lt = .ok g) (hg' : comet N' k' lt' = .ok g') (cls : Txt)
    (h : graphRepr cls (cometExtra k) none g = graphRepr cls (cometExtra k') none g') : N = N' ∧ k = k' ∧ SameWeights g g' := by
  have hp : ∀ b, ∀ p ∈ cometExtra b, Plain p := by
    intro b p hp
    simp only [cometExtra, List.mem_singleton] at hp
    subst hp
    exact plain_num (by decide) (by decide) b
  obtain ⟨e1, -, e2⟩ := C129_read_back cls g g' (hp k) (hp k') h
  simp only [cometExtra, List.cons.injEq, Prod.mk.injEq, true_and, and_true] at e2
  have e2 := decimal_inj e2
  subst e1 e2
  refine ⟨rfl, rfl, SameWeights.of_eq ?_⟩
  unfold comet at hg hg'
  split_ifs at hg hg'
  exact ofEdges_W hg hg'

/-- The same for the class Torus. -/
theorem C129_torus {Nv Mv Nv' Mv' : ℕ} {lt lt' : LapType} {g : Graph (Mv * Nv) ℝ} {g' : Graph (Mv' * Nv') ℝ} (hg : torus Nv Mv lt = .ok g) (hg' : torus Nv' Mv' lt' = .ok g')
    (cls : Txt) (h : graphRepr cls (torusExtra Nv Mv) none g = graphRepr cls (torusExtra Nv' Mv') none g') : Nv = Nv' ∧ Mv = Mv' ∧ SameWeights g g' := by
  have hp : ∀ a b, ∀ p ∈ torusExtra a b, Plain p := by
    intro a b p hp
    simp only [torusExtra, List.mem_cons, List.not_mem_nil, or_false] at hp
    rcases hp with rfl | rfl
    · exact plain_num (by decide) (by decide) a
    · exact plain_num (by decide) (by decide) b
  obtain ⟨-, -, e2⟩ := C129_read_back cls g g' (hp Nv Mv) (hp Nv' Mv') h
  simp only [torusExtra, List.cons.injEq, Prod.mk.injEq, true_and, and_true] at e2
  have e3 := decimal_inj e2.1
  have e4 := decimal_inj e2.2
  subst e3 e4
  exact ⟨rfl, rfl, SameWeights.of_eq (ofEdges_W hg hg')⟩

/-- The same for the classes Star and FullConnected, which print no parameter. -/
theorem C129_no_parameter {N N' : ℕ} {lt lt' : LapType} {g : Graph N ℝ} {g' : Graph N' ℝ} (cls : Txt)
    (hg : Gen.star N lt = .ok g ∧ Gen.star N' lt' = .ok g' ∨ fullConnected N lt = .ok g ∧ fullConnected N' lt' = .ok g')
    (h : graphRepr cls noExtra none g = graphRepr cls noExtra none g') : SameWeights g g' := by
  obtain ⟨e1, -⟩ := C117_counts cls noExtra noExtra none none g g' h
  subst e1
  refine SameWeights.of_eq ?_
  rcases hg with ⟨hg, hg'⟩ | ⟨hg, hg'⟩
  · unfold Gen.star comet at hg hg'
    split_ifs at hg hg'
    exact ofEdges_W hg hg'
  · exact ofCsr_W hg hg'

theorem grid_ok {N1 N2 : ℕ} {c : ℝ} {lt : LapType} {g : Graph (N1 * N2) ℝ} (hg : grid2d N1 N2 c lt = .ok g) :
    0 < N1 ∧ 2 ≤ N2 ∧ (lt = .combinatorial ∨ lt = .normalized) := by
  by_contra hc
  have : grid2d N1 N2 c lt = .error .valueError := by
    rw [C70_errors]
    cases lt with
    | combinatorial => simp at hc; omega
    | normalized => simp at hc; omega
    | other name => exact .inr (.inr ⟨name, rfl⟩)
  rw [this] at hg
  simp at hg

/-- The class Grid2d: the sizes can be read, and whether there are diagonal edges (when there is room for them); the weights are the same if the positive diagonal weights are equal. -/
theorem C129_grid2d {N1 N2 N1' N2' : ℕ} {c c' : ℝ} {lt lt' : LapType} {g : Graph (N1 * N2) ℝ} {g' : Graph (N1' * N2') ℝ} (hg : grid2d N1 N2 c lt = .ok g)
    (hg' : grid2d N1' N2' c' lt' = .ok g') (cls : Txt) (h : graphRepr cls (grid2dExtra N1 N2) none g = graphRepr cls (grid2dExtra N1' N2') none g') :
    N1 = N1' ∧ N2 = N2' ∧ (2 ≤ N1 → (0 < c ↔ 0 < c')) ∧ (c = c' ∨ N1 = 1 ∨ ¬ 0 < c ∧ ¬ 0 < c' → SameWeights g g') := by
  have hp : ∀ a b, ∀ p ∈ grid2dExtra a b, Plain p := by
    intro a b p hp
    simp only [grid2dExtra, List.mem_cons, List.not_mem_nil, or_false] at hp
    rcases hp with rfl | rfl
    · exact plain_num (by decide) (by decide) a
    · exact plain_num (by decide) (by decide) b
  obtain ⟨-, e1, e2⟩ := C129_read_back cls g g' (hp N1 N2) (hp N1' N2') h
  simp only [grid2dExtra, List.cons.injEq, Prod.mk.injEq, true_and, and_true] at e2
  have e3 := decimal_inj e2.1
  have e4 := decimal_inj e2.2
  subst e3 e4
  obtain ⟨h1, h2, hlt⟩ := grid_ok hg
  obtain ⟨-, -, hlt'⟩ := grid_ok hg'
  have n1 := (C70_structure h1 h2 hlt hg).2.2.2
  have n2 := (C70_structure h1 h2 hlt' hg').2.2.2
  obtain ⟨k, k1, -, -, k2⟩ := C70_weights h1 h2 c hlt
  obtain ⟨k', k1', -, -, k2'⟩ := C70_weights h1 h2 c' hlt'
  rw [hg] at k1
  rw [hg'] at k1'
  obtain rfl := Except.ok.inj k1
  obtain rfl := Except.ok.inj k1'
  refine ⟨rfl, rfl, fun hN => ?_, fun hc => ⟨rfl, fun i j => ?_⟩⟩
  · rw [n1, n2] at e1
    have hpos : 0 < (N1 - 1) * (N2 - 1) := Nat.mul_pos (by omega) (by omega)
    generalize (N1 - 1) * (N2 - 1) = r at e1 hpos
    split_ifs at e1 with a b b
    · exact ⟨fun _ => b, fun _ => a⟩
    · omega
    · omega
    · exact ⟨fun x => absurd x a, fun x => absurd x b⟩
  · show g.W.dense i j = g'.W.dense i j
    rw [k2, k2']
    rcases hc with rfl | hc | ⟨hc1, hc2⟩
    · rfl
    · refine if_congr Iff.rfl rfl ?_
      have hi : i.1 / N2 = 0 := by
        have h3 : i.1 < N1 * N2 := i.2
        generalize i.1 = r at h3
        rw [hc, one_mul] at h3
        exact Nat.div_eq_of_lt h3
      have hj : j.1 / N2 = 0 := by
        have h3 : j.1 < N1 * N2 := j.2
        generalize j.1 = r at h3
        rw [hc, one_mul] at h3
        exact Nat.div_eq_of_lt h3
      rw [hi, hj, if_neg (by simp [ndist]), if_neg (by simp [ndist])]
    · rw [max_eq_right (not_lt.1 hc1), max_eq_right (not_lt.1 hc2)]

/-- The value of the diagonal weight is not printed: two grids with different positive diagonal weights print the same, and do not have the same weights. -/
theorem C129_grid2d_violated {N1 N2 : ℕ} (h1 : 2 ≤ N1) (h2 : 2 ≤ N2) {c c' : ℝ} (hc : 0 < c) (hc' : 0 < c') (hne : c ≠ c') {lt : LapType}
    (hlt : lt = .combinatorial ∨ lt = .normalized) (cls : Txt) :
    ∃ g g', grid2d N1 N2 c lt = .ok g ∧ grid2d N1 N2 c' lt = .ok g' ∧ graphRepr cls (grid2dExtra N1 N2) none g = graphRepr cls (grid2dExtra N1 N2) none g' ∧ ¬ SameWeights g g' := by
  obtain ⟨k, k1, -, -, k2⟩ := C70_weights (N1 := N1) (by omega) h2 c hlt
  obtain ⟨k', k1', -, -, k2'⟩ := C70_weights (N1 := N1) (by omega) h2 c' hlt
  have n1 := (C70_structure (by omega) h2 hlt k1).2.2.2
  have n2 := (C70_structure (by omega) h2 hlt k1').2.2.2
  rw [if_pos hc] at n1
  rw [if_pos hc'] at n2
  refine ⟨k, k', k1, k1', ?_, ?_⟩
  · rw [C117_full, C117_full, n1, n2]
  · rintro ⟨_, hW⟩
    have hN : N2 + 1 < N1 * N2 := by nlinarith
    have := hW ⟨0, by omega⟩ ⟨N2 + 1, hN⟩
    have hdiv : (N2 + 1) / N2 = 1 := by
      rw [Nat.add_div_left _ (by omega), Nat.div_eq_of_lt (by omega)]
    have hmod : (N2 + 1) % N2 = 1 := by
      rw [Nat.add_mod_left, Nat.mod_eq_of_lt (by omega)]
    rw [k2, k2'] at this
    simp only [Fin.cast_mk, hdiv, hmod, Nat.zero_div, Nat.zero_mod] at this
    simp only [ndist] at this
    norm_num at this
    rw [max_eq_left hc.le, max_eq_left hc'.le] at this
    exact hne this

/-- `repr` (and so the default title of a plot) of a `StochasticBlockModel` raises AttributeError exactly when it was made from a matrix of probabilities. -/
theorem C129_block_model_violated {n : ℕ} {K : Type} (cls : Txt) (a : BlockAttrs) (limit : Option ℤ) (g : Graph n K) :
    blockRepr cls a limit g = .error .attributeError ↔ a.pq = none := by
  unfold blockRepr blockExtra
  cases ha : a.pq with
  | none => simp [bind, Except.bind]
  | some t => simp [bind, Except.bind]

/-- What a stochastic block model made from `p` and `q` prints: the number of blocks, the probabilities that are numbers, the flags as Python prints them, and the seed. -/
theorem C129_block_text {n : ℕ} {K : Type} (cls : Txt) (a : BlockAttrs) (g : Graph n K) {p q : Txt} (h : a.pq = some (some p, some q)) :
    blockRepr cls a none g = .ok (cls ++ "(n_vertices=".toList ++ decimal n ++ ", n_edges=".toList ++ decimal g.nEdges ++ ", k=".toList ++ decimal a.k ++ ", p=".toList ++ p ++ ", q=".toList ++ q ++
      (bif a.directed then ", directed=True" else ", directed=False").toList ++ (bif a.selfLoops then ", self_loops=True" else ", self_loops=False").toList ++
      (bif a.connected then ", connected=True" else ", connected=False").toList ++ ", seed=".toList ++ a.seed ++ ")".toList) := by
  unfold blockRepr blockExtra
  rw [h]
  simp only [bind, Except.bind, C117_full]
  cases a.directed <;> cases a.selfLoops <;> cases a.connected <;> simp [commaJoin, assign, boolText]

theorem blockExtra_plain {a : BlockAttrs} {l : List (Txt × Txt)} (h : blockExtra a = .ok l) (hs : ',' ∉ a.seed)
    (hp : ∀ t p q, a.pq = some (p, q) → (p = some t ∨ q = some t) → ',' ∉ t) : ∀ p ∈ l, Plain p := by
  unfold blockExtra at h
  cases ha : a.pq with
  | none => rw [ha] at h; simp at h
  | some t =>
    obtain ⟨p, q⟩ := t
    rw [ha] at h
    simp only [Except.ok.injEq] at h
    subst h
    have hb : ∀ (k : Txt) b, ',' ∉ k → '=' ∉ k → Plain (k, boolText b) := fun k b h1 h2 => ⟨h1, by cases b <;> simp [boolText], h2⟩
    intro r hr
    simp only [List.mem_append, List.mem_singleton, List.mem_cons, List.not_mem_nil, or_false, Option.mem_toList, Option.map_eq_some_iff, Option.mem_def] at hr
    rcases hr with ((rfl | ⟨t, ht, rfl⟩) | ⟨t, ht, rfl⟩) | rfl | rfl | rfl | rfl
    · exact plain_num (by decide) (by decide) _
    · exact ⟨by simp, hp t p q ha (.inl ht), by simp⟩
    · exact ⟨by simp, hp t p q ha (.inr ht), by simp⟩
    · exact hb _ _ (by decide) (by decide)
    · exact hb _ _ (by decide) (by decide)
    · exact hb _ _ (by decide) (by decide)
    · exact ⟨by simp, hs, by simp⟩

/-- Two stochastic block models that print the same were printed with the same attributes (the texts of `p`, `q` and of the seed contain no comma). -/
theorem C129_block_model {n m : ℕ} {K K' : Type} (cls : Txt) {a a' : BlockAttrs} (g : Graph n K) (g' : Graph m K') {s : Txt} (hs : ',' ∉ a.seed) (hs' : ',' ∉ a'.seed)
    (hp : ∀ t p q, a.pq = some (p, q) → (p = some t ∨ q = some t) → ',' ∉ t) (hp' : ∀ t p q, a'.pq = some (p, q) → (p = some t ∨ q = some t) → ',' ∉ t)
    (h : blockRepr cls a none g = .ok s) (h' : blockRepr cls a' none g' = .ok s) : n = m ∧ g.nEdges = g'.nEdges ∧ a = a' := by
  unfold blockRepr at h h'
  cases hl : blockExtra a with
  | error e => rw [hl] at h; simp [bind, Except.bind] at h
  | ok l =>
    cases hl' : blockExtra a' with
    | error e => rw [hl'] at h'; simp [bind, Except.bind] at h'
    | ok l' =>
      rw [hl] at h
      rw [hl'] at h'
      simp only [bind, Except.bind, Except.ok.injEq] at h h'
      obtain ⟨e1, e2, e3⟩ := C129_read_back cls g g' (blockExtra_plain hl hs hp) (blockExtra_plain hl' hs' hp') (h.trans h'.symm)
      refine ⟨e1, e2, ?_⟩
      subst e3
      obtain ⟨k, pq, d, sl, c, sd⟩ := a
      obtain ⟨k', pq', d', sl', c', sd'⟩ := a'
      unfold blockExtra at hl hl'
      rcases pq with _ | ⟨p, q⟩
      · simp at hl
      rcases pq' with _ | ⟨p', q'⟩
      · simp at hl'
      simp only [Except.ok.injEq] at hl hl'
      rw [← hl'] at hl
      have hd : ∀ {x y : ℕ}, decimal x = decimal y ↔ x = y := ⟨decimal_inj, fun e => by rw [e]⟩
      have hb : ∀ {x y : Bool}, boolText x = boolText y ↔ x = y := ⟨boolText_inj, fun e => by rw [e]⟩
      rcases p with _ | p <;> rcases q with _ | q <;> rcases p' with _ | p' <;> rcases q' with _ | q' <;>
        simp [hd, hb] at hl ⊢ <;> tauto

/-- The hypotheses are met: two paths that do not print the same, and a block model that prints. -/
example : ∃ g g' : Graph 3 ℝ, path 3 false .combinatorial = .ok g ∧ path 3 true .normalized = .ok g' ∧
    graphRepr "Path".toList (pathExtra false) none g ≠ graphRepr "Path".toList (pathExtra true) none g' := by
  obtain ⟨g, h, -⟩ := C67_weights (N := 3) (by norm_num) false (.inl rfl)
  obtain ⟨g', h', -⟩ := C67_weights (N := 3) (by norm_num) true (.inr rfl)
  exact ⟨g, g', h, h', fun e => by simpa using (C129_path h h' _ e).2.1⟩

end PyGSP
