import Verif.Model.Repr
import Mathlib.Data.List.Infix
import Mathlib.Data.List.Basic
import Mathlib.Tactic

/-!
# C117: what the printed form of a graph or of a filter shows
-/

namespace PyGSP

open Repr

/-- The texts one after the other, separated by a comma and a space. -/
def Spec.commaJoin : List Txt → Txt
  | [] => []
  | [t] => t
  | t :: t' :: ts => t ++ [',', ' '] ++ Spec.commaJoin (t' :: ts)

/-- `key=value`. -/
def Spec.assign (p : Txt × Txt) : Txt := p.1 ++ '=' :: p.2

/-- The extra attributes a reader expects with a limit on the number of attributes, the numbers of vertices and edges included: all of them when they fit, otherwise
those that fit and an ellipsis. -/
def Spec.shown (limit : ℕ) (extra : List (Txt × Txt)) : List Txt :=
  if extra.length + 2 ≤ limit then extra.map Spec.assign else (extra.take (limit - 2)).map Spec.assign ++ [['.', '.', '.']]

open Spec

/-- every text followed by a comma and a space -/
def terminated (ts : List Txt) : Txt := ts.flatMap (· ++ [',', ' '])

theorem terminated_eq : ∀ {ts : List Txt}, ts ≠ [] → terminated ts = commaJoin ts ++ [',', ' ']
  | [], h => absurd rfl h
  | [t], _ => by simp [terminated, commaJoin]
  | t :: t' :: ts, _ => by
    have := terminated_eq (ts := t' :: ts) (by simp)
    unfold terminated at this ⊢
    rw [List.flatMap_cons, this]
    simp [commaJoin]

theorem dropTwo_append (s : Txt) (a b : Char) : dropTwo (s ++ [a, b]) = s := by
  unfold dropTwo
  simp

theorem dropTwo_terminated {ts : List Txt} (h : ts ≠ []) : dropTwo (terminated ts) = commaJoin ts := by
  rw [terminated_eq h, dropTwo_append]

theorem item_eq (k v : Txt) : item k v = assign (k, v) ++ [',', ' '] := rfl

theorem extraLoop_none (limit : Option ℤ) : ∀ (i : ℕ) (extra : List (Txt × Txt)), (∀ j : ℕ, i ≤ j → j < i + extra.length → limit.map (· - 2) ≠ some (j : ℤ)) →
    extraLoop limit i extra = terminated (extra.map assign)
  | _, [], _ => rfl
  | i, (k, v) :: rest, h => by
    unfold extraLoop
    rw [if_neg (h i le_rfl (by simp)), extraLoop_none limit (i + 1) rest fun j h1 h2 => h j (by omega) (by simp only [List.length_cons]; omega)]
    rfl

theorem extraLoop_cut : ∀ (i d : ℕ) (extra : List (Txt × Txt)), d < extra.length →
    extraLoop (some ((i + d : ℕ) + 2 : ℤ)) i extra = terminated ((extra.take d).map assign ++ [['.', '.', '.']])
  | _, _, [], h => by simp at h
  | i, 0, (k, v) :: rest, _ => by
    unfold extraLoop
    rw [if_pos (by simp)]
    rfl
  | i, d + 1, (k, v) :: rest, h => by
    unfold extraLoop
    rw [if_neg (by simp; omega)]
    have := extraLoop_cut (i + 1) d rest (by simpa using h)
    rw [show ((i + (d + 1) : ℕ) : ℤ) + 2 = ((i + 1 + d : ℕ) : ℤ) + 2 by push_cast; ring, this]
    rfl

theorem extraLoop_shown (limit : ℕ) (hl : 2 ≤ limit) (extra : List (Txt × Txt)) : extraLoop (some (limit : ℤ)) 0 extra = terminated (shown limit extra) := by
  unfold shown
  by_cases h : extra.length + 2 ≤ limit
  · rw [if_pos h]
    refine extraLoop_none _ _ _ fun j h1 h2 => ?_
    simp only [Option.map_some, ne_eq, Option.some.injEq]
    omega
  · rw [if_neg h]
    have := extraLoop_cut 0 (limit - 2) extra (by omega)
    rw [← this]
    congr 2
    omega

theorem terminated_append (a b : List Txt) : terminated (a ++ b) = terminated a ++ terminated b := by simp [terminated]

variable {n : ℕ} {K : Type}

theorem graphRepr_eq (cls : Txt) (extra : List (Txt × Txt)) (limit : Option ℤ) (g : Graph n K) {ts : List Txt} (h : extraLoop limit 0 extra = terminated ts) :
    graphRepr cls extra limit g = cls ++ '(' :: commaJoin (assign ("n_vertices".toList, decimal n) :: assign ("n_edges".toList, decimal g.nEdges) :: ts) ++ [')'] := by
  unfold graphRepr
  dsimp only
  rw [h, item_eq, item_eq]
  rw [show assign ("n_vertices".toList, decimal n) ++ [',', ' '] ++ (assign ("n_edges".toList, decimal g.nEdges) ++ [',', ' ']) ++ terminated ts =
    terminated (assign ("n_vertices".toList, decimal n) :: assign ("n_edges".toList, decimal g.nEdges) :: ts) by simp [terminated]]
  rw [dropTwo_terminated (by simp)]

/-- **C117** `repr(G)` is the class, then between parentheses, separated by commas, the number of vertices, the number of edges and all the extra attributes in order. -/
theorem C117_full (cls : Txt) (extra : List (Txt × Txt)) (g : Graph n K) :
    graphRepr cls extra none g = cls ++ '(' :: commaJoin (assign ("n_vertices".toList, decimal n) :: assign ("n_edges".toList, decimal g.nEdges) :: extra.map assign) ++ [')'] :=
  graphRepr_eq cls extra none g (extraLoop_none _ _ _ fun _ _ _ => by simp)

/-- **C117** With `limit ≥ 2` at most `limit` attributes are shown, the first ones; there is an ellipsis after them exactly when some are missing. -/
theorem C117_limit (cls : Txt) (extra : List (Txt × Txt)) (limit : ℕ) (hl : 2 ≤ limit) (g : Graph n K) :
    graphRepr cls extra (some limit) g =
      cls ++ '(' :: commaJoin (assign ("n_vertices".toList, decimal n) :: assign ("n_edges".toList, decimal g.nEdges) :: shown limit extra) ++ [')'] :=
  graphRepr_eq cls extra _ g (extraLoop_shown limit hl extra)

/-- **C117** The title of a plot shows at most two extra attributes. -/
theorem C117_title (cls : Txt) (extra : List (Txt × Txt)) (g : Graph n K) :
    plotTitle cls extra g =
      cls ++ '(' :: commaJoin (assign ("n_vertices".toList, decimal n) :: assign ("n_edges".toList, decimal g.nEdges) :: shown 4 extra) ++ [')'] :=
  C117_limit cls extra 4 (by norm_num) g

/-- **C117** A limit under 2 does not limit anything: the form is the one without limit. -/
theorem C117_small_limit_violated (cls : Txt) (extra : List (Txt × Txt)) (limit : ℤ) (hl : limit < 2) (g : Graph n K) :
    graphRepr cls extra (some limit) g = graphRepr cls extra none g := by
  rw [C117_full]
  refine graphRepr_eq cls extra _ g (extraLoop_none _ _ _ fun j _ _ => ?_)
  simp only [Option.map_some, ne_eq, Option.some.injEq]
  omega

/-! ### The numbers can be read back -/

theorem decimal_inj {a b : ℕ} (h : decimal a = decimal b) : a = b := by
  have := congrArg (fun l => Nat.ofDigitChars 10 l 0) h
  simpa [decimal, Nat.ofDigitChars_ten_toDigits] using this

theorem decimal_digit {a : ℕ} {c : Char} (h : c ∈ decimal a) : c.isDigit = true := Nat.isDigit_of_mem_toDigits (by norm_num) (by norm_num) h

/-- two digit sequences followed by something that does not begin with a digit -/
theorem digits_split : ∀ {a b r r' : Txt}, (∀ c ∈ a, c.isDigit = true) → (∀ c ∈ b, c.isDigit = true) → (∀ c, r.head? = some c → c.isDigit = false) →
    (∀ c, r'.head? = some c → c.isDigit = false) → a ++ r = b ++ r' → a = b ∧ r = r'
  | [], [], r, r', _, _, _, _, h => ⟨rfl, h⟩
  | [], b :: bs, r, r', _, hb, hr, _, h => by
    have h1 : r = b :: (bs ++ r') := by simpa using h
    have := hr b (by rw [h1]; rfl)
    rw [hb b (by simp)] at this
    cases this
  | a :: as, [], r, r', ha, _, _, hr', h => by
    have h1 : r' = a :: (as ++ r) := by simpa using h.symm
    have := hr' a (by rw [h1]; rfl)
    rw [ha a (by simp)] at this
    cases this
  | a :: as, b :: bs, r, r', ha, hb, hr, hr', h => by
    simp only [List.cons_append, List.cons.injEq] at h
    obtain ⟨h1, h2⟩ := digits_split (fun c hc => ha c (by simp [hc])) (fun c hc => hb c (by simp [hc])) hr hr' h.2
    exact ⟨by rw [h.1, h1], h2⟩

/-- what follows the number of edges: the closing parenthesis, or a comma -/
theorem repr_tail (cls : Txt) (extra : List (Txt × Txt)) (limit : Option ℤ) (g : Graph n K) : ∃ r : Txt, (∀ c, r.head? = some c → c.isDigit = false) ∧
    graphRepr cls extra limit g = cls ++ '(' :: ("n_vertices".toList ++ '=' :: (decimal n ++ ([',', ' '] ++ "n_edges".toList ++ ['='] ++ (decimal g.nEdges ++ r)))) := by
  obtain ⟨ts, hts⟩ : ∃ ts, extraLoop limit 0 extra = terminated ts := by
    by_cases h : ∃ l : ℕ, limit = some (l : ℤ) ∧ 2 ≤ l
    · obtain ⟨l, rfl, h2⟩ := h
      exact ⟨_, extraLoop_shown l h2 extra⟩
    · refine ⟨_, extraLoop_none _ _ _ fun j _ _ hj => h ⟨j + 2, ?_, by omega⟩⟩
      cases limit with
      | none => simp at hj
      | some l =>
        simp only [Option.map_some, Option.some.injEq] at hj
        rw [Option.some.injEq]
        push_cast
        omega
  rw [graphRepr_eq cls extra limit g hts]
  cases ts with
  | nil => exact ⟨[')'], by simp, by simp [commaJoin, assign]⟩
  | cons t ts => exact ⟨[',', ' '] ++ commaJoin (t :: ts) ++ [')'], by simp, by simp [commaJoin, assign]⟩

/-- **C117** Two graphs of the same class that print the same, under any limits and whatever their attributes, have as many vertices and as many edges. -/
theorem C117_counts {m : ℕ} {K' : Type} (cls : Txt) (extra extra' : List (Txt × Txt)) (limit limit' : Option ℤ) (g : Graph n K) (g' : Graph m K')
    (h : graphRepr cls extra limit g = graphRepr cls extra' limit' g') : n = m ∧ g.nEdges = g'.nEdges := by
  obtain ⟨r, hr, e⟩ := repr_tail cls extra limit g
  obtain ⟨r', hr', e'⟩ := repr_tail cls extra' limit' g'
  rw [e, e'] at h
  have h1 := List.append_cancel_left h
  simp only [List.cons.injEq, true_and] at h1
  have h2 := List.append_cancel_left h1
  simp only [List.cons.injEq, true_and] at h2
  obtain ⟨h3, h4⟩ := digits_split (fun c => decimal_digit) (fun c => decimal_digit) (by simp) (by simp) h2
  obtain ⟨h5, -⟩ := digits_split (fun c => decimal_digit) (fun c => decimal_digit) hr hr' (List.append_cancel_left h4)
  exact ⟨decimal_inj h3, decimal_inj h5⟩

/-! ### Filters -/

theorem attrUpdate_new : ∀ (d e : List (Txt × Txt)), (e.map Prod.fst).Nodup → (∀ p ∈ e, p.1 ∉ d.map Prod.fst) → attrUpdate d e = d ++ e
  | d, [], _, _ => by simp [attrUpdate]
  | d, p :: e, hn, hd => by
    have h1 : attrSet d p.1 p.2 = d ++ [p] := by
      unfold attrSet
      rw [if_neg]
      simp only [List.any_eq_true, decide_eq_true_eq, not_exists, not_and]
      intro q hq hqp
      exact hd p (by simp) (List.mem_map.2 ⟨q, hq, hqp⟩)
    have h2 : attrUpdate d (p :: e) = attrUpdate (d ++ [p]) e := by
      unfold attrUpdate
      rw [List.foldl_cons, h1]
    rw [h2, attrUpdate_new (d ++ [p]) e (by simpa using (List.nodup_cons.1 (by simpa using hn)).2) ?_]
    · simp
    · intro q hq
      simp only [List.map_append, List.map_cons, List.map_nil, List.mem_append, List.mem_singleton, not_or]
      refine ⟨hd q (by simp [hq]), fun h => ?_⟩
      have := (List.nodup_cons.1 (by simpa using hn : (p.1 :: e.map Prod.fst).Nodup)).1
      exact this (List.mem_map.2 ⟨q, hq, h⟩)

/-- **C117** `repr(filter)` is the class, then 1, the number of filters and the extra attributes of the design in order (no design has an attribute called `in` or `out`, or twice
the same). -/
theorem C117_filter (cls : Txt) (extra : List (Txt × Txt)) (f : Bank) (hn : (extra.map Prod.fst).Nodup) (hd : ∀ p ∈ extra, p.1 ≠ "in".toList ∧ p.1 ≠ "out".toList) :
    filterRepr cls extra f =
      cls ++ '(' :: commaJoin (assign ("in".toList, decimal 1) :: assign ("out".toList, decimal f.Nf) :: extra.map assign) ++ [')'] := by
  unfold filterRepr
  dsimp only
  rw [attrUpdate_new _ _ hn (by intro p hp; have := hd p hp; simp only [List.map_cons, List.map_nil, List.mem_cons, List.not_mem_nil, or_false, not_or]; exact this)]
  rw [← dropTwo_terminated (by simp)]
  simp only [terminated, List.flatMap_cons, List.flatMap_map, List.flatMap_nil, List.nil_append, List.cons_append, List.append_assoc, item_eq]

theorem attrSet_old {d : List (Txt × Txt)} {key value : Txt} (h : key ∈ d.map Prod.fst) : attrSet d key value = d.map fun p => if p.1 = key then (key, value) else p := by
  unfold attrSet
  rw [if_pos]
  simp only [List.any_eq_true, decide_eq_true_eq]
  obtain ⟨p, hp, e⟩ := List.mem_map.1 h
  exact ⟨p, hp, e⟩

theorem attrSet_fresh {d : List (Txt × Txt)} {key value : Txt} (h : key ∉ d.map Prod.fst) : attrSet d key value = d ++ [(key, value)] := by
  unfold attrSet
  rw [if_neg]
  simp only [List.any_eq_true, decide_eq_true_eq, not_exists, not_and]
  intro q hq hqp
  exact h (List.mem_map.2 ⟨q, hq, hqp⟩)

theorem lookup_none {k : Txt} : ∀ {e : List (Txt × Txt)}, k ∉ e.map Prod.fst → e.lookup k = none
  | [], _ => rfl
  | q :: e, h => by
    simp only [List.map_cons, List.mem_cons, not_or] at h
    rw [List.lookup_cons]
    have : (k == q.1) = false := by simpa using h.1
    rw [this]
    exact lookup_none h.2

theorem attrUpdate_eq : ∀ (d e : List (Txt × Txt)), (e.map Prod.fst).Nodup →
    attrUpdate d e = (d.map fun p => (p.1, (e.lookup p.1).getD p.2)) ++ e.filter fun p => p.1 ∉ d.map Prod.fst
  | d, [], _ => by simp [attrUpdate]
  | d, q :: e, hn => by
    have hn' : q.1 ∉ e.map Prod.fst ∧ (e.map Prod.fst).Nodup := List.nodup_cons.1 (by simpa using hn)
    have h2 : attrUpdate d (q :: e) = attrUpdate (attrSet d q.1 q.2) e := by
      unfold attrUpdate
      rw [List.foldl_cons]
    rw [h2, attrUpdate_eq _ e hn'.2]
    by_cases hq : q.1 ∈ d.map Prod.fst
    · rw [attrSet_old hq]
      have hk : (d.map fun p => if p.1 = q.1 then (q.1, q.2) else p).map Prod.fst = d.map Prod.fst := by
        rw [List.map_map]
        refine List.map_congr_left fun p _ => ?_
        by_cases hp : p.1 = q.1 <;> simp [hp]
      rw [hk, List.filter_cons_of_neg (by simpa using hq), List.map_map]
      congr 1
      refine List.map_congr_left fun p _ => ?_
      simp only [Function.comp_apply]
      by_cases hp : p.1 = q.1
      · rw [if_pos hp, hp, List.lookup_cons]
        simp [lookup_none hn'.1]
      · rw [if_neg hp]
        have : (p.1 == q.1) = false := by simpa using hp
        rw [List.lookup_cons, this]
    · rw [attrSet_fresh hq, List.filter_cons_of_pos (by simpa using hq), List.map_append, List.append_assoc]
      congr 1
      · refine List.map_congr_left fun p hp => ?_
        have hne : (p.1 == q.1) = false := by
          have : p.1 ≠ q.1 := fun e => hq (List.mem_map.2 ⟨p, hp, e⟩)
          simpa using this
        rw [List.lookup_cons, hne]
      · simp only [List.map_cons, List.map_nil, lookup_none hn'.1, Option.getD_none, List.singleton_append, List.cons.injEq, true_and]
        refine List.filter_congr fun p hp => ?_
        have hne : p.1 ≠ q.1 := fun e => hn'.1 (List.mem_map.2 ⟨p, hp, e⟩)
        simp [hne]

/-- **C117** A design (a subclass of the user's, say) may have attributes called `in` or `out`: their values then stand for the two counts, in the same places, and the others follow. -/
theorem C117_filter_overrides (cls : Txt) (extra : List (Txt × Txt)) (f : Bank) (hn : (extra.map Prod.fst).Nodup) :
    filterRepr cls extra f =
      cls ++ '(' :: commaJoin (assign ("in".toList, (extra.lookup "in".toList).getD (decimal 1)) :: assign ("out".toList, (extra.lookup "out".toList).getD (decimal f.Nf)) ::
        (extra.filter fun p => p.1 ≠ "in".toList ∧ p.1 ≠ "out".toList).map assign) ++ [')'] := by
  unfold filterRepr
  dsimp only
  rw [attrUpdate_eq _ _ hn, ← dropTwo_terminated (by simp)]
  have hf : (extra.filter fun p => p.1 ∉ [("in".toList, decimal 1), ("out".toList, decimal f.Nf)].map Prod.fst) =
      extra.filter fun p => p.1 ≠ "in".toList ∧ p.1 ≠ "out".toList := by
    refine List.filter_congr fun p _ => ?_
    simp only [List.map_cons, List.map_nil, List.mem_cons, List.not_mem_nil, or_false, not_or, ne_eq]
  rw [hf]
  simp only [terminated, List.flatMap_cons, List.flatMap_map, List.flatMap_nil, List.nil_append, List.cons_append, List.append_assoc, item_eq, List.map_cons, List.map_nil]

/-- A design which names its own output. -/
example (f : Bank) :
    filterRepr "Mine".toList [("a".toList, "3".toList), ("out".toList, "many".toList)] f = "Mine(in=1, out=many, a=3)".toList := by
  rw [C117_filter_overrides _ _ _ (by decide)]
  generalize f.Nf = k
  rfl

/-- **C117** Two filters of the same class that print the same have as many filters. -/
theorem C117_filter_counts (cls : Txt) (extra extra' : List (Txt × Txt)) (f f' : Bank) (hn : (extra.map Prod.fst).Nodup)
    (hd : ∀ p ∈ extra, p.1 ≠ "in".toList ∧ p.1 ≠ "out".toList) (hn' : (extra'.map Prod.fst).Nodup)
    (hd' : ∀ p ∈ extra', p.1 ≠ "in".toList ∧ p.1 ≠ "out".toList) (h : filterRepr cls extra f = filterRepr cls extra' f') : f.Nf = f'.Nf := by
  rw [C117_filter cls extra f hn hd, C117_filter cls extra' f' hn' hd'] at h
  have key : ∀ (k : ℕ) (ts : List Txt), ∃ r : Txt, (∀ c, r.head? = some c → c.isDigit = false) ∧
      cls ++ '(' :: commaJoin (assign ("in".toList, decimal 1) :: assign ("out".toList, decimal k) :: ts) ++ [')'] =
        cls ++ ('(' :: assign ("in".toList, decimal 1) ++ [',', ' '] ++ "out".toList ++ ['=']) ++ (decimal k ++ r) := by
    intro k ts
    cases ts with
    | nil => exact ⟨[')'], by simp, by simp [commaJoin, assign]⟩
    | cons t ts => exact ⟨[',', ' '] ++ commaJoin (t :: ts) ++ [')'], by simp, by simp [commaJoin, assign]⟩
  obtain ⟨r, hr, e⟩ := key f.Nf (extra.map assign)
  obtain ⟨r', hr', e'⟩ := key f'.Nf (extra'.map assign)
  rw [e, e'] at h
  exact decimal_inj (digits_split (fun c => decimal_digit) (fun c => decimal_digit) hr hr' (List.append_cancel_left h)).1

/-- The forms of a ring and of a heat filter, and a cut one. -/
example (g : Graph 64 ℝ) (hg : g.nEdges = 64) (f : Bank) (hf : f.Nf = 2) :
    graphRepr "Ring".toList [("k".toList, "1".toList)] none g = "Ring(n_vertices=64, n_edges=64, k=1)".toList ∧
    graphRepr "Ring".toList [("k".toList, "1".toList)] (some 2) g = "Ring(n_vertices=64, n_edges=64, ...)".toList ∧
    filterRepr "Heat".toList [("scale".toList, "[1.00, 2.00]".toList), ("normalize".toList, "False".toList)] f =
      "Heat(in=1, out=2, scale=[1.00, 2.00], normalize=False)".toList := by
  refine ⟨?_, ?_, ?_⟩
  · rw [C117_full, hg]; decide
  · rw [show (some 2 : Option ℤ) = some ((2 : ℕ) : ℤ) from rfl, C117_limit _ _ _ le_rfl, hg]; decide
  · rw [C117_filter _ _ _ (by decide) (by decide), hf]; decide

end PyGSP
