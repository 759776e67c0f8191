import Verif.Model.RandomRegular
import Verif.Props.Torus

/-!
# C76: RandomRegular
-/

namespace PyGSP

open Matrix Spec Gen

variable {N : ℕ}

namespace Gen

/-- number of neighbours -/
def rrDeg (A : Fin N → Fin N → Bool) (v : Fin N) : ℕ := (Finset.univ.filter fun u => A v u = true).card

structure RRInv (k maxIter : ℕ) (s : RRState N) : Prop where
  sym : ∀ a b, s.A a b = s.A b a
  loop : ∀ a, s.A a a = false
  deg : ∀ v, rrDeg s.A v + s.U.count v = k
  stop : maxIter ≤ s.rep → ∀ a b, s.A a b = false

theorem count_halfEdges (k : ℕ) (v : Fin N) : (halfEdges N k).count v = k := by
  unfold halfEdges
  rw [List.count_flatten, List.map_replicate, List.sum_replicate, List.count_eq_one_of_mem (List.nodup_finRange N) (List.mem_finRange v)]
  simp

theorem rrInv_fresh (k maxIter : ℕ) (f : Bool) (t r : ℕ) : RRInv k maxIter (⟨halfEdges N k, f, fun _ _ => false, t, r⟩ : RRState N) where
  sym _ _ := rfl
  loop _ := rfl
  deg v := by simp [rrDeg, count_halfEdges]
  stop _ _ _ := rfl

theorem count_split (l : List (Fin N)) {i : ℕ} {x : Fin N} (h : l[i]? = some x) (v : Fin N) :
    l.count v = (l.take i).count v + ((if x = v then 1 else 0) + (l.drop (i + 1)).count v) := by
  obtain ⟨hi, rfl⟩ := List.getElem?_eq_some_iff.1 h
  conv_lhs => rw [← List.take_append_drop i l, List.drop_eq_getElem_cons hi]
  rw [List.count_append, List.count_cons]
  simp only [beq_iff_eq]
  ring

theorem count_remove (l : List (Fin N)) {a b : ℕ} (hab : a < b) {x y : Fin N} (hx : l[a]? = some x) (hy : l[b]? = some y) (v : Fin N) :
    l.count v = (l.take a ++ (l.take b).drop (a + 1) ++ l.drop (b + 1)).count v + (if x = v then 1 else 0) + (if y = v then 1 else 0) := by
  rw [count_split l hy v]
  have h : (l.take b)[a]? = some x := by rw [List.getElem?_take, if_pos hab, hx]
  rw [count_split (l.take b) h v, List.take_take, min_eq_left hab.le]
  simp only [List.count_append]
  ring

theorem rrDeg_add {A : Fin N → Fin N → Bool} {v1 v2 : Fin N} (hne : v1 ≠ v2) (hA : A v1 v2 = false) (hA' : A v2 v1 = false) (v : Fin N) :
    rrDeg (fun x y => if (x = v1 ∧ y = v2) ∨ (x = v2 ∧ y = v1) then true else A x y) v = rrDeg A v + (if v1 = v then 1 else 0) + (if v2 = v then 1 else 0) := by
  unfold rrDeg
  by_cases h1 : v1 = v
  · subst h1
    rw [if_pos rfl, if_neg (Ne.symm hne), add_zero, ← Finset.card_insert_of_notMem (a := v2) (by simp [hA])]
    congr 1
    ext u
    simp only [Finset.mem_filter, Finset.mem_univ, true_and, Finset.mem_insert, hne, false_and, or_false]
    split <;> simp_all
  · by_cases h2 : v2 = v
    · subst h2
      rw [if_neg hne, if_pos rfl, add_zero, ← Finset.card_insert_of_notMem (a := v1) (by simp [hA'])]
      congr 1
      ext u
      simp only [Finset.mem_filter, Finset.mem_univ, true_and, Finset.mem_insert, Ne.symm hne, false_and, false_or]
      split <;> simp_all
    · rw [if_neg h1, if_neg h2]
      simp [Ne.symm h1, Ne.symm h2]

theorem rr_step {k maxIter : ℕ} {fi : Bool} {i1 i2 : ℕ} {s s' : RRState N} (hI : RRInv k maxIter s) (hr : s.rep < maxIter)
    (h : rrStep k fi i1 i2 s = .ok s') : RRInv k maxIter s' := by
  unfold rrStep at h
  split at h
  · rename_i v1 v2 e1 e2
    simp only at h
    have hrest : RRInv k maxIter (if s.tested + 1 = N * k then (⟨halfEdges N k, true, fun _ _ => false, 0, s.rep + 1⟩ : RRState N) else { s with tested := s.tested + 1 }) := by
      split
      · exact rrInv_fresh ..
      · exact ⟨hI.sym, hI.loop, hI.deg, hI.stop⟩
    by_cases hv : v1 = v2
    · rw [if_pos hv] at h
      cases h; exact hrest
    rw [if_neg hv] at h
    by_cases hf : (s.inexact && !fi) = true
    · rw [if_pos hf] at h; cases h
    rw [if_neg hf] at h
    by_cases hA : s.A v1 v2 = true
    · rw [if_pos hA] at h
      cases h; exact hrest
    rw [if_neg hA] at h
    obtain rfl := (Except.ok.inj h).symm
    have hA1 : s.A v1 v2 = false := by simpa using hA
    have hA2 : s.A v2 v1 = false := by rw [hI.sym, hA1]
    refine ⟨fun a b => ?_, fun a => ?_, fun v => ?_, fun q => by have := (show maxIter ≤ s.rep from q); omega⟩
    · show (if _ then true else s.A a b) = if _ then true else s.A b a
      rw [hI.sym a b]
      exact if_congr (by tauto) rfl rfl
    · show (if _ then true else s.A a a) = false
      rw [if_neg (by rintro (⟨r1, r2⟩ | ⟨r1, r2⟩); exacts [hv (r1.symm.trans r2), hv (r2.symm.trans r1)]), hI.loop]
    · show rrDeg _ v + List.count v _ = k
      rw [rrDeg_add hv hA1 hA2 v, ← hI.deg v]
      rcases lt_trichotomy i1 i2 with q | q | q
      · rw [count_remove s.U q e1 e2 v, min_eq_left q.le, max_eq_right q.le]; ring
      · subst q; rw [e1] at e2; exact absurd (Option.some.inj e2) hv
      · rw [count_remove s.U q e2 e1 v, min_eq_right q.le, max_eq_left q.le]; ring
  · cases h

theorem rr_loop {k maxIter : ℕ} {fi : Bool} {draw : ℕ → ℕ → ℕ} (fuel : ℕ) : ∀ (t : ℕ) (s s' : RRState N), RRInv k maxIter s →
    rrLoop k maxIter fi draw fuel t s = .ok (some s') → RRInv k maxIter s' ∧ (s'.U = [] ∨ maxIter ≤ s'.rep) := by
  induction fuel with
  | zero =>
    intro t s s' hI h
    rw [rrLoop] at h
    by_cases q : s.U = [] ∨ maxIter ≤ s.rep
    · rw [if_pos q] at h
      cases h; exact ⟨hI, q⟩
    · rw [if_neg q] at h; cases h
  | succ fuel ih =>
    intro t s s' hI h
    rw [rrLoop] at h
    by_cases q : s.U = [] ∨ maxIter ≤ s.rep
    · rw [if_pos q] at h
      cases h; exact ⟨hI, q⟩
    · rw [if_neg q] at h
      split at h
      · cases h
      · rename_i s1 hs1
        push Not at q
        exact ih _ _ _ (rr_step hI (by omega) hs1) h

theorem rr_some {k maxIter : ℕ} {fi : Bool} {draw : ℕ → ℕ → ℕ} {lt : LapType} {g : Graph N ℝ} (h : randomRegular N k maxIter fi draw lt = some (.ok g)) :
    ∃ s : RRState N, RRInv k maxIter s ∧ (s.U = [] ∨ maxIter ≤ s.rep) ∧ N * k % 2 ≠ 1 ∧ g.Built ∧ g.W.dense = Matrix.of fun i j => if s.A i j then 1 else 0 := by
  unfold randomRegular at h
  by_cases hodd : N * k % 2 = 1
  · rw [if_pos hodd] at h; cases h
  rw [if_neg hodd] at h
  split at h
  · rename_i hex
    have h := Option.some.inj h
    generalize hr : rrLoop k maxIter fi draw _ 0 (rrInit N k) = r at h
    match r, h with
    | .ok (some s), h =>
      obtain ⟨q1, q2⟩ := rr_loop _ _ _ _ (rrInv_fresh k maxIter false 0 1) hr
      obtain ⟨-, -, -, hlt⟩ := Graph.ofCsr_ok h
      obtain ⟨g', g1, g2, g3, -⟩ := Graph.ofCsr_canonical _ (Sp.canonical_ofDense (Matrix.of fun i j => if s.A i j then (1 : ℝ) else 0)) hlt
      obtain rfl := Except.ok.inj (g1.symm.trans h)
      rw [Sp.dense_ofDense] at g3
      exact ⟨s, q1, q2, hodd, g2, g3⟩
  · cases h

end Gen

/-- **When `RandomRegular(N, k)` returns, the graph is simple and undirected and it is either `k`-regular or it has no edge at all**, whatever
the random numbers are. -/
theorem C76_structure {k maxIter : ℕ} {floatIndex : Bool} {draw : ℕ → ℕ → ℕ} {lt : LapType} {g : Graph N ℝ}
    (h : randomRegular N k maxIter floatIndex draw lt = some (.ok g)) :
    g.Built ∧ Undirected g.W.dense ∧ (∀ i j, g.W.dense i j = 0 ∨ g.W.dense i j = 1) ∧ (∀ i, g.W.dense i i = 0) ∧
      (((∀ i, (Finset.univ.filter fun j => g.W.dense i j ≠ 0).card = k) ∧ 2 * g.nEdges = N * k) ∨ (g.W.dense = 0 ∧ g.nEdges = 0)) := by
  obtain ⟨s, hI, hs, -, hb, hd⟩ := rr_some h
  have hu : Undirected g.W.dense := fun i j => by simp only [hd, Matrix.of_apply, hI.sym i j]
  have hl : ∀ i, g.W.dense i i = 0 := fun i => by simp [hd, hI.loop]
  refine ⟨hb, hu, fun i j => ?_, hl, ?_⟩
  · rw [hd]
    simp only [Matrix.of_apply]
    split
    · exact .inr rfl
    · exact .inl rfl
  · have e := two_edges_card hu hl
    rw [← C02_n_edges_undirected g hb hu] at e
    rcases hs with hs | hs
    · have hk : ∀ i, (Finset.univ.filter fun j => g.W.dense i j ≠ 0).card = k := by
        intro i
        have := hI.deg i
        rw [hs] at this
        rw [← this, rrDeg]
        simp [hd]
      refine .inl ⟨hk, ?_⟩
      rw [e, Finset.sum_congr rfl fun i _ => hk i]
      simp
    · have hz : g.W.dense = 0 := by
        rw [hd]; ext i j; simp [hI.stop hs i j]
      refine .inr ⟨hz, ?_⟩
      rw [hz] at e
      simpa using e

/-- ValueError when `N * k` is odd; no edge at all when `max_iter ≤ 1`, or when no `k`-regular graph with `N` vertices exists because `k ≥ N`:
and `is_regular` never logs a warning, not even then. -/
theorem C76_limits {k maxIter : ℕ} {floatIndex : Bool} {draw : ℕ → ℕ → ℕ} {lt : LapType} :
    (N * k % 2 = 1 → randomRegular N k maxIter floatIndex draw lt = some (.error .valueError)) ∧
      ∀ g : Graph N ℝ, randomRegular N k maxIter floatIndex draw lt = some (.ok g) →
        (maxIter ≤ 1 ∨ N ≤ k → g.W.dense = 0) ∧ isRegularWarns g = false := by
  refine ⟨fun h => if_pos h, fun g h => ?_⟩
  obtain ⟨hb, hu, h01, hl, hreg⟩ := C76_structure h
  refine ⟨?_, ?_⟩
  · rintro (hm | hk)
    · obtain ⟨s, hI, hs, hodd, -, hd⟩ := rr_some h
      unfold randomRegular at h
      rw [if_neg hodd] at h
      split at h
      · have h := Option.some.inj h
        have key : ∀ fuel, rrLoop k maxIter floatIndex draw fuel 0 (rrInit N k) = .ok (some (rrInit N k)) := by
          intro fuel
          rw [rrLoop.eq_def]
          exact if_pos (.inr (show maxIter ≤ 1 from hm))
        rw [key] at h
        obtain ⟨-, -, -, hlt⟩ := Graph.ofCsr_ok h
        obtain ⟨g', g1, g2, g3, -⟩ := Graph.ofCsr_canonical _ (Sp.canonical_ofDense (Matrix.of fun i j => if (rrInit N k).A i j then (1 : ℝ) else 0)) hlt
        obtain rfl := Except.ok.inj (g1.symm.trans h)
        rw [g3, Sp.dense_ofDense]
        ext i j
        simp [rrInit]
      · cases h
    · rcases hreg with ⟨hreg, -⟩ | ⟨hz, -⟩
      · ext i j
        exfalso
        have : (Finset.univ.filter fun j => g.W.dense i j ≠ 0).card < N := by
          have h1 : (Finset.univ.filter fun j => g.W.dense i j ≠ 0) ⊂ Finset.univ := by
            rw [Finset.ssubset_univ_iff]
            intro q
            have := Finset.mem_univ i
            rw [← q] at this
            exact (Finset.mem_filter.1 this).2 (hl i)
          simpa using Finset.card_lt_card h1
        have := hreg i
        omega
      · exact hz
  · have hd : ∃ c : ℕ, ∀ i, (Finset.univ.filter fun j => g.W.dense i j ≠ 0).card = c := by
      rcases hreg with ⟨q, -⟩ | ⟨q, -⟩
      · exact ⟨k, q⟩
      · exact ⟨0, fun i => by simp [q]⟩
    obtain ⟨c, hc⟩ := hd
    have hdeg : ∀ i, degree g.W i = c := by
      intro i
      rw [C07_degree g hb i, hc i, Finset.filter_congr fun j _ => by rw [hu j i], hc i]
      ring
    unfold isRegularWarns
    refine decide_eq_false ?_
    rintro (⟨i, j, q⟩ | ⟨i, j, q⟩ | ⟨i, q⟩)
    · exact q (by simp only [posAdj, hu i j])
    · exact q (by rw [hdeg, hdeg])
    · simp [posAdj, hl] at q

namespace Gen

theorem rr_back {k maxIter : ℕ} {fi : Bool} {draw : ℕ → ℕ → ℕ} {t : ℕ} {s s' : RRState N} {len i1 i2 : ℕ} (h0 : s.U.length = len) (h1 : s.U ≠ [])
    (h2 : s.rep < maxIter) (d1 : draw (2 * t) len = i1) (d2 : draw (2 * t + 1) len = i2) (h3 : rrStep k fi i1 i2 s = .ok s')
    (h : ∀ f, rrLoop k maxIter fi draw f (t + 1) s' = .ok none) : ∀ f, rrLoop k maxIter fi draw f t s = .ok none := by
  intro f
  have hn : ¬ (s.U = [] ∨ maxIter ≤ s.rep) := by push Not; exact ⟨h1, h2⟩
  cases f with
  | zero => rw [rrLoop, if_neg hn]
  | succ f => rw [rrLoop, if_neg hn, h0, d1, d2, h3]; exact h f

/-- a state with two half-edges of the same vertex after the last test that could restart -/
theorem rr_stuck {k maxIter : ℕ} {fi : Bool} {draw : ℕ → ℕ → ℕ} (hd : DrawSpec draw) (v : Fin N) (f : ℕ) : ∀ (t : ℕ) (s : RRState N), s.U = [v, v] →
    s.rep < maxIter → N * k ≤ s.tested → rrLoop k maxIter fi draw f t s = .ok none := by
  induction f with
  | zero =>
    intro t s h1 h2 h3
    rw [rrLoop, if_neg (by push Not; exact ⟨by simp [h1], h2⟩)]
  | succ f ih =>
    intro t s h1 h2 h3
    rw [rrLoop, if_neg (by push Not; exact ⟨by simp [h1], h2⟩)]
    have hg : ∀ i < 2, s.U[i]? = some v := by
      intro i hi
      rw [h1]
      interval_cases i <;> rfl
    have e1 := hg _ (show draw (2 * t) s.U.length < 2 by have := hd (2 * t) s.U.length (by simp [h1]); simpa [h1] using this)
    have e2 := hg _ (show draw (2 * t + 1) s.U.length < 2 by have := hd (2 * t + 1) s.U.length (by simp [h1]); simpa [h1] using this)
    have : rrStep k fi (draw (2 * t) s.U.length) (draw (2 * t + 1) s.U.length) s = .ok { s with tested := s.tested + 1 } := by
      unfold rrStep
      rw [e1, e2]
      simp only
      rw [if_pos trivial, if_neg (by omega)]
    rw [this]
    exact ih (t + 1) _ h1 h2 (by show N * k ≤ s.tested + 1; omega)

end Gen

/-- **`RandomRegular(4, 2)` may never return**: the number of tested pairs is compared with `N * k` only when the tested pair is illegal.  If the
`N * k`-th pair is legal and leaves no legal pair, the loop runs forever, whatever the following random numbers are. -/
theorem C76_never_returns_violated {draw : ℕ → ℕ → ℕ} (hd : DrawSpec draw) (h0 : ∀ t < 10, draw t 8 = 0)
    (h5 : draw 10 8 = 0 ∧ draw 11 8 = 1) (h6 : draw 12 6 = 0 ∧ draw 13 6 = 2) (h7 : draw 14 4 = 1 ∧ draw 15 4 = 2)
    {maxIter : ℕ} (hm : 2 ≤ maxIter) (floatIndex : Bool) (lt : LapType) : randomRegular 4 2 maxIter floatIndex draw lt = none := by
  unfold randomRegular
  rw [if_neg (by norm_num), dif_neg]
  rintro ⟨f, hf⟩
  apply hf
  clear hf
  revert f
  have hne : halfEdges 4 2 ≠ [] := by decide
  refine rr_back (len := 8) (s := rrInit 4 2) (s' := ⟨halfEdges 4 2, false, fun _ _ => false, 1, 1⟩) rfl hne hm (h0 0 (by norm_num)) (h0 1 (by norm_num)) rfl ?_
  refine rr_back (len := 8) (s' := ⟨halfEdges 4 2, false, fun _ _ => false, 2, 1⟩) rfl hne hm (h0 2 (by norm_num)) (h0 3 (by norm_num)) rfl ?_
  refine rr_back (len := 8) (s' := ⟨halfEdges 4 2, false, fun _ _ => false, 3, 1⟩) rfl hne hm (h0 4 (by norm_num)) (h0 5 (by norm_num)) rfl ?_
  refine rr_back (len := 8) (s' := ⟨halfEdges 4 2, false, fun _ _ => false, 4, 1⟩) rfl hne hm (h0 6 (by norm_num)) (h0 7 (by norm_num)) rfl ?_
  refine rr_back (len := 8) (s' := ⟨halfEdges 4 2, false, fun _ _ => false, 5, 1⟩) rfl hne hm (h0 8 (by norm_num)) (h0 9 (by norm_num)) rfl ?_
  refine rr_back (len := 8) (s' := ⟨[2, 3, 0, 1, 2, 3], false, _, 6, 1⟩) rfl hne hm h5.1 h5.2 rfl ?_
  refine rr_back (len := 6) (s' := ⟨[3, 1, 2, 3], false, _, 7, 1⟩) rfl (by simp) hm h6.1 h6.2 rfl ?_
  refine rr_back (len := 4) (s' := ⟨[3, 3], false, _, 8, 1⟩) rfl (by simp) hm h7.1 h7.2 rfl ?_
  exact fun f => rr_stuck hd 3 f 8 _ rfl hm (by norm_num)

/-- such random numbers exist -/
example : ∃ draw : ℕ → ℕ → ℕ, DrawSpec draw ∧ (∀ t < 10, draw t 8 = 0) ∧ (draw 10 8 = 0 ∧ draw 11 8 = 1) ∧
    (draw 12 6 = 0 ∧ draw 13 6 = 2) ∧ draw 14 4 = 1 ∧ draw 15 4 = 2 := by
  refine ⟨fun t n => (if t = 11 ∨ t = 14 then 1 else if t = 13 ∨ t = 15 then 2 else 0) % n, fun t n h => Nat.mod_lt _ h, ?_, ?_, ?_, ?_⟩
  · decide
  all_goals decide

namespace Gen

/-- a run of the loop that ends -/
theorem rr_returns {k maxIter : ℕ} {fi : Bool} {draw : ℕ → ℕ → ℕ} {lt : LapType} (hodd : N * k % 2 ≠ 1) {f : ℕ} {r : Py (Option (RRState N))}
    (hr : rrLoop k maxIter fi draw f 0 (rrInit N k) = r) (hn : r ≠ .ok none) : randomRegular N k maxIter fi draw lt = some (rrFinish lt r) := by
  classical
  have mono : ∀ (f : ℕ) (t : ℕ) (s : RRState N) (r : Py (Option (RRState N))), rrLoop k maxIter fi draw f t s = r → r ≠ .ok none →
      ∀ f', f ≤ f' → rrLoop k maxIter fi draw f' t s = r := by
    intro f
    induction f with
    | zero =>
      intro t s r h hn f' _
      rw [rrLoop] at h
      by_cases q : s.U = [] ∨ maxIter ≤ s.rep
      · rw [if_pos q] at h
        rw [rrLoop.eq_def]
        exact (if_pos q).trans h
      · rw [if_neg q] at h
        exact absurd h.symm hn
    | succ f ih =>
      intro t s r h hn f' hf
      rw [rrLoop] at h
      by_cases q : s.U = [] ∨ maxIter ≤ s.rep
      · rw [if_pos q] at h
        rw [rrLoop.eq_def]
        exact (if_pos q).trans h
      · obtain ⟨f'', rfl⟩ : ∃ f'', f' = f'' + 1 := ⟨f' - 1, by omega⟩
        rw [if_neg q] at h
        rw [rrLoop, if_neg q]
        split at h
        · exact h
        · exact ih _ _ _ h hn f'' (by omega)
  unfold randomRegular
  have hex : ∃ fuel, rrLoop k maxIter fi draw fuel 0 (rrInit N k) ≠ .ok none := ⟨f, by rw [hr]; exact hn⟩
  rw [if_neg hodd, dif_pos hex]
  congr 2
  have h1 := Nat.find_spec hex
  rw [← mono (Nat.find hex) 0 _ _ rfl h1 f (Nat.find_min' hex (by rw [hr]; exact hn)), hr]

end Gen

/-- **The restart is broken with a SciPy that rejects floating-point indices**: `RandomRegular(2, 1)` raises ValueError when the two first pairs of
half-edges are illegal, although the following one is legal (and the graph with one edge is 1-regular). -/
theorem C76_restart_violated {draw : ℕ → ℕ → ℕ} (h0 : ∀ t < 4, draw t 2 = 0) (h1 : draw 4 2 = 0) (h2 : draw 5 2 = 1) {maxIter : ℕ} (hm : 3 ≤ maxIter)
    (lt : LapType) : randomRegular 2 1 maxIter false draw lt = some (.error .valueError) := by
  refine rr_returns (f := 3) (r := .error .valueError) (by norm_num) ?_ (fun h => by cases h)
  have e1 : rrStep (N := 2) 1 false 0 0 ⟨halfEdges 2 1, false, fun _ _ => false, 0, 1⟩ = .ok ⟨halfEdges 2 1, false, fun _ _ => false, 1, 1⟩ := rfl
  have e2 : rrStep (N := 2) 1 false 0 0 ⟨halfEdges 2 1, false, fun _ _ => false, 1, 1⟩ = .ok ⟨halfEdges 2 1, true, fun _ _ => false, 0, 2⟩ := rfl
  have e3 : rrStep (N := 2) 1 false 0 1 ⟨halfEdges 2 1, true, fun _ _ => false, 0, 2⟩ = .error .valueError := rfl
  have hne : halfEdges 2 1 ≠ [] := by decide
  have hlen : (halfEdges 2 1).length = 2 := rfl
  have hs : ∀ (b : Bool) (t r : ℕ), r < maxIter → ¬ ((⟨halfEdges 2 1, b, fun _ _ => false, t, r⟩ : RRState 2).U = [] ∨ maxIter ≤ r) := by
    intro b t r hr
    push Not
    exact ⟨hne, hr⟩
  rw [rrInit, rrLoop, if_neg (hs _ _ _ (by omega))]
  simp only [hlen, h0 0 (by norm_num), h0 1 (by norm_num), Nat.mul_zero, Nat.zero_add, e1]
  rw [rrLoop, if_neg (hs _ _ _ (by omega))]
  simp only [hlen, h0 2 (by norm_num), h0 3 (by norm_num), Nat.mul_one, Nat.reduceAdd, e2]
  rw [rrLoop, if_neg (hs _ _ _ (by omega))]
  simp only [hlen, h1, h2, Nat.reduceMul, Nat.reduceAdd, e3]

/-- a run that ends with a 1-regular graph -/
example : ∃ g : Graph 2 ℝ, randomRegular 2 1 10 false (fun t n => t % n) .combinatorial = some (.ok g) ∧ g.nEdges = 1 := by
  have hr : rrLoop (N := 2) 1 10 false (fun t n => t % n) 1 0 (rrInit 2 1) = .ok (some ⟨[], false, _, 1, 1⟩) := rfl
  have h := rr_returns (lt := .combinatorial) (by norm_num) hr (fun h => by cases h)
  obtain ⟨g, hg⟩ : ∃ g, rrFinish .combinatorial (.ok (some (⟨[], false, fun x y : Fin 2 => if (x = 0 ∧ y = 1) ∨ (x = 1 ∧ y = 0) then true else false, 1, 1⟩ : RRState 2))) = .ok g := ⟨_, rfl⟩
  refine ⟨g, h.trans (congrArg some hg), ?_⟩
  have h2 := h.trans (congrArg some hg)
  obtain ⟨-, -, -, -, ⟨-, q⟩ | ⟨q, -⟩⟩ := C76_structure h2
  · omega
  · exfalso
    have hg' : Graph.ofCsr (Sp.ofDense (Matrix.of fun i j : Fin 2 =>
      if (if (i = 0 ∧ j = 1) ∨ (i = 1 ∧ j = 0) then true else false) = true then (1 : ℝ) else 0)) .combinatorial = .ok g := hg
    have hw := (Graph.ofCsr_ok hg').1
    have := congrFun (congrFun q 0) 1
    rw [hw, Sp.dense_eliminateZeros, Sp.dense_sumDuplicates, Sp.dense_ofDense] at this
    norm_num at this

end PyGSP
