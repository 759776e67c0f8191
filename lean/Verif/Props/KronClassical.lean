import Verif.Props.Multires
import Verif.Props.Generators
import Verif.Props.Comet

/-!
# C153: Kron reduction and multiresolution of the classical graphs
-/

namespace PyGSP

open Matrix Reduction Spec GState Gen Learning

variable {n k : ℕ}

namespace Spec

/-- The cycle of `n` vertices with weight `w` on every edge (for `n = 2` the two edges are added). -/
noncomputable def wcycle (n : ℕ) (w : ℝ) : Matrix (Fin n) (Fin n) ℝ :=
  Matrix.of fun i j => (if (i.1 + 1) % n = j.1 then w else 0) + if (j.1 + 1) % n = i.1 then w else 0

end Spec

namespace KronClassical

theorem wsym_of {M : Matrix (Fin n) (Fin n) ℝ} (hu : Undirected M) (i j : Fin n) : wsym M i j = M i j := by
  unfold wsym; rw [hu j i]; ring

/-- The reduced graph is the one whose currents are those of the harmonic extensions. -/
theorem kron_weights {S : Solvers n} (hS : Sound S) {g : Graph n ℝ} (hg : g.Built) (hist : List (Op n)) {s : GState n}
    (hs : s = runAll S hist (GState.ofGraph g)) (hc : s.lapType = .combinatorial)
    (hu : Undirected g.W.dense) (hW : NonnegW g.W.dense) {ind : Fin k → Fin n} (hi : Function.Injective ind)
    (hk : 2 ≤ k) (he : ∃ v, ∀ a, ind a ≠ v) (ha : ∀ v, ∃ a, Linked g.W.dense v (ind a)) {R : Type} (c : Fin n → R)
    {W' : Matrix (Fin k) (Fin k) ℝ} (hu' : Undirected W') (hz : ∀ a, W' a a = 0)
    (hH : ∀ v : Fin n → ℝ, (∀ u, (∀ a, ind a ≠ u) → ∑ y, g.W.dense u y * (v u - v y) = 0) →
      ∀ a, ∑ y, g.W.dense (ind a) y * (v (ind a) - v y) = ∑ b, W' a b * (v (ind a) - v (ind b))) :
    ∃ g', kronGraph s (.rows c) ind = .ok (g', .rows fun a => c (ind a)) ∧ g'.Built ∧ g'.lapType = .combinatorial ∧ g'.W.dense = W' := by
  obtain ⟨hsch, g', ⟨c', h1, h1'⟩, h2, h3, h4, -, h6, h7⟩ := kronGraph_core hS hg hist hs hc hu hW hi hk he ha (.rows c) (by simp)
  rw [h1' c rfl] at h1
  refine ⟨g', h1, h2, h3, ?_⟩
  have hK : combLap g'.W.dense = combLap W' := by
    rw [h7]
    refine Matrix.ext_of_mulVec_single fun b => ?_
    obtain ⟨v, hv, hv0⟩ := hsch.extend (Pi.single b 1)
    have e : (fun a => v (ind a)) = Pi.single b 1 := funext hv
    funext a
    have h8 := hsch.restrict v hv0 a
    rw [e, combLap_mulVec] at h8
    rw [h8, combLap_mulVec]
    have := hH v (fun u hu1 => by
      have := hv0 u ((kept_false_iff ind u).2 hu1)
      rw [combLap_mulVec] at this
      rw [← this]
      exact Finset.sum_congr rfl fun y _ => by rw [wsym_of hu]) a
    simp only [wsym_of hu, wsym_of hu']
    rw [this]
    exact Finset.sum_congr rfl fun y _ => by rw [hv, hv]
  ext a b
  by_cases hab : a = b
  · subst hab; rw [h6, hz]
  · have h9 := congrFun (congrFun hK a) b
    simp only [combLap, Matrix.of_apply, if_neg hab, wsym_of h4, wsym_of hu'] at h9
    linarith

/-- the neighbours on a path -/
theorem sum_path {N : ℕ} (u : Fin N) (f : Fin N → ℝ) :
    ∑ y, (if u.1 + 1 = y.1 ∨ y.1 + 1 = u.1 then f y else 0) =
      (if h : u.1 + 1 < N then f ⟨u.1 + 1, h⟩ else 0) + if h : 0 < u.1 then f ⟨u.1 - 1, by omega⟩ else 0 := by
  have h1 : ∀ y : Fin N, (if u.1 + 1 = y.1 ∨ y.1 + 1 = u.1 then f y else 0) = (if u.1 + 1 = y.1 then f y else 0) + if y.1 + 1 = u.1 then f y else 0 := by
    intro y
    by_cases a : u.1 + 1 = y.1
    · rw [if_pos (Or.inl a), if_pos a, if_neg (by omega), add_zero]
    · by_cases b : y.1 + 1 = u.1
      · rw [if_pos (Or.inr b), if_neg a, if_pos b, zero_add]
      · rw [if_neg (by tauto), if_neg a, if_neg b, add_zero]
  rw [Finset.sum_congr rfl fun y _ => h1 y, Finset.sum_add_distrib]
  congr 1
  · split
    · rename_i h
      rw [Finset.sum_eq_single ⟨u.1 + 1, h⟩ (fun y _ hy => if_neg fun e => hy (Fin.ext e.symm)) (by simp)]
      simp
    · rename_i h
      exact Finset.sum_eq_zero fun y _ => if_neg (by have := y.2; omega)
  · split
    · rename_i h
      rw [Finset.sum_eq_single ⟨u.1 - 1, by omega⟩ (fun y _ hy => if_neg fun e => hy (Fin.ext (by simp; omega))) (by simp)]
      rw [if_pos (by simp; omega)]
    · rename_i h
      exact Finset.sum_eq_zero fun y _ => if_neg (by omega)

/-- the differences along a path, zero at both ends -/
noncomputable def diffs {N : ℕ} (v : Fin N → ℝ) (j : ℕ) : ℝ := if h : 0 < j ∧ j < N then v ⟨j, h.2⟩ - v ⟨j - 1, by omega⟩ else 0

theorem sum_diffs {N : ℕ} (v : Fin N → ℝ) (u : Fin N) :
    ∑ y : Fin N, (if u.1 + 1 = y.1 ∨ y.1 + 1 = u.1 then (1 : ℝ) else 0) * (v u - v y) = diffs v u.1 - diffs v (u.1 + 1) := by
  simp only [ite_mul, one_mul, zero_mul]
  rw [sum_path u fun y => v u - v y]
  unfold diffs
  by_cases h1 : u.1 + 1 < N <;> by_cases h2 : 0 < u.1
  · rw [dif_pos h1, dif_pos h2, dif_pos ⟨h2, u.2⟩, dif_pos ⟨by omega, h1⟩]
    simp only [Nat.add_sub_cancel, Fin.eta]
    ring
  · rw [dif_pos h1, dif_neg h2, dif_neg (by omega), dif_pos ⟨by omega, h1⟩]
    simp only [Nat.add_sub_cancel, Fin.eta]
    ring
  · rw [dif_neg h1, dif_pos h2, dif_pos ⟨h2, u.2⟩, dif_neg (by omega)]
    ring
  · rw [dif_neg h1, dif_neg h2, dif_neg (by omega), dif_neg (by omega)]
    simp

/-- between two kept vertices the values are interpolated linearly -/
theorem diffs_run {N : ℕ} {v : Fin N → ℝ} {p q : ℕ} (hpq : p < q) (hq : q < N) (h : ∀ u, p < u → u < q → diffs v u = diffs v (u + 1)) :
    diffs v q = diffs v (p + 1) ∧ v ⟨q, hq⟩ - v ⟨p, hpq.trans hq⟩ = ((q : ℝ) - p) * diffs v (p + 1) := by
  induction q, hpq using Nat.le_induction with
  | base =>
    refine ⟨rfl, ?_⟩
    unfold diffs
    rw [dif_pos ⟨by omega, hq⟩]
    simp only [Nat.add_sub_cancel]
    push_cast
    ring
  | succ q hpq ih =>
    obtain ⟨i1, i2⟩ := ih (by omega) fun u h1 h2 => h u h1 (by omega)
    have h3 := h q hpq (by omega)
    refine ⟨by rw [← h3, i1], ?_⟩
    have h4 : diffs v (q + 1) = v ⟨q + 1, hq⟩ - v ⟨q, by omega⟩ := by
      unfold diffs
      rw [dif_pos ⟨by omega, hq⟩]
      simp only [Nat.add_sub_cancel]
    rw [← h3, i1] at h4
    push_cast
    linarith

theorem diffs_const {N : ℕ} {v : Fin N → ℝ} {p q : ℕ} (hpq : p ≤ q) (h : ∀ u, p ≤ u → u < q → diffs v u = diffs v (u + 1)) : diffs v p = diffs v q := by
  induction q, hpq using Nat.le_induction with
  | base => rfl
  | succ q hpq ih => rw [ih fun u h1 h2 => h u h1 (by omega), h q hpq (by omega)]

/-- the neighbours on a cycle -/
theorem sum_cycle {N : ℕ} (hN : 0 < N) (w : ℝ) (u : Fin N) (f : Fin N → ℝ) :
    ∑ y, wcycle N w u y * f y = w * f ⟨(u.1 + 1) % N, Nat.mod_lt _ hN⟩ + w * f ⟨(u.1 + (N - 1)) % N, Nat.mod_lt _ hN⟩ := by
  unfold wcycle
  simp only [of_apply, add_mul, ite_mul, zero_mul]
  rw [Finset.sum_add_distrib]
  congr 1
  · rw [Finset.sum_eq_single ⟨(u.1 + 1) % N, Nat.mod_lt _ hN⟩ (fun y _ hy => if_neg fun e => hy (Fin.ext e.symm)) (by simp)]
    simp
  · have key : ∀ y : Fin N, (y.1 + 1) % N = u.1 ↔ y.1 = (u.1 + (N - 1)) % N := by
      intro y
      have h1 := y.2
      have h2 := u.2
      rcases Nat.lt_or_ge (y.1 + 1) N with h | h
      · rw [Nat.mod_eq_of_lt h]
        rcases Nat.eq_zero_or_pos u.1 with h0 | h0
        · rw [h0, Nat.zero_add, Nat.mod_eq_of_lt (by omega)]; omega
        · rw [show u.1 + (N - 1) = (u.1 - 1) + N by omega, Nat.add_mod_right, Nat.mod_eq_of_lt (by omega)]; omega
      · rw [show y.1 + 1 = N by omega, Nat.mod_self]
        rcases Nat.eq_zero_or_pos u.1 with h0 | h0
        · rw [h0, Nat.zero_add, Nat.mod_eq_of_lt (by omega)]; omega
        · rw [show u.1 + (N - 1) = (u.1 - 1) + N by omega, Nat.add_mod_right, Nat.mod_eq_of_lt (by omega)]; omega
    rw [Finset.sum_eq_single ⟨(u.1 + (N - 1)) % N, Nat.mod_lt _ hN⟩ (fun y _ hy => if_neg fun e => hy (Fin.ext ((key y).1 e))) (by simp)]
    rw [if_pos ((key _).2 rfl)]

theorem cycle_undirected (N : ℕ) (w : ℝ) : Undirected (wcycle N w) := fun i j => by
  unfold wcycle
  simp only [of_apply]
  ring

theorem cycle_nonneg (N : ℕ) {w : ℝ} (hw : 0 ≤ w) : NonnegW (wcycle N w) := fun i j => by
  unfold wcycle
  simp only [of_apply]
  split <;> split <;> linarith

theorem cycle_diag {N : ℕ} (hN : 2 ≤ N) (w : ℝ) (i : Fin N) : wcycle N w i i = 0 := by
  have h : (i.1 + 1) % N ≠ i.1 := by
    rcases Nat.lt_or_ge (i.1 + 1) N with h | h
    · rw [Nat.mod_eq_of_lt h]; omega
    · rw [show i.1 + 1 = N by have := i.2; omega, Nat.mod_self]; omega
  unfold wcycle
  simp only [of_apply]
  rw [if_neg h, add_zero]

theorem cycle_connected {N : ℕ} {w : ℝ} (hw : 0 < w) : Connected (wcycle N w) := by
  have h0 : ∀ m (hm : m < N), Linked (wcycle N w) ⟨0, by omega⟩ ⟨m, hm⟩ := by
    intro m
    induction m with
    | zero => exact fun _ => .refl
    | succ m ih =>
      intro hm
      refine .tail (ih (by omega)) (Or.inl ?_)
      unfold wcycle
      simp only [of_apply]
      rw [if_pos (Nat.mod_eq_of_lt hm)]
      split <;> linarith
  exact fun i j => (Linked.symm (h0 i.1 i.2)).trans (h0 j.1 j.2)

/-- The Kron reduction of a cycle of even length to every second vertex is the cycle of half the length and half the weights. -/
theorem cycle_step {m : ℕ} (hm : 2 ≤ m) (hN : n = 2 * m) {w : ℝ} {S : Solvers n} (hS : Sound S) {g : Graph n ℝ} (hg : g.Built) (hist : List (Op n)) {s : GState n}
    (hs : s = runAll S hist (GState.ofGraph g)) (hc : s.lapType = .combinatorial) (hw : 0 < w) (hW : g.W.dense = wcycle n w) (hk : k = m) {ind : Fin k → Fin n} (hind : ∀ a, (ind a).1 = 2 * a.1)
    {R : Type} (c : Fin n → R) :
    ∃ g', kronGraph s (.rows c) ind = .ok (g', .rows fun a => c (ind a)) ∧ g'.Built ∧ g'.lapType = .combinatorial ∧ g'.W.dense = wcycle k (w / 2) := by
  subst hN hk
  have hk0 : 0 < k := by omega
  refine kron_weights hS hg hist hs hc (hW ▸ cycle_undirected _ _) (hW ▸ cycle_nonneg _ hw.le) (fun a b h => Fin.ext (by have := congrArg Fin.val h; rw [hind, hind] at this; omega)) hm
    ⟨⟨1, by omega⟩, fun a h => by have := congrArg Fin.val h; rw [hind] at this; simp only at this; omega⟩ (fun v => ⟨⟨0, hk0⟩, hW ▸ cycle_connected hw _ _⟩) c (cycle_undirected _ _)
    (cycle_diag hm _) ?_
  intro v hv a
  have hodd : ∀ (p : ℕ) (h1 : p < 2 * k) (h2 : p % 2 = 1) (q : ℕ) (hq : q < 2 * k) (_ : (p + 1) % (2 * k) = q), 2 * v ⟨p, h1⟩ = v ⟨p - 1, by omega⟩ + v ⟨q, hq⟩ := by
    intro p h1 h2 q hq hpq
    have := hv ⟨p, h1⟩ fun a h => by have := congrArg Fin.val h; rw [hind] at this; simp only at this; omega
    rw [hW, sum_cycle (by omega)] at this
    have e1 : (⟨(p + 1) % (2 * k), Nat.mod_lt _ (by omega)⟩ : Fin (2 * k)) = ⟨q, hq⟩ := Fin.ext hpq
    have e2 : (⟨(p + (2 * k - 1)) % (2 * k), Nat.mod_lt _ (by omega)⟩ : Fin (2 * k)) = ⟨p - 1, by omega⟩ := Fin.ext (by
      show (p + (2 * k - 1)) % (2 * k) = p - 1
      rw [show p + (2 * k - 1) = (p - 1) + 2 * k by omega, Nat.add_mod_right, Nat.mod_eq_of_lt (by omega)])
    simp only at this
    rw [e1, e2, ← mul_add] at this
    have := (mul_eq_zero.1 this).resolve_left hw.ne'
    linarith
  have ha := a.2
  rw [hW, sum_cycle (by omega), sum_cycle hk0 _ a fun b => v (ind a) - v (ind b)]
  -- the four neighbours
  have i0 : ind a = ⟨2 * a.1, by omega⟩ := Fin.ext (hind a)
  have n1 : (⟨((ind a).1 + 1) % (2 * k), Nat.mod_lt _ (by omega)⟩ : Fin (2 * k)) = ⟨2 * a.1 + 1, by omega⟩ := Fin.ext (by
    show ((ind a).1 + 1) % (2 * k) = _
    rw [hind, Nat.mod_eq_of_lt (by omega)])
  have n2 : ind ⟨(a.1 + 1) % k, Nat.mod_lt _ hk0⟩ = ⟨2 * ((a.1 + 1) % k), by have := Nat.mod_lt (a.1 + 1) hk0; omega⟩ := Fin.ext (hind _)
  have back : ∀ x, x < k → (2 * x + (2 * k - 1)) % (2 * k) = 2 * ((x + (k - 1)) % k) + 1 := fun x hx => by
    rcases Nat.eq_zero_or_pos x with h0 | h0
    · subst h0
      rw [Nat.mul_zero, Nat.zero_add, Nat.zero_add, Nat.mod_eq_of_lt (a := k - 1) (by omega), Nat.mod_eq_of_lt (by omega)]; omega
    · rw [show x + (k - 1) = (x - 1) + k by omega, Nat.add_mod_right, Nat.mod_eq_of_lt (a := x - 1) (by omega),
        show 2 * x + (2 * k - 1) = (2 * (x - 1) + 1) + 2 * k by omega, Nat.add_mod_right, Nat.mod_eq_of_lt (by omega)]
  have m1 : (⟨((ind a).1 + (2 * k - 1)) % (2 * k), Nat.mod_lt _ (by omega)⟩ : Fin (2 * k)) = ⟨2 * ((a.1 + (k - 1)) % k) + 1, by have := Nat.mod_lt (a.1 + (k - 1)) hk0; omega⟩ := Fin.ext (by
    show ((ind a).1 + (2 * k - 1)) % (2 * k) = _
    rw [hind]
    exact back a.1 ha)
  have m2 : ind ⟨(a.1 + (k - 1)) % k, Nat.mod_lt _ hk0⟩ = ⟨2 * ((a.1 + (k - 1)) % k), by have := Nat.mod_lt (a.1 + (k - 1)) hk0; omega⟩ := Fin.ext (hind _)
  have c1 := hodd (2 * a.1 + 1) (by omega) (by omega) (2 * ((a.1 + 1) % k)) (by have := Nat.mod_lt (a.1 + 1) hk0; omega) (by
    rw [show 2 * a.1 + 1 + 1 = 2 * (a.1 + 1) by ring, Nat.mul_mod_mul_left])
  have c2 := hodd (2 * ((a.1 + (k - 1)) % k) + 1) (by have := Nat.mod_lt (a.1 + (k - 1)) hk0; omega) (by omega) (2 * a.1) (by omega) (by
    rw [show 2 * ((a.1 + (k - 1)) % k) + 1 + 1 = 2 * ((a.1 + (k - 1)) % k + 1) by ring, Nat.mul_mod_mul_left, Nat.mod_add_mod, show a.1 + (k - 1) + 1 = a.1 + k by omega, Nat.add_mod_right,
      Nat.mod_eq_of_lt ha])
  simp only [Nat.add_sub_cancel] at c1 c2
  rw [n1, n2, m1, m2, i0]
  linear_combination (-w / 2) * c1 + (-w / 2) * c2

end KronClassical

open KronClassical

/-- **C153** The Kron reduction of a path to the vertices `i₀ < i₁ < …` is the path through them, where the edge between two consecutive ones weighs the inverse of their distance. -/
theorem C153_path {N : ℕ} {lt : LapType} {g : Graph N ℝ} (hg : path N false lt = .ok g) {S : Solvers N} (hS : Sound S) (hist : List (Op N)) {s : GState N}
    (hs : s = runAll S hist (GState.ofGraph g)) (hc : s.lapType = .combinatorial) (hk : 2 ≤ k) (hkN : k < N) {ind : Fin k → Fin N} (hi : StrictMono ind) {R : Type} (c : Fin N → R) :
    ∃ g', kronGraph s (.rows c) ind = .ok (g', .rows fun a => c (ind a)) ∧ g'.Built ∧ g'.lapType = .combinatorial ∧
      ∀ a b, g'.W.dense a b = if a.1 + 1 = b.1 ∨ b.1 + 1 = a.1 then 1 / |((ind a).1 : ℝ) - (ind b).1| else 0 := by
  have hlt : lt = .combinatorial ∨ lt = .normalized := by
    rcases lt with _ | _ | name
    · exact Or.inl rfl
    · exact Or.inr rfl
    · rw [(C67_errors false .combinatorial N name).2] at hg; cases hg
  obtain ⟨g0, h1, hb, -, hW⟩ := C67_weights (N := N) (by omega) false hlt
  rw [hg] at h1
  obtain rfl := Except.ok.inj h1
  have hW : ∀ i j, g.W.dense i j = if i.1 + 1 = j.1 ∨ j.1 + 1 = i.1 then 1 else 0 := fun i j => by rw [hW]; simp
  obtain ⟨-, hst, -⟩ := C67_structure (N := N) (by omega) hg
  obtain ⟨hu, hcon⟩ := hst rfl
  have hnn : NonnegW g.W.dense := fun i j => by rw [hW]; split <;> norm_num
  have helim : ∃ v, ∀ a, ind a ≠ v := by
    by_contra hcon
    push Not at hcon
    have := Fintype.card_le_of_surjective ind hcon
    simp at this
    omega
  obtain ⟨g', e1, e2, e3, e4⟩ := kron_weights hS hb hist hs hc hu hnn hi.injective hk helim (fun v => ⟨⟨0, by omega⟩, connected_of_strong hcon _ _⟩) c
    (W' := Matrix.of fun a b => if a.1 + 1 = b.1 ∨ b.1 + 1 = a.1 then 1 / |((ind a).1 : ℝ) - (ind b).1| else 0)
    (fun a b => by simp only [of_apply]; rw [abs_sub_comm]; exact if_congr or_comm rfl rfl) (fun a => by simp) (by
      intro v hv a
      have hel : ∀ u (hu : u < N), (∀ a, (ind a).1 ≠ u) → diffs v u = diffs v (u + 1) := by
        intro u hu hne
        have := hv ⟨u, hu⟩ fun a h => hne a (congrArg Fin.val h)
        simp only [hW] at this
        rw [sum_diffs v ⟨u, hu⟩] at this
        simp only at this
        linarith
      simp only [hW, of_apply]
      rw [sum_diffs v (ind a)]
      simp only [ite_mul, zero_mul]
      rw [sum_path a fun b => 1 / |((ind a).1 : ℝ) - (ind b).1| * (v (ind a) - v (ind b))]
      have mono : ∀ a b : Fin k, a < b → (ind a).1 < (ind b).1 := fun a b h => hi h
      have up : (if h : a.1 + 1 < k then 1 / |((ind a).1 : ℝ) - (ind ⟨a.1 + 1, h⟩).1| * (v (ind a) - v (ind ⟨a.1 + 1, h⟩)) else 0) = - diffs v ((ind a).1 + 1) := by
        split
        · rename_i h
          have hlt := mono a ⟨a.1 + 1, h⟩ (Fin.lt_def.2 (by simp))
          obtain ⟨-, hr⟩ := diffs_run (v := v) hlt (ind ⟨a.1 + 1, h⟩).2 fun u h1 h2 => hel u (by have := (ind ⟨a.1 + 1, h⟩).2; omega) fun b hb => by
            rcases Nat.lt_or_ge a.1 b.1 with hab | hab
            · have : (ind ⟨a.1 + 1, h⟩).1 ≤ (ind b).1 := hi.monotone (Fin.le_def.2 (by simp; omega))
              omega
            · have : (ind b).1 ≤ (ind a).1 := hi.monotone (Fin.le_def.2 hab)
              omega
          simp only [Fin.eta] at hr
          have hpos : (0 : ℝ) < ((ind ⟨a.1 + 1, h⟩).1 : ℝ) - (ind a).1 := by
            rw [sub_pos]; exact_mod_cast hlt
          rw [abs_sub_comm, abs_of_pos hpos, ← neg_sub (v _) (v (ind a)), hr]
          field_simp
        · rename_i h
          have : diffs v ((ind a).1 + 1) = diffs v N := diffs_const (by have := (ind a).2; omega) fun u h1 h2 => hel u h2 fun b hb => by
            have : (ind b).1 ≤ (ind a).1 := hi.monotone (Fin.le_def.2 (by have := b.2; omega))
            omega
          rw [this]
          unfold diffs
          rw [dif_neg (by omega), neg_zero]
      have down : (if h : 0 < a.1 then 1 / |((ind a).1 : ℝ) - (ind ⟨a.1 - 1, by omega⟩).1| * (v (ind a) - v (ind ⟨a.1 - 1, by omega⟩)) else 0) = diffs v (ind a).1 := by
        split
        · rename_i h
          have hlt := mono ⟨a.1 - 1, by omega⟩ a (Fin.lt_def.2 (by simp; omega))
          obtain ⟨hq, hr⟩ := diffs_run (v := v) hlt (ind a).2 fun u h1 h2 => hel u (by have := (ind a).2; omega) fun b hb => by
            rcases Nat.lt_or_ge b.1 a.1 with hab | hab
            · have : (ind b).1 ≤ (ind ⟨a.1 - 1, by omega⟩).1 := hi.monotone (Fin.le_def.2 (by simp; omega))
              omega
            · have : (ind a).1 ≤ (ind b).1 := hi.monotone (Fin.le_def.2 hab)
              omega
          simp only [Fin.eta] at hr
          have hpos : (0 : ℝ) < ((ind a).1 : ℝ) - (ind ⟨a.1 - 1, by omega⟩).1 := by
            rw [sub_pos]; exact_mod_cast hlt
          rw [abs_of_pos hpos, hr, hq]
          field_simp
        · rename_i h
          have : diffs v 0 = diffs v (ind a).1 := diffs_const (by omega) fun u h1 h2 => hel u (by have := (ind a).2; omega) fun b hb => by
            have : (ind a).1 ≤ (ind b).1 := hi.monotone (Fin.le_def.2 (by omega))
            omega
          rw [← this]
          unfold diffs
          rw [dif_neg (by omega)]
      rw [up, down]
      ring)
  exact ⟨g', e1, e2, e3, fun a b => by rw [e4]; rfl⟩

namespace KronClassical

theorem ring_wcycle {N : ℕ} (hN : 3 ≤ N) {lt : LapType} (hlt : lt = .combinatorial ∨ lt = .normalized) {g : Graph N ℝ} (hg : ring N 1 lt = .ok g) : g.Built ∧ g.W.dense = wcycle N 1 := by
  obtain ⟨g0, h1, hb, -, hW⟩ := C68_weights (N := N) (k := 1) hN (by omega) hlt
  rw [hg] at h1
  obtain rfl := Except.ok.inj h1
  refine ⟨hb, ?_⟩
  ext i j
  rw [hW]
  unfold wcycle
  simp only [of_apply]
  have hx : ¬ ((i.1 + 1) % N = j.1 ∧ (j.1 + 1) % N = i.1) := by
    rintro ⟨h1, h2⟩
    have h3 := i.2
    have h4 := j.2
    rcases Nat.lt_or_ge (i.1 + 1) N with h | h
    · rw [Nat.mod_eq_of_lt h] at h1
      rcases Nat.lt_or_ge (j.1 + 1) N with h' | h'
      · rw [Nat.mod_eq_of_lt h'] at h2; omega
      · rw [show j.1 + 1 = N by omega, Nat.mod_self] at h2; omega
    · rw [show i.1 + 1 = N by omega, Nat.mod_self] at h1
      rw [Nat.mod_eq_of_lt (by omega)] at h2; omega
  have he : (∃ d, 1 ≤ d ∧ d ≤ 1 ∧ ((i.1 + d) % N = j.1 ∨ (j.1 + d) % N = i.1)) ↔ ((i.1 + 1) % N = j.1 ∨ (j.1 + 1) % N = i.1) :=
    ⟨fun ⟨d, a, b, c⟩ => by obtain rfl : d = 1 := by omega
                            exact c, fun h => ⟨1, le_rfl, le_rfl, h⟩⟩
  simp only [he]
  by_cases a : (i.1 + 1) % N = j.1
  · rw [if_pos (Or.inl a), if_pos a, if_neg fun b => hx ⟨a, b⟩, add_zero]
  · by_cases b : (j.1 + 1) % N = i.1
    · rw [if_pos (Or.inr b), if_neg a, if_pos b, zero_add]
    · rw [if_neg (by tauto), if_neg a, if_neg b, add_zero]

end KronClassical

/-- **C153** The Kron reduction of a cycle of even length to every second vertex is the cycle of half the length, with half the weights. -/
theorem C153_ring {m : ℕ} (hm : 2 ≤ m) {lt : LapType} (hlt : lt = .combinatorial ∨ lt = .normalized) {g : Graph (2 * m) ℝ} (hg : ring (2 * m) 1 lt = .ok g) {S : Solvers (2 * m)} (hS : Sound S)
    (hist : List (Op (2 * m))) {s : GState (2 * m)} (hs : s = runAll S hist (GState.ofGraph g)) (hc : s.lapType = .combinatorial) {R : Type} (c : Fin (2 * m) → R) :
    ∃ g', kronGraph s (.rows c) (fun a : Fin m => ⟨2 * a.1, by omega⟩) = .ok (g', .rows fun a => c ⟨2 * a.1, by omega⟩) ∧ g'.Built ∧ g'.lapType = .combinatorial ∧
      g'.W.dense = wcycle m (1 / 2) := by
  obtain ⟨hb, hW⟩ := ring_wcycle (by omega) hlt hg
  exact cycle_step hm rfl hS hb hist hs hc one_pos hW rfl (fun _ => rfl) c

/-- **C153** The Kron reduction of a complete graph to `k` of its vertices is the complete graph, with the weights `N / k`. -/
theorem C153_full {N : ℕ} {lt : LapType} (hlt : lt = .combinatorial ∨ lt = .normalized) {g : Graph N ℝ} (hg : fullConnected N lt = .ok g) {S : Solvers N} (hS : Sound S) (hist : List (Op N))
    {s : GState N} (hs : s = runAll S hist (GState.ofGraph g)) (hc : s.lapType = .combinatorial) (hk : 2 ≤ k) (hkN : k < N) {ind : Fin k → Fin N} (hi : Function.Injective ind) {R : Type}
    (c : Fin N → R) :
    ∃ g', kronGraph s (.rows c) ind = .ok (g', .rows fun a => c (ind a)) ∧ g'.Built ∧ g'.lapType = .combinatorial ∧ ∀ a b, g'.W.dense a b = if a = b then 0 else (N : ℝ) / k := by
  obtain ⟨g0, h1, hb, -, hW, hu, hcon, -⟩ := C72_full N hlt
  rw [hg] at h1
  obtain rfl := Except.ok.inj h1
  have hnn : NonnegW g.W.dense := fun i j => by rw [hW]; split <;> norm_num
  have helim : ∃ v, ∀ a, ind a ≠ v := by
    by_contra hcon
    push Not at hcon
    have := Fintype.card_le_of_surjective ind hcon
    simp at this
    omega
  have hN0 : (0 : ℝ) < N := by exact_mod_cast (by omega : 0 < N)
  have hk0 : (0 : ℝ) < k := by exact_mod_cast (by omega : 0 < k)
  have hsum : ∀ {p : ℕ} (w : ℝ) (i : Fin p) (x : Fin p → ℝ), ∑ j, (if i = j then 0 else w) * (x i - x j) = w * (p * x i - ∑ j, x j) := by
    intro p w i x
    have : ∀ j, (if i = j then 0 else w) * (x i - x j) = w * x i - w * x j := fun j => by
      split
      · rename_i h; rw [h]; ring
      · ring
    rw [Finset.sum_congr rfl fun j _ => this j, Finset.sum_sub_distrib, ← Finset.mul_sum, ← Finset.mul_sum, Finset.sum_const, Finset.card_univ, Fintype.card_fin, nsmul_eq_mul]
    ring
  obtain ⟨g', e1, e2, e3, e4⟩ := kron_weights hS hb hist hs hc hu hnn hi hk helim (fun v => ⟨⟨0, by omega⟩, connected_of_strong hcon _ _⟩) c
    (W' := Matrix.of fun a b => if a = b then 0 else (N : ℝ) / k) (fun a b => by simp only [of_apply]; exact if_congr eq_comm rfl rfl) (fun a => by simp) (by
      intro v hv a
      have hel : ∀ u : Unlabelled (kept ind), v u.1 = (∑ y, v y) / N := fun u => by
        have := hv u.1 ((kept_false_iff ind u.1).1 u.2)
        simp only [hW] at this
        rw [hsum 1 u.1 v] at this
        field_simp
        linarith
      have h2 := sum_kept hi v
      rw [Finset.sum_congr rfl fun u _ => hel u, Finset.sum_const, Finset.card_univ, nsmul_eq_mul] at h2
      have h3 := sum_kept hi (fun _ => (1 : ℝ))
      simp only [Finset.sum_const, Finset.card_univ, Fintype.card_fin, nsmul_eq_mul, mul_one] at h3
      simp only [hW, of_apply]
      rw [hsum 1 (ind a) v, hsum ((N : ℝ) / k) a fun b => v (ind b)]
      have h4 : (Fintype.card (Unlabelled (kept ind)) : ℝ) = N - k := by linarith
      rw [h4] at h2
      have h5 : (k : ℝ) * (∑ y, v y) = N * ∑ b, v (ind b) := by
        field_simp at h2
        linarith
      field_simp
      linarith)
  exact ⟨g', e1, e2, e3, fun a b => by rw [e4]; rfl⟩

/-- **C153** The Kron reduction of a star to its leaves is the complete graph, with the weights `1 / (N - 1)`. -/
theorem C153_star {m : ℕ} (hm : 2 ≤ m) {lt : LapType} (hlt : lt = .combinatorial ∨ lt = .normalized) {g : Graph (m + 1) ℝ} (hg : Gen.star (m + 1) lt = .ok g) {S : Solvers (m + 1)} (hS : Sound S)
    (hist : List (Op (m + 1))) {s : GState (m + 1)} (hs : s = runAll S hist (GState.ofGraph g)) (hc : s.lapType = .combinatorial) {R : Type} (c : Fin (m + 1) → R) :
    ∃ g', kronGraph s (.rows c) Fin.succ = .ok (g', .rows fun a => c a.succ) ∧ g'.Built ∧ g'.lapType = .combinatorial ∧ ∀ a b, g'.W.dense a b = if a = b then 0 else 1 / (m : ℝ) := by
  obtain ⟨g0, h1, hb, -, hW⟩ := C71_star (N := m + 1) (by omega) hlt
  rw [hg] at h1
  obtain rfl := Except.ok.inj h1
  have hnn : NonnegW g.W.dense := fun i j => by rw [hW]; split <;> norm_num
  have hu : Undirected g.W.dense := fun i j => by rw [hW, hW]; exact if_congr or_comm rfl rfl
  have hm0 : (0 : ℝ) < m := by exact_mod_cast (by omega : 0 < m)
  have hlink : ∀ v, Linked g.W.dense v 0 := fun v => by
    refine Fin.cases .refl (fun a => .single (Or.inl ?_)) v
    rw [hW, if_pos (Or.inr ⟨rfl, by simp⟩)]
    exact one_ne_zero
  obtain ⟨g', e1, e2, e3, e4⟩ := kron_weights hS hb hist hs hc hu hnn (Fin.succ_injective m) hm ⟨0, fun a => Fin.succ_ne_zero a⟩ (fun v => ⟨⟨0, by omega⟩, (hlink v).trans (Linked.symm (hlink _))⟩) c
    (W' := Matrix.of fun a b => if a = b then 0 else 1 / (m : ℝ)) (fun a b => by simp only [of_apply]; exact if_congr eq_comm rfl rfl) (fun a => by simp) (by
      intro v hv a
      have h0 := hv 0 fun a => Fin.succ_ne_zero a
      rw [Fin.sum_univ_succ] at h0 ⊢
      simp only [hW, of_apply] at h0 ⊢
      simp only [Fin.val_zero, ne_eq, not_true_eq_false, and_false, false_and, or_self, if_false, zero_mul, zero_add, Fin.val_succ, Nat.add_eq_zero_iff, one_ne_zero, not_false_eq_true, and_self,
        true_or, or_true, if_true, one_mul, Finset.sum_const_zero, add_zero] at h0 ⊢
      rw [Finset.sum_sub_distrib, Finset.sum_const, Finset.card_univ, Fintype.card_fin, nsmul_eq_mul] at h0
      have : ∀ j : Fin m, (if a = j then 0 else 1 / (m : ℝ)) * (v a.succ - v j.succ) = 1 / m * v a.succ - 1 / m * v j.succ := fun j => by
        split
        · rename_i h; rw [h]; ring
        · ring
      rw [Finset.sum_congr rfl fun j _ => this j, Finset.sum_sub_distrib, ← Finset.mul_sum, ← Finset.mul_sum, Finset.sum_const, Finset.card_univ, Fintype.card_fin, nsmul_eq_mul]
      field_simp
      linarith)
  exact ⟨g', e1, e2, e3, fun a b => by rw [e4]; rfl⟩

/-- the hypotheses are met: the path with five vertices is reduced to its vertices 0, 3 and 4 -/
example : ∃ (S : Solvers 5) (g : Graph 5 ℝ) (g' : Graph 3 ℝ), Sound S ∧ path 5 false .combinatorial = .ok g ∧
    kronGraph (GState.ofGraph g) (.rows fun i : Fin 5 => i.1) ![0, 3, 4] = .ok (g', .rows ![0, 3, 4]) ∧ g'.W.dense 0 1 = 1 / 3 ∧ g'.W.dense 1 2 = 1 ∧ g'.W.dense 0 2 = 0 := by
  obtain ⟨S, hS, -⟩ := exists_sound 5
  obtain ⟨g, hg, hb, hl, -⟩ := C67_weights (N := 5) (by omega) false (lt := .combinatorial) (.inl rfl)
  have hmono : StrictMono (![0, 3, 4] : Fin 3 → Fin 5) := by
    intro a b h
    fin_cases a <;> fin_cases b <;> simp_all
  obtain ⟨g', h1, -, -, h2⟩ := C153_path hg hS [] rfl ((reach_inv hS hb []).2.2.trans hl) (by omega) (by omega) hmono fun i => i.1
  refine ⟨S, g, g', hS, hg, ?_, ?_, ?_, ?_⟩
  · rw [show (![0, 3, 4] : Fin 3 → ℕ) = fun a => ((![0, 3, 4] : Fin 3 → Fin 5) a).1 by funext a; fin_cases a <;> rfl]
    exact h1
  · rw [h2]; norm_num
  · rw [h2]
    have : ((![0, 3, 4] : Fin 3 → Fin 5) 2) = 4 := rfl
    norm_num [this]
  · rw [h2]; norm_num

end PyGSP
