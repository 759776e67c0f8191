import Verif.Props.Generators
import Verif.Spec.Generators

/-!
# C69: Torus
-/

namespace PyGSP

open Matrix Spec Gen

namespace Gen

theorem reach_steps {n : ℕ} {M : Matrix (Fin n) (Fin n) ℝ} (f : ℕ → Fin n) (m : ℕ) (h : ∀ i < m, M (f i) (f (i + 1)) ≠ 0) :
    Reach M (f 0) (f m) := by
  induction m with
  | zero => exact .refl
  | succ m ih => exact (ih fun i hi => h i (by omega)).tail (h m (by omega))

theorem sum_range_mul (M N : ℕ) (f : ℕ → ℝ) :
    ∑ j ∈ Finset.range (M * N), f j = ∑ b ∈ Finset.range M, ∑ a ∈ Finset.range N, f (b * N + a) := by
  induction M with
  | zero => simp
  | succ M ih => rw [Nat.succ_mul, Finset.sum_range_add, ih, Finset.sum_range_succ]

theorem div_mod_iff {N i p J : ℕ} (hp : p < N) : i * N + p = J ↔ i = J / N ∧ p = J % N := by
  constructor
  · rintro rfl
    rw [Nat.mul_comm, Nat.mul_add_div (by omega), Nat.div_eq_of_lt hp, Nat.mul_add_mod, Nat.mod_eq_of_lt hp]
    simp
  · rintro ⟨rfl, rfl⟩
    rw [Nat.mul_comm]; exact Nat.div_add_mod J N

/-- a double sum of indicators that fix both counters -/
theorem sum_fixed {M N J : ℕ} (hJ : J < M * N) (Q : ℕ → ℕ → Prop) [∀ a b, Decidable (Q a b)] :
    (∑ i ∈ Finset.range M, ∑ p ∈ Finset.range N, if i * N + p = J ∧ Q i p then (1 : ℝ) else 0) =
      if Q (J / N) (J % N) then 1 else 0 := by
  have hN : 0 < N := by
    rcases Nat.eq_zero_or_pos N with rfl | h
    · omega
    · exact h
  have hb : J / N < M := Nat.div_lt_of_lt_mul (by rw [Nat.mul_comm]; exact hJ)
  rw [Finset.sum_eq_single (J / N)]
  · rw [Finset.sum_eq_single (J % N)]
    · have : J / N * N + J % N = J := (div_mod_iff (Nat.mod_lt _ hN)).2 ⟨rfl, rfl⟩
      simp only [this, true_and]
    · intro p hp hne
      rw [if_neg]
      rintro ⟨h, -⟩
      exact hne ((div_mod_iff (Finset.mem_range.1 hp)).1 h).2
    · intro h
      exact absurd (Finset.mem_range.2 (Nat.mod_lt _ hN)) h
  · intro i _ hne
    refine Finset.sum_eq_zero fun p hp => if_neg ?_
    rintro ⟨h, -⟩
    exact hne ((div_mod_iff (Finset.mem_range.1 hp)).1 h).1
  · intro h
    exact absurd (Finset.mem_range.2 hb) h

/-- the predecessor on a cycle -/
def pred (N p : ℕ) : ℕ := if p = 0 then N - 1 else p - 1

theorem map_pred {N : ℕ} (hN : 0 < N) : [N - 1] ++ List.range (N - 1) = (List.range N).map (pred N) := by
  obtain ⟨m, rfl⟩ : ∃ m, N = m + 1 := ⟨N - 1, by omega⟩
  rw [List.range_succ_eq_map, List.map_cons, List.map_map]
  simp only [Nat.add_sub_cancel, List.singleton_append, List.cons.injEq]
  refine ⟨by simp [pred], ?_⟩
  rw [List.map_congr_left (g := id), List.map_id]
  intro a _
  simp [pred]

theorem pred_lt {N p : ℕ} (hp : p < N) : pred N p < N := by
  unfold pred
  split <;> omega

theorem pred_eq_iff {N a b : ℕ} (ha : a < N) (hb : b < N) : pred N b = a ↔ (a + 1) % N = b := by
  rw [add_mod_eq ha (by omega)]
  unfold pred
  split <;> split <;> omega

end Gen

/-- the lists of `Torus` -/
private theorem torus_bound {Nv Mv : ℕ} (hN : 0 < Nv) (hM : 0 < Mv) :
    ∀ e ∈ ((List.range Mv).flatMap fun i : ℕ =>
        ones (([Nv - 1] ++ List.range (Nv - 1) ++ List.range Nv).map (i * Nv + ·)) ((List.range Nv ++ [Nv - 1] ++ List.range (Nv - 1)).map (i * Nv + ·))) ++
      ((List.range (Mv - 1)).flatMap fun i : ℕ =>
        ones ((List.range Nv).map (i * Nv + ·) ++ (List.range Nv).map ((i + 1) * Nv + ·))
          ((List.range Nv).map ((i + 1) * Nv + ·) ++ (List.range Nv).map (i * Nv + ·))) ++
      ones (List.range Nv ++ (List.range Nv).map ((Mv - 1) * Nv + ·)) ((List.range Nv).map ((Mv - 1) * Nv + ·) ++ List.range Nv),
      e.1 < Mv * Nv ∧ e.2.1 < Mv * Nv := by
  have key : ∀ i < Mv, ∀ p < Nv, i * Nv + p < Mv * Nv := by
    intro i hi p hp
    have : (i + 1) * Nv ≤ Mv * Nv := Nat.mul_le_mul_right _ hi
    rw [Nat.succ_mul] at this
    omega
  have key0 : ∀ p < Nv, p < Mv * Nv := fun p hp => by simpa using key 0 hM p hp
  intro e he
  rcases List.mem_append.1 he with he | he
  · rcases List.mem_append.1 he with he | he
    · rw [List.mem_flatMap] at he
      obtain ⟨i, hi, he⟩ := he
      rw [List.mem_range] at hi
      have := mem_ones he
      simp only [List.mem_map, List.mem_append, List.mem_range, List.mem_singleton] at this
      obtain ⟨⟨a, ha, ha'⟩, b, hb, hb'⟩ := this
      rw [← ha', ← hb']
      exact ⟨key i hi a (by omega), key i hi b (by omega)⟩
    · rw [List.mem_flatMap] at he
      obtain ⟨i, hi, he⟩ := he
      rw [List.mem_range] at hi
      have := mem_ones he
      simp only [List.mem_map, List.mem_append, List.mem_range] at this
      obtain ⟨h1, h2⟩ := this
      constructor
      · rcases h1 with ⟨a, ha, h⟩ | ⟨a, ha, h⟩
        · rw [← h]; exact key i (by omega) a ha
        · rw [← h]; exact key (i + 1) (by omega) a ha
      · rcases h2 with ⟨a, ha, h⟩ | ⟨a, ha, h⟩
        · rw [← h]; exact key (i + 1) (by omega) a ha
        · rw [← h]; exact key i (by omega) a ha
  · have := mem_ones he
    simp only [List.mem_map, List.mem_append, List.mem_range] at this
    obtain ⟨h1, h2⟩ := this
    constructor
    · rcases h1 with h | ⟨a, ha, h⟩
      · exact key0 _ h
      · rw [← h]; exact key (Mv - 1) (by omega) a ha
    · rcases h2 with ⟨a, ha, h⟩ | h
      · rw [← h]; exact key (Mv - 1) (by omega) a ha
      · exact key0 _ h

/-- **The weights of `Torus(Nv, Mv)`**: the vertex `b * Nv + a` is the point `(a, b)` of the product of a cycle of `Nv` vertices and
a cycle of `Mv` vertices, and the weights are those of the Cartesian product. -/
theorem C69_weights {Nv Mv : ℕ} (hN : 0 < Nv) (hM : 0 < Mv) {lt : LapType} (hlt : lt = .combinatorial ∨ lt = .normalized) :
    ∃ g, torus Nv Mv lt = .ok g ∧ g.Built ∧ g.lapType = lt ∧ ∀ i j, g.W.dense i j =
      (if i.1 / Nv = j.1 / Nv then cycle Nv (i.1 % Nv) (j.1 % Nv) else 0) +
        if i.1 % Nv = j.1 % Nv then cycle Mv (i.1 / Nv) (j.1 / Nv) else 0 := by
  obtain ⟨g, h1, h2, h3, h4⟩ := ofEdges_ok (torus_bound hN hM) hlt
  refine ⟨g, h1, h2, h4, fun I J => ?_⟩
  have hI := I.2
  have hJ := J.2
  have mI : I.1 % Nv < Nv := Nat.mod_lt _ hN
  have mJ : J.1 % Nv < Nv := Nat.mod_lt _ hN
  have dI : I.1 / Nv < Mv := (Nat.div_lt_iff_lt_mul hN).2 I.2
  have dJ : J.1 / Nv < Mv := (Nat.div_lt_iff_lt_mul hN).2 J.2
  rw [h3, weightAt_append, weightAt_append, weightAt_flatMap, weightAt_flatMap]
  -- the rings
  have hr : ∀ i, weightAt (ones (([Nv - 1] ++ List.range (Nv - 1) ++ List.range Nv).map (i * Nv + ·))
      ((List.range Nv ++ [Nv - 1] ++ List.range (Nv - 1)).map (i * Nv + ·))) I J =
      (∑ p ∈ Finset.range Nv, if i * Nv + p = J.1 ∧ i * Nv + pred Nv p = I.1 then (1 : ℝ) else 0) +
      ∑ p ∈ Finset.range Nv, if i * Nv + p = I.1 ∧ i * Nv + pred Nv p = J.1 then (1 : ℝ) else 0 := by
    intro i
    rw [List.append_assoc (List.range Nv), map_pred hN, List.map_append, List.map_append, List.map_map, ones_append (by simp),
      weightAt_append, weightAt_ones, weightAt_ones]
    congr 1
    exact Finset.sum_congr rfl fun p _ => if_congr and_comm rfl rfl
  have hb : ∀ i, weightAt (ones ((List.range Nv).map (i * Nv + ·) ++ (List.range Nv).map ((i + 1) * Nv + ·))
      ((List.range Nv).map ((i + 1) * Nv + ·) ++ (List.range Nv).map (i * Nv + ·))) I J =
      (∑ p ∈ Finset.range Nv, if i * Nv + p = I.1 ∧ (i + 1) * Nv + p = J.1 then (1 : ℝ) else 0) +
      ∑ p ∈ Finset.range Nv, if i * Nv + p = J.1 ∧ (i + 1) * Nv + p = I.1 then (1 : ℝ) else 0 := by
    intro i
    rw [ones_append (by simp), weightAt_append, weightAt_ones, weightAt_ones]
    congr 1
    exact Finset.sum_congr rfl fun p _ => if_congr and_comm rfl rfl
  have hc : weightAt (ones (List.range Nv ++ (List.range Nv).map ((Mv - 1) * Nv + ·)) ((List.range Nv).map ((Mv - 1) * Nv + ·) ++ List.range Nv)) I J =
      (∑ p ∈ Finset.range Nv, if (Mv - 1) * Nv + p = I.1 ∧ 0 * Nv + p = J.1 then (1 : ℝ) else 0) +
      ∑ p ∈ Finset.range Nv, if (Mv - 1) * Nv + p = J.1 ∧ 0 * Nv + p = I.1 then (1 : ℝ) else 0 := by
    rw [ones_append (by simp), weightAt_append]
    have e1 := weightAt_ones Nv id ((Mv - 1) * Nv + ·) I J
    have e2 := weightAt_ones Nv ((Mv - 1) * Nv + ·) id I J
    rw [List.map_id] at e1 e2
    rw [e1, e2, add_comm]
    simp only [zero_mul, zero_add, id]
    congr 1
    exact Finset.sum_congr rfl fun p _ => if_congr and_comm rfl rfl
  rw [hc, Finset.sum_congr rfl fun i _ => hr i, Finset.sum_congr rfl fun i _ => hb i, Finset.sum_add_distrib,
    Finset.sum_add_distrib, sum_fixed hJ (fun i p => i * Nv + pred Nv p = I.1), sum_fixed hI (fun i p => i * Nv + pred Nv p = J.1)]
  -- the columns
  have hcol : ∀ K L : ℕ, (∑ i ∈ Finset.range (Mv - 1), ∑ p ∈ Finset.range Nv, if i * Nv + p = K ∧ (i + 1) * Nv + p = L then (1 : ℝ) else 0) +
      (∑ p ∈ Finset.range Nv, if (Mv - 1) * Nv + p = K ∧ 0 * Nv + p = L then (1 : ℝ) else 0) =
      ∑ i ∈ Finset.range Mv, ∑ p ∈ Finset.range Nv, if i * Nv + p = K ∧ ((i + 1) % Mv) * Nv + p = L then (1 : ℝ) else 0 := by
    intro K L
    obtain ⟨m, rfl⟩ : ∃ m, Mv = m + 1 := ⟨Mv - 1, by omega⟩
    rw [Finset.sum_range_succ, Nat.add_sub_cancel, Nat.mod_self]
    congr 1
    refine Finset.sum_congr rfl fun i hi => ?_
    rw [Finset.mem_range] at hi
    rw [Nat.mod_eq_of_lt (by omega)]
  have e := congrArg₂ (fun x y : ℝ => x + y) (hcol I J) (hcol J I)
  beta_reduce at e
  rw [sum_fixed hI (fun i p => ((i + 1) % Mv) * Nv + p = J.1), sum_fixed hJ (fun i p => ((i + 1) % Mv) * Nv + p = I.1)] at e
  have hfin : ∀ (a b c d : ℝ) (r s : ℝ), a + b + (c + d) = r + s → ∀ q t : ℝ, q + t + (a + c) + (b + d) = q + t + (r + s) := by
    intros; linarith
  rw [hfin _ _ _ _ _ _ e]
  have q1 : ∀ A B : ℕ, A % Nv < Nv → B % Nv < Nv → ((B / Nv * Nv + pred Nv (B % Nv) = A) ↔ (A / Nv = B / Nv ∧ (A % Nv + 1) % Nv = B % Nv)) := by
    intro A B hA hB
    rw [div_mod_iff (pred_lt hB), pred_eq_iff hA hB]
    exact and_congr_left fun _ => eq_comm
  have q2 : ∀ A B : ℕ, A % Nv < Nv → (((A / Nv + 1) % Mv * Nv + A % Nv = B) ↔ (A % Nv = B % Nv ∧ (A / Nv + 1) % Mv = B / Nv)) := by
    intro A B hA
    rw [div_mod_iff hA, and_comm]
  rw [if_congr (q1 I J mI mJ) rfl rfl, if_congr (q1 J I mJ mI) rfl rfl, if_congr (q2 I J mI) rfl rfl, if_congr (q2 J I mJ) rfl rfl]
  unfold cycle
  have hs1 : J.1 / Nv = I.1 / Nv ↔ I.1 / Nv = J.1 / Nv := eq_comm
  have hs2 : J.1 % Nv = I.1 % Nv ↔ I.1 % Nv = J.1 % Nv := eq_comm
  simp only [hs1, hs2, ite_and]
  congr 1
  · split <;> simp
  · split <;> simp

namespace Gen

theorem cycle_symm (N a b : ℕ) : cycle N a b = cycle N b a := by unfold cycle; rw [add_comm]

theorem cycle_nonneg (N a b : ℕ) : 0 ≤ cycle N a b := by
  unfold cycle
  split <;> split <;> norm_num

theorem cycle_step {N a : ℕ} (h : a + 1 < N) : 0 < cycle N a (a + 1) := by
  unfold cycle
  rw [if_pos (Nat.mod_eq_of_lt h)]
  split <;> norm_num

theorem cycle_self {N a : ℕ} (h : 2 ≤ N) (ha : a < N) : cycle N a a = 0 := by
  unfold cycle
  rw [if_neg, add_zero]
  rw [add_mod_eq ha (by omega)]
  split <;> omega

theorem cycle_cases {N a b : ℕ} (h : 3 ≤ N) (ha : a < N) (hb : b < N) : cycle N a b = 0 ∨ cycle N a b = 1 := by
  unfold cycle
  rw [add_mod_eq ha (by omega), add_mod_eq hb (by omega)]
  by_cases h1 : (if a + 1 < N then a + 1 else a + 1 - N) = b
  · rw [if_pos h1]
    right
    rw [if_neg, add_zero]
    split at h1 <;> split <;> omega
  · rw [if_neg h1, zero_add]
    by_cases h2 : (if b + 1 < N then b + 1 else b + 1 - N) = a
    · exact .inr (if_pos h2)
    · exact .inl (if_neg h2)

/-- every vertex of a cycle has total weight two -/
theorem cycle_sum {N a : ℕ} (ha : a < N) : ∑ b ∈ Finset.range N, cycle N a b = 2 := by
  unfold cycle
  rw [Finset.sum_add_distrib, sum_unique N (fun b => (a + 1) % N = b) (fun p _ q _ h h' => by rw [← h, h']), if_pos,
    sum_unique N (fun b => (b + 1) % N = a), if_pos]
  · norm_num
  · refine ⟨pred N a, pred_lt ha, ?_⟩
    exact (pred_eq_iff (pred_lt ha) ha).1 rfl
  · intro p hp q hq h h'
    exact ((pred_eq_iff hp ha).2 h).symm.trans ((pred_eq_iff hq ha).2 h')
  · exact ⟨(a + 1) % N, Nat.mod_lt _ (by omega), rfl⟩

/-- the number of neighbours when the weights are zero or one -/
theorem card_eq_sum {n : ℕ} {M : Matrix (Fin n) (Fin n) ℝ} (h : ∀ i j, M i j = 0 ∨ M i j = 1) (i : Fin n) :
    (((Finset.univ.filter fun j => M i j ≠ 0).card : ℕ) : ℝ) = ∑ j, M i j := by
  rw [Finset.card_filter]
  push_cast
  refine Finset.sum_congr rfl fun j _ => ?_
  rcases h i j with e | e <;> simp [e]

end Gen

/-- **`Torus(Nv, Mv)` is a torus**: undirected, connected, every vertex has weighted degree four; with at least three vertices in
each direction the weights are zero or one, there are no loops, every vertex has exactly four neighbours and there are `2 Nv Mv`
edges. -/
theorem C69_structure {Nv Mv : ℕ} (hN : 0 < Nv) (hM : 0 < Mv) {lt : LapType} (hlt : lt = .combinatorial ∨ lt = .normalized)
    {g : Graph (Mv * Nv) ℝ} (h : torus Nv Mv lt = .ok g) :
    Undirected g.W.dense ∧ StronglyConnected g.W.dense ∧ (∀ i, ∑ j, g.W.dense i j = 4) ∧
      (3 ≤ Nv → 3 ≤ Mv → (∀ i j, g.W.dense i j = 0 ∨ g.W.dense i j = 1) ∧ (∀ i, g.W.dense i i = 0) ∧
        (∀ i, (Finset.univ.filter fun j => g.W.dense i j ≠ 0).card = 4) ∧ g.nEdges = 2 * (Nv * Mv)) := by
  obtain ⟨g', h1, hb, -, hd⟩ := C69_weights hN hM hlt
  rw [h] at h1
  obtain rfl := Except.ok.inj h1
  have mlt : ∀ i : Fin (Mv * Nv), i.1 % Nv < Nv := fun i => Nat.mod_lt _ hN
  have dlt : ∀ i : Fin (Mv * Nv), i.1 / Nv < Mv := fun i => (Nat.div_lt_iff_lt_mul hN).2 i.2
  have hu : Undirected g.W.dense := fun i j => by
    rw [hd, hd, cycle_symm Nv, cycle_symm Mv]
    congr 1 <;> exact if_congr eq_comm rfl rfl
  have hsum : ∀ i, ∑ j, g.W.dense i j = 4 := by
    intro i
    rw [Finset.sum_congr rfl fun j _ => hd i j, Fin.sum_univ_eq_sum_range (n := Mv * Nv) (fun j =>
      (if i.1 / Nv = j / Nv then cycle Nv (i.1 % Nv) (j % Nv) else 0) + if i.1 % Nv = j % Nv then cycle Mv (i.1 / Nv) (j / Nv) else 0),
      sum_range_mul]
    have e : ∀ b ∈ Finset.range Mv, ∀ a ∈ Finset.range Nv,
        ((if i.1 / Nv = (b * Nv + a) / Nv then cycle Nv (i.1 % Nv) ((b * Nv + a) % Nv) else 0) +
          if i.1 % Nv = (b * Nv + a) % Nv then cycle Mv (i.1 / Nv) ((b * Nv + a) / Nv) else 0) =
        (if i.1 / Nv = b then cycle Nv (i.1 % Nv) a else 0) + if i.1 % Nv = a then cycle Mv (i.1 / Nv) b else 0 := by
      intro b _ a ha
      obtain ⟨q1, q2⟩ := (div_mod_iff (J := b * Nv + a) (Finset.mem_range.1 ha)).1 rfl
      rw [← q1, ← q2]
    rw [Finset.sum_congr rfl fun b hb => Finset.sum_congr rfl fun a ha => e b hb a ha]
    simp only [Finset.sum_add_distrib]
    have e1 : ∑ b ∈ Finset.range Mv, ∑ a ∈ Finset.range Nv, (if i.1 / Nv = b then cycle Nv (i.1 % Nv) a else 0) = 2 := by
      rw [Finset.sum_eq_single (i.1 / Nv)]
      · simp only [if_true]
        exact cycle_sum (mlt i)
      · intro b _ hne
        exact Finset.sum_eq_zero fun a _ => if_neg (Ne.symm hne)
      · intro hn
        exact absurd (Finset.mem_range.2 (dlt i)) hn
    have e2 : ∑ b ∈ Finset.range Mv, ∑ a ∈ Finset.range Nv, (if i.1 % Nv = a then cycle Mv (i.1 / Nv) b else 0) = 2 := by
      rw [← cycle_sum (dlt i)]
      refine Finset.sum_congr rfl fun b _ => ?_
      rw [Finset.sum_ite_eq, if_pos (Finset.mem_range.2 (mlt i))]
    rw [e1, e2]
    norm_num
  refine ⟨hu, ?_, hsum, fun h3 h4 => ?_⟩
  · have hpos : 0 < Mv * Nv := Nat.mul_pos hM hN
    refine connected_from_zero hu hpos fun v => ?_
    have key : ∀ i < Mv, ∀ p < Nv, i * Nv + p < Mv * Nv := by
      intro i hi p hp
      have : (i + 1) * Nv ≤ Mv * Nv := Nat.mul_le_mul_right _ hi
      rw [Nat.succ_mul] at this
      omega
    have r1 : Reach g.W.dense ⟨0, hpos⟩ ⟨v.1 / Nv * Nv, by have := key _ (dlt v) 0 hN; omega⟩ := by
      have := reach_steps (M := g.W.dense) (fun b => if hb : b < Mv then ⟨b * Nv, by have := key _ hb 0 hN; omega⟩ else ⟨0, hpos⟩)
        (v.1 / Nv) (by
          intro i hi
          have := dlt v
          rw [dif_pos (show i < Mv by omega), dif_pos (show i + 1 < Mv by omega), hd]
          simp only [Nat.mul_mod_left, if_true, Nat.mul_div_cancel _ hN]
          have := cycle_step (N := Mv) (a := i) (by omega)
          have h2 := cycle_nonneg Nv 0 0
          split
          · linarith
          · linarith)
      rw [dif_pos hM, dif_pos (dlt v)] at this
      simpa using this
    refine r1.trans ?_
    have r2 := reach_steps (M := g.W.dense) (fun a => if ha : a < Nv then ⟨v.1 / Nv * Nv + a, key _ (dlt v) a ha⟩ else ⟨0, hpos⟩)
      (v.1 % Nv) (by
        intro i hi
        have := mlt v
        have q : ∀ a, a < Nv → (v.1 / Nv * Nv + a) / Nv = v.1 / Nv ∧ (v.1 / Nv * Nv + a) % Nv = a := fun a ha => by
          have := (div_mod_iff (i := v.1 / Nv) (J := v.1 / Nv * Nv + a) ha).1 rfl
          exact ⟨this.1.symm, this.2.symm⟩
        rw [dif_pos (show i < Nv by omega), dif_pos (show i + 1 < Nv by omega), hd]
        simp only [(q i (by omega)).1, (q i (by omega)).2, (q (i + 1) (by omega)).1, (q (i + 1) (by omega)).2, if_true]
        rw [if_neg (by omega)]
        have := cycle_step (N := Nv) (a := i) (by omega)
        linarith)
    rw [dif_pos hN, dif_pos (mlt v)] at r2
    have e0 : (⟨v.1 / Nv * Nv + v.1 % Nv, key _ (dlt v) _ (mlt v)⟩ : Fin (Mv * Nv)) = v :=
      Fin.ext ((div_mod_iff (mlt v)).2 ⟨rfl, rfl⟩)
    rw [e0] at r2
    exact r2
  · have h01 : ∀ i j, g.W.dense i j = 0 ∨ g.W.dense i j = 1 := by
      intro i j
      rw [hd]
      by_cases q1 : i.1 / Nv = j.1 / Nv
      · rw [if_pos q1]
        by_cases q2 : i.1 % Nv = j.1 % Nv
        · rw [if_pos q2, q1, q2, cycle_self (by omega) (mlt j), cycle_self (by omega) (dlt j)]
          simp
        · rw [if_neg q2, add_zero]
          exact cycle_cases h3 (mlt i) (mlt j)
      · rw [if_neg q1, zero_add]
        split
        · exact cycle_cases h4 (dlt i) (dlt j)
        · exact .inl rfl
    have hl : ∀ i, g.W.dense i i = 0 := fun i => by
      rw [hd, if_pos rfl, if_pos rfl, cycle_self (by omega) (mlt i), cycle_self (by omega) (dlt i), add_zero]
    have hdeg : ∀ i, (Finset.univ.filter fun j => g.W.dense i j ≠ 0).card = 4 := by
      intro i
      have := card_eq_sum h01 i
      rw [hsum] at this
      exact_mod_cast this
    refine ⟨h01, hl, hdeg, ?_⟩
    have := two_edges_card hu hl
    rw [C02_n_edges_undirected g hb hu]
    rw [Finset.sum_congr rfl fun i _ => hdeg i, Finset.sum_const, Finset.card_univ, Fintype.card_fin, smul_eq_mul] at this
    have : 2 * (edges g.W.dense).card = 2 * (2 * (Nv * Mv)) := by rw [this]; ring
    omega

example : ∃ g, torus 3 4 .combinatorial = .ok g ∧ g.nEdges = 24 := by
  obtain ⟨g, h1, -⟩ := C69_weights (Nv := 3) (Mv := 4) (by norm_num) (by norm_num) (.inl rfl)
  exact ⟨g, h1, ((C69_structure (by norm_num) (by norm_num) (.inl rfl) h1).2.2.2 (by norm_num) (by norm_num)).2.2.2⟩

end PyGSP
