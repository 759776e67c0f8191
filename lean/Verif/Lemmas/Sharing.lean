import Verif.Model.Sharing
import Verif.Lemmas.Constructor
import Mathlib.Data.List.Sort
import Mathlib.Data.List.FinRange
import Mathlib.Tactic.Ring
import Mathlib.Tactic.Linarith

/-! Reading and writing CSR arrays. -/

namespace PyGSP.Sharing

section rows

variable {β : Type}

/-- rows `0 .. k-1` of arrays `B` with row pointers `q` -/
def rowsOf (B : List β) (q : ℕ → ℕ) (k : ℕ) : List (ℕ × β) :=
  (List.range k).flatMap fun i => ((B.drop (q i)).take (q (i + 1) - q i)).map fun e => (i, e)

theorem rowsOf_succ (B : List β) (q : ℕ → ℕ) (k : ℕ) :
    rowsOf B q (k + 1) = rowsOf B q k ++ ((B.drop (q k)).take (q (k + 1) - q k)).map fun e => (k, e) := by
  simp [rowsOf, List.range_succ]

theorem rowsOf_snd (B : List β) (q : ℕ → ℕ) (h0 : q 0 = 0) (hq : Monotone q) (k : ℕ) : (rowsOf B q k).map Prod.snd = B.take (q k) := by
  induction k with
  | zero => simp [rowsOf, h0]
  | succ k ih =>
    rw [rowsOf_succ, List.map_append, ih]
    have h2 : q (k + 1) = q k + (q (k + 1) - q k) := by have := hq (Nat.le_succ k); simp only [Nat.succ_eq_add_one] at this; omega
    conv_rhs => rw [h2, List.take_add]
    simp [List.map_map, Function.comp_def]

theorem rowsOf_lt (B : List β) (q : ℕ → ℕ) (k : ℕ) : ∀ e ∈ rowsOf B q k, e.1 < k := by
  intro e he
  simp only [rowsOf, List.mem_flatMap, List.mem_range, List.mem_map] at he
  obtain ⟨i, hi, x, -, rfl⟩ := he
  exact hi

theorem rowsOf_sorted (B : List β) (q : ℕ → ℕ) (k : ℕ) : (rowsOf B q k).Pairwise fun e e' => e.1 ≤ e'.1 := by
  induction k with
  | zero => simp [rowsOf]
  | succ k ih =>
    rw [rowsOf_succ, List.pairwise_append]
    refine ⟨ih, ?_, fun a ha b hb => ?_⟩
    · rw [List.pairwise_map]
      exact List.Pairwise.imp (fun _ => le_refl _) (List.pairwise_of_forall (R := fun _ _ : β => True) (by simp))
    · obtain ⟨x, -, rfl⟩ := List.mem_map.1 hb
      exact (rowsOf_lt B q k a ha).le

theorem rowsOf_count (B : List β) (q : ℕ → ℕ) (h0 : q 0 = 0) (hq : Monotone q) (k : ℕ) (hB : q k ≤ B.length) (i : ℕ) (hi : i ≤ k) :
    (rowsOf B q k).countP (fun e => e.1 < i) = q i := by
  induction k with
  | zero => obtain rfl : i = 0 := by omega
            simp [rowsOf, h0]
  | succ k ih =>
    have hk : q k ≤ q (k + 1) := hq (Nat.le_succ k)
    rw [rowsOf_succ, List.countP_append]
    rcases Nat.lt_or_ge k i with h | h
    · obtain rfl : i = k + 1 := by omega
      have h1 : (rowsOf B q k).countP (fun e => decide (e.1 < k + 1)) = (rowsOf B q k).length := by
        rw [List.countP_eq_length]
        intro a ha
        have := rowsOf_lt B q k a ha
        simp; omega
      have h2 : (rowsOf B q k).length = q k := by
        have := congrArg List.length (rowsOf_snd B q h0 hq k)
        rw [List.length_map, List.length_take] at this
        omega
      rw [h1, h2, List.countP_map]
      have h3 : List.countP ((fun e : ℕ × β => decide (e.1 < k + 1)) ∘ fun e => (k, e)) ((B.drop (q k)).take (q (k + 1) - q k)) = ((B.drop (q k)).take (q (k + 1) - q k)).length := by
        rw [List.countP_eq_length]
        intro a _
        simp
      rw [h3, List.length_take, List.length_drop]
      omega
    · rw [ih (by omega) h]
      have : List.countP (fun e : ℕ × β => decide (e.1 < i)) (((B.drop (q k)).take (q (k + 1) - q k)).map fun e => (k, e)) = 0 := by
        rw [List.countP_map, List.countP_eq_zero]
        intro a _
        simp; omega
      rw [this]; rfl

theorem take_count {α : Type} (f : α → ℕ) (L : List α) (hL : L.Pairwise fun e e' => f e ≤ f e') (i : ℕ) :
    L.take (L.countP fun e => f e < i) = L.filter (fun e => f e < i) ∧ L.drop (L.countP fun e => f e < i) = L.filter (fun e => ¬ f e < i) := by
  induction L with
  | nil => simp
  | cons e L ih =>
    obtain ⟨h1, h2⟩ := List.pairwise_cons.1 hL
    obtain ⟨i1, i2⟩ := ih h2
    by_cases h : f e < i
    · have hc : (e :: L).countP (fun e => decide (f e < i)) = L.countP (fun e => decide (f e < i)) + 1 := List.countP_cons_of_pos (by simpa using h)
      rw [hc]
      constructor
      · rw [List.take_succ_cons, i1, List.filter_cons_of_pos (by simpa using h)]
      · rw [List.drop_succ_cons, i2, List.filter_cons_of_neg (by simpa using h)]
    · have hall : ∀ a ∈ e :: L, ¬ f a < i := by
        intro a ha
        rcases List.mem_cons.1 ha with rfl | ha
        · exact h
        · have := h1 a ha; omega
      have hc : (e :: L).countP (fun e => decide (f e < i)) = 0 := by
        rw [List.countP_eq_zero]
        intro a ha
        simpa using hall a ha
      have hf : (e :: L).filter (fun e => decide (f e < i)) = [] := by
        rw [List.filter_eq_nil_iff]
        intro a ha
        simpa using hall a ha
      rw [hc]
      refine ⟨by rw [hf]; rfl, ?_⟩
      rw [List.drop_zero]
      symm
      rw [List.filter_eq_self]
      intro a ha
      simpa using hall a ha

theorem rowsOf_list (L : List (ℕ × β)) (hL : L.Pairwise fun e e' => e.1 ≤ e'.1) (k : ℕ) :
    rowsOf (L.map Prod.snd) (fun i => L.countP fun e => e.1 < i) k = L.filter fun e => e.1 < k := by
  induction k with
  | zero => simp [rowsOf]
  | succ k ih =>
    have hs := take_count (fun e : ℕ × β => e.1) L hL
    rw [rowsOf_succ, ih]
    have hle : L.countP (fun e => decide (e.1 < k)) ≤ L.countP (fun e => decide (e.1 < k + 1)) :=
      List.countP_mono_left fun x _ hx => by simp at hx ⊢; omega
    rw [← (hs k).1, ← (hs (k + 1)).1]
    conv_rhs => rw [show L.countP (fun e => decide (e.1 < k + 1)) = L.countP (fun e => decide (e.1 < k)) +
      (L.countP (fun e => decide (e.1 < k + 1)) - L.countP (fun e => decide (e.1 < k))) by omega, List.take_add]
    congr 1
    rw [← List.map_drop, ← List.map_take, List.map_map]
    refine (List.map_congr_left fun a ha => ?_).trans (List.map_id _)
    have hmem : a ∈ L.drop (L.countP fun e => e.1 < k) := List.mem_of_mem_take ha
    rw [(hs k).2] at hmem
    have hmem2 : a ∈ L.take (L.countP fun e => e.1 < k + 1) := by
      rw [show L.countP (fun e => decide (e.1 < k + 1)) = L.countP (fun e => decide (e.1 < k)) +
        (L.countP (fun e => decide (e.1 < k + 1)) - L.countP (fun e => decide (e.1 < k))) by omega, List.take_add]
      exact List.mem_append_right _ ha
    rw [(hs (k + 1)).1] at hmem2
    simp only [List.mem_filter, decide_eq_true_eq] at hmem hmem2
    have : a.1 = k := by omega
    simp [← this]

theorem rowsOf_congr (B B' : List β) (q : ℕ → ℕ) (k : ℕ) (hq : Monotone q) (h : B.take (q k) = B'.take (q k)) : rowsOf B q k = rowsOf B' q k := by
  unfold rowsOf
  refine List.flatMap_congr fun i hi => ?_
  have hi' : i + 1 ≤ k := List.mem_range.1 hi
  have h1 : q (i + 1) ≤ q k := hq hi'
  have h2 : q i ≤ q (i + 1) := hq (Nat.le_succ i)
  have h3 : ∀ C : List β, (C.drop (q i)).take (q (i + 1) - q i) = ((C.take (q k)).drop (q i)).take (q (i + 1) - q i) := by
    intro C
    rw [List.drop_take, List.take_take, min_eq_left (by omega)]
  rw [h3 B, h3 B', h]

end rows

variable {n : ℕ} {K : Type}

/-- the row pointers continued by their last value -/
def ptr (p : Fin (n + 1) → ℕ) (i : ℕ) : ℕ := p ⟨min i n, by omega⟩

theorem ptr_mono {p : Fin (n + 1) → ℕ} (hp : Monotone p) : Monotone (ptr p) := fun i j h => hp (Fin.mk_le_mk.2 (by omega))

theorem ptr_last (p : Fin (n + 1) → ℕ) : ptr p n = p (Fin.last n) := by
  unfold ptr; congr 1; ext; simp

theorem ptr_zero (p : Fin (n + 1) → ℕ) : ptr p 0 = p 0 := by
  unfold ptr; congr 1

theorem ptr_val (p : Fin (n + 1) → ℕ) (i : Fin (n + 1)) : ptr p i.val = p i := by
  unfold ptr; congr 1; ext; have := i.2; simp; omega

/-- an entry with a row number -/
def flat (e : Fin n × Fin n × K) : ℕ × (Fin n × K) := (e.1.val, (e.2.1, e.2.2))

theorem flat_inj : Function.Injective (flat : Fin n × Fin n × K → _) := by
  rintro ⟨a, b, c⟩ ⟨a', b', c'⟩ h
  simp only [flat, Prod.mk.injEq] at h
  obtain ⟨h1, h2, h3⟩ := h
  rw [Fin.ext h1, h2, h3]

theorem read_congr {m m' : Mem n K} {o : Obj} (h1 : m'.indptr o.indptr = m.indptr o.indptr) (h2 : m'.body o.body = m.body o.body) : m'.read o = m.read o := by
  unfold Mem.read
  rw [h1, h2]

theorem read_flat (m : Mem n K) (o : Obj) :
    (m.read o).entries.map flat = rowsOf ((m.body o.body).take o.len) (ptr (m.indptr o.indptr)) n := by
  unfold Mem.read rowsOf
  rw [List.map_flatMap]
  have : List.range n = (List.finRange n).map Fin.val := by
    exact (List.map_coe_finRange_eq_range).symm
  rw [this, List.flatMap_map]
  refine List.flatMap_congr fun i _ => ?_
  rw [List.map_map]
  have h1 := ptr_val (m.indptr o.indptr) i.castSucc
  have h2 := ptr_val (m.indptr o.indptr) i.succ
  rw [Fin.val_castSucc] at h1
  rw [Fin.val_succ] at h2
  rw [h1, h2]
  rfl

theorem WF.read {m : Mem n K} {o : Obj} (h : WF m o) :
    (m.read o).entries.map flat = rowsOf (m.body o.body) (ptr (m.indptr o.indptr)) n := by
  rw [read_flat]
  refine rowsOf_congr _ _ _ _ (ptr_mono h.mono) ?_
  rw [List.take_take, min_eq_left]
  rw [ptr_last]
  exact h.nnz

theorem WF.length {m : Mem n K} {o : Obj} (h : WF m o) : (m.read o).entries.length = m.nnz o := by
  have h1 := congrArg List.length h.read
  have h2 := congrArg List.length (rowsOf_snd (m.body o.body) (ptr (m.indptr o.indptr)) (by rw [ptr_zero, h.zero]) (ptr_mono h.mono) n)
  rw [List.length_map] at h1 h2
  rw [h1, h2, List.length_take, ptr_last]
  have := h.nnz
  have := h.len
  simp only [Mem.nnz] at *
  omega

theorem read_sorted (m : Mem n K) (o : Obj) : (m.read o).entries.Pairwise fun e e' => e.1 ≤ e'.1 := by
  have := rowsOf_sorted ((m.body o.body).take o.len) (ptr (m.indptr o.indptr)) n
  rw [← read_flat, List.pairwise_map] at this
  exact this.imp fun h => h

theorem write_nnz (m : Mem n K) (o : Obj) (E : List (Fin n × Fin n × K)) (o' : Obj) (hi : o'.indptr = o.indptr) : (m.write o E).nnz o' = E.length := by
  unfold Mem.nnz Mem.write
  simp only [hi, Function.update_self]
  rw [List.countP_eq_length]
  intro a _
  simp

/-- Reading what was written, through any object on the same arrays that sees enough of them. -/
theorem read_write (m : Mem n K) (o : Obj) {E : List (Fin n × Fin n × K)} (hE : E.Pairwise fun e e' => e.1 ≤ e'.1) (o' : Obj)
    (hi : o'.indptr = o.indptr) (hb : o'.body = o.body) (hl : E.length ≤ o'.len) : (m.write o E).read o' = ⟨E⟩ := by
  have key : ((m.write o E).read o').entries.map flat = E.map flat := by
    rw [read_flat, hi, hb]
    have hp : ∀ i ≤ n, ptr ((m.write o E).indptr o.indptr) i = (E.map flat).countP fun e => e.1 < i := by
      intro i hi
      have := ptr_val ((m.write o E).indptr o.indptr) ⟨i, by omega⟩
      rw [this]
      simp only [Mem.write, Function.update_self, List.countP_map]
      rfl
    have hL : (E.map flat).Pairwise fun e e' => e.1 ≤ e'.1 := by
      rw [List.pairwise_map]
      exact hE.imp fun h => h
    have h1 := rowsOf_list (E.map flat) hL n
    have h2 : (E.map flat).filter (fun e => e.1 < n) = E.map flat := by
      rw [List.filter_eq_self]
      intro a ha
      obtain ⟨e, -, rfl⟩ := List.mem_map.1 ha
      simp [flat]
    rw [h2] at h1
    have h3 : rowsOf (((m.write o E).body o.body).take o'.len) (fun i => (E.map flat).countP fun e => e.1 < i) n = E.map flat := by
      conv_rhs => rw [← h1]
      refine rowsOf_congr _ _ _ _ (fun i j hij => List.countP_mono_left fun x _ hx => by simp at hx ⊢; omega) ?_
      have hc : (E.map flat).countP (fun e => decide (e.1 < n)) = E.length := by
        rw [List.countP_eq_length_filter, h2, List.length_map]
      rw [hc, List.take_take, min_eq_left hl]
      simp only [Mem.write, Function.update_self]
      rw [List.take_append_of_le_length (by simp)]
      rw [List.map_map]
      rfl
    rw [← h3]
    unfold rowsOf
    refine List.flatMap_congr fun i hi => ?_
    have hi := List.mem_range.1 hi
    rw [hp i (by omega), hp (i + 1) (by omega)]
  have := List.map_injective_iff.2 (flat_inj (n := n) (K := K)) key
  cases h : (m.write o E).read o' with
  | mk L => rw [h] at this; exact congrArg Sp.mk this

theorem write_wf {m : Mem n K} {o : Obj} (E : List (Fin n × Fin n × K)) {o' : Obj} (hi : o'.indptr = o.indptr) (hb : o'.body = o.body)
    (hl : E.length ≤ o'.len) (hl2 : o'.len ≤ (m.body o.body).length) (hf : o.body < m.next) : WF (m.write o E) o' where
  zero := by simp [Mem.write, hi]
  mono := by
    intro i j hij
    simp only [Mem.write, hi, Function.update_self]
    refine List.countP_mono_left fun x _ hx => ?_
    have : i.val ≤ j.val := hij
    simp at hx ⊢
    omega
  nnz := by rw [write_nnz m o E o' hi]; exact hl
  len := by
    simp only [Mem.write, hb, Function.update_self, List.length_append, List.length_map, List.length_drop]
    omega
  fresh := by rw [hb]; exact hf

/-- Pruning does not change what is read. -/
theorem prune_spec {m : Mem n K} {o : Obj} (h : WF m o) :
    (m.prune o).2.read (m.prune o).1 = m.read o ∧ WF (m.prune o).2 (m.prune o).1 ∧ (m.prune o).1.indptr = o.indptr ∧ (m.prune o).2.indptr = m.indptr ∧
      (∀ a < m.next, (m.prune o).2.body a = m.body a) ∧ m.next ≤ (m.prune o).2.next ∧ (m.prune o).1.len = m.nnz o ∧
      (¬ m.nnz o < (m.body o.body).length / 2 → (m.prune o).1.body = o.body ∧ (m.prune o).2 = m) := by
  have hn := h.nnz
  have hl := h.len
  have inj : ∀ {A B : Sp n n K}, A.entries.map flat = B.entries.map flat → A = B := by
    rintro ⟨A⟩ ⟨B⟩ hAB
    rw [show A = B from List.map_injective_iff.2 (flat_inj (n := n) (K := K)) hAB]
  unfold Mem.prune
  split
  · rename_i hc
    refine ⟨?_, ⟨h.zero, h.mono, le_refl _, ?_, by simp⟩, rfl, rfl, ?_, by simp, rfl, fun hh => absurd hc hh⟩
    · apply inj
      rw [h.read, read_flat]
      simp only [Function.update_self]
      refine rowsOf_congr _ _ _ _ (ptr_mono h.mono) ?_
      rw [ptr_last, List.take_take, List.take_take]
      simp [Mem.nnz]
    · simp only [Function.update_self, List.length_take]
      omega
    · intro a ha
      simp only
      rw [Function.update_of_ne (by omega)]
  · rename_i hc
    refine ⟨?_, ⟨h.zero, h.mono, le_refl _, ?_, h.fresh⟩, rfl, rfl, fun _ _ => rfl, le_refl _, rfl, fun _ => ⟨rfl, rfl⟩⟩
    · apply inj
      rw [h.read, read_flat]
      refine rowsOf_congr _ _ _ _ (ptr_mono h.mono) ?_
      rw [ptr_last, List.take_take]
      simp [Mem.nnz]
    · exact hn.trans hl

end PyGSP.Sharing

namespace PyGSP

variable {n : ℕ} {K : Type}

theorem Sp.sumDuplicates_sorted [AddMonoid K] (A : Sp n n K) : A.sumDuplicates.entries.Pairwise fun e e' => e.1 < e'.1 ∨ (e.1 = e'.1 ∧ e.2.1 < e'.2.1) := by
  unfold Sp.sumDuplicates
  rw [List.pairwise_flatMap]
  refine ⟨fun i _ => ?_, ?_⟩
  · rw [List.pairwise_filterMap]
    refine (List.pairwise_lt_finRange n).imp fun {a b} hab x hx y hy => ?_
    split at hx <;> split at hy <;> simp at hx hy
    rw [← hx, ← hy]
    exact .inr ⟨rfl, hab⟩
  · refine (List.pairwise_lt_finRange n).imp fun {a b} hab x hx y hy => ?_
    rw [List.mem_filterMap] at hx hy
    obtain ⟨_, -, hx⟩ := hx
    obtain ⟨_, -, hy⟩ := hy
    split at hx <;> split at hy <;> simp at hx hy
    rw [← hx, ← hy]
    exact .inl hab

theorem Sp.sumDuplicates_keys [AddMonoid K] (A : Sp n n K) : A.sumDuplicates.keys.toFinset = A.keys.toFinset := by
  ext ⟨i, j⟩
  rw [List.mem_toFinset, List.mem_toFinset]
  constructor
  · intro h
    obtain ⟨⟨a, b, v⟩, he, h2⟩ := List.mem_map.1 h
    simp only [Prod.mk.injEq] at h2
    obtain ⟨rfl, rfl⟩ := h2
    exact ((Sp.mem_sumDuplicates A _ _ _).1 he).1
  · intro h
    exact List.mem_map.2 ⟨(i, j, A.dense i j), (Sp.mem_sumDuplicates A _ _ _).2 ⟨h, rfl⟩, rfl⟩

theorem Sp.sumDuplicates_length [AddMonoid K] (A : Sp n n K) : A.sumDuplicates.entries.length = A.keys.toFinset.card := by
  rw [← Sp.sumDuplicates_keys, List.toFinset_card_of_nodup (Sp.canonical_sumDuplicates A)]
  simp [Sp.keys]

theorem Sp.keys_card_le [AddMonoid K] (A : Sp n n K) : A.keys.toFinset.card ≤ A.entries.length :=
  (List.toFinset_card_le _).trans (by simp [Sp.keys])

namespace Sharing

theorem CanonicalFormat.canonical {A : Sp n n K} (h : CanonicalFormat A) : A.Canonical := by
  unfold Sp.Canonical Sp.keys
  rw [List.Nodup, List.pairwise_map]
  refine List.Pairwise.imp (fun {a b} hab => ?_) h
  intro heq
  simp only [Prod.mk.injEq] at heq
  rcases hab with h1 | h1
  · exact absurd heq.1 h1.ne
  · exact absurd heq.2 h1.2.ne

theorem CanonicalFormat.sumDuplicates [AddMonoid K] {A : Sp n n K} (h : CanonicalFormat A) : A.sumDuplicates = A := by
  have hc := h.canonical
  have hmem : ∀ e, e ∈ A.sumDuplicates.entries ↔ e ∈ A.entries := by
    rintro ⟨i, j, v⟩
    rw [Sp.mem_sumDuplicates]
    constructor
    · rintro ⟨hk, rfl⟩
      obtain ⟨⟨a, b, w⟩, he, h2⟩ := List.mem_map.1 hk
      simp only [Prod.mk.injEq] at h2
      obtain ⟨rfl, rfl⟩ := h2
      rw [Sp.dense_of_mem hc he]
      exact he
    · intro he
      exact ⟨List.mem_map.2 ⟨_, he, rfl⟩, (Sp.dense_of_mem hc he).symm⟩
  have hp : A.sumDuplicates.entries.Perm A.entries := by
    rw [List.perm_ext_iff_of_nodup]
    · exact hmem
    · exact List.Nodup.of_map _ (Sp.canonical_sumDuplicates A)
    · exact List.Nodup.of_map _ hc
  have := List.Perm.eq_of_pairwise (le := fun e e' : Fin n × Fin n × K => e.1 < e'.1 ∨ (e.1 = e'.1 ∧ e.2.1 < e'.2.1)) (fun a b _ _ hab hba => by
      exfalso
      rcases hab with h1 | h1 <;> rcases hba with h2 | h2
      · exact absurd h1 h2.asymm
      · exact absurd h2.1 h1.ne'
      · exact absurd h1.1 h2.ne'
      · exact absurd h1.2 h2.2.asymm) (Sp.sumDuplicates_sorted A) h hp
  cases A
  exact congrArg Sp.mk this

/-! ### the constructor -/

section

variable [AddMonoid K] {m : Mem n K} {o : Obj}

theorem sum_sorted (A : Sp n n K) : A.sumDuplicates.entries.Pairwise fun e e' => e.1 ≤ e'.1 :=
  (Sp.sumDuplicates_sorted A).imp fun h => h.elim le_of_lt fun h => h.1.le

theorem sumDuplicates_spec (h : WF m o) :
    (m.sumDuplicates o).2.read (m.sumDuplicates o).1 = (m.read o).sumDuplicates ∧ WF (m.sumDuplicates o).2 (m.sumDuplicates o).1 ∧
      (m.sumDuplicates o).1.indptr = o.indptr ∧ (∀ a ≠ o.indptr, (m.sumDuplicates o).2.indptr a = m.indptr a) ∧
      (∀ a < m.next, a ≠ o.body → (m.sumDuplicates o).2.body a = m.body a) ∧ m.next ≤ (m.sumDuplicates o).2.next ∧
      ((m.body o.body).length / 2 ≤ (m.read o).keys.toFinset.card →
        (m.sumDuplicates o).1.body = o.body ∧ (m.sumDuplicates o).2.next = m.next ∧ ((m.sumDuplicates o).2.body o.body).length = (m.body o.body).length ∧
        ∀ o' : Obj, o'.indptr = o.indptr → o'.body = o.body → o.len ≤ o'.len → o'.len ≤ (m.body o.body).length → (CanonicalFormat (m.read o) → WF m o') →
          (CanonicalFormat (m.read o) → m.read o' = m.read o) → WF (m.sumDuplicates o).2 o' ∧ (m.sumDuplicates o).2.read o' = (m.read o).sumDuplicates) := by
  unfold Mem.sumDuplicates
  split
  · rename_i hc
    refine ⟨hc.sumDuplicates.symm, h, rfl, fun _ _ => rfl, fun _ _ _ => rfl, le_refl _, fun _ => ⟨rfl, rfl, rfl, fun o' _ _ _ _ h1 h2 => ⟨h1 hc, ?_⟩⟩⟩
    rw [hc.sumDuplicates]
    exact h2 hc
  · rename_i hc
    have hlen : (m.read o).sumDuplicates.entries.length ≤ o.len := by
      rw [Sp.sumDuplicates_length]
      exact (Sp.keys_card_le _).trans (h.length.le.trans h.nnz)
    have hw := write_wf (m := m) (o := o) (m.read o).sumDuplicates.entries rfl rfl hlen h.len h.fresh
    have hr := read_write m o (sum_sorted (m.read o)) o rfl rfl hlen
    obtain ⟨p1, p2, p3, p4, p5, p6, p7, p8⟩ := prune_spec hw
    have hbl : ((m.write o (m.read o).sumDuplicates.entries).body o.body).length = (m.body o.body).length := by
      simp only [Mem.write, Function.update_self, List.length_append, List.length_map, List.length_drop]
      have := h.len
      omega
    refine ⟨p1.trans hr, p2, p3, fun a ha => ?_, fun a ha hb => ?_, p6, fun hcap => ?_⟩
    · rw [p4]
      exact Function.update_of_ne ha _ _
    · rw [p5 a ha]
      exact Function.update_of_ne hb _ _
    · have := p8 (by rw [write_nnz m o _ o rfl, Sp.sumDuplicates_length, hbl]; omega)
      refine ⟨this.1, by rw [this.2]; rfl, by rw [this.2, hbl], fun o' h1 h2 h3 h4 _ _ => ?_⟩
      rw [this.2]
      exact ⟨write_wf _ h1 h2 (hlen.trans h3) h4 h.fresh, read_write m o (sum_sorted _) o' h1 h2 (hlen.trans h3)⟩

variable [DecidableEq K]

theorem elim_sorted (A : Sp n n K) (hA : A.entries.Pairwise fun e e' => e.1 ≤ e'.1) : A.eliminateZeros.entries.Pairwise fun e e' => e.1 ≤ e'.1 :=
  hA.sublist List.filter_sublist

theorem elim_length (A : Sp n n K) : A.eliminateZeros.entries.length ≤ A.entries.length := List.length_filter_le _ _

theorem eliminateZeros_spec (h : WF m o) :
    (m.eliminateZeros o).2.read (m.eliminateZeros o).1 = (m.read o).eliminateZeros ∧ WF (m.eliminateZeros o).2 (m.eliminateZeros o).1 ∧
      (m.eliminateZeros o).1.indptr = o.indptr ∧ (∀ a ≠ o.indptr, (m.eliminateZeros o).2.indptr a = m.indptr a) ∧
      (∀ a < m.next, a ≠ o.body → (m.eliminateZeros o).2.body a = m.body a) ∧ m.next ≤ (m.eliminateZeros o).2.next ∧
      (∀ o' : Obj, o'.indptr = o.indptr → o'.body = o.body → o.len ≤ o'.len → o'.len ≤ (m.body o.body).length →
          WF (m.eliminateZeros o).2 o' ∧ (m.eliminateZeros o).2.read o' = (m.read o).eliminateZeros) ∧
      ((m.body o.body).length / 2 ≤ (m.read o).eliminateZeros.nnz → (m.eliminateZeros o).1.body = o.body) := by
  unfold Mem.eliminateZeros
  have hlen : (m.read o).eliminateZeros.entries.length ≤ o.len := (elim_length _).trans (h.length.le.trans h.nnz)
  have hs := elim_sorted _ (read_sorted m o)
  have hw := write_wf (m := m) (o := o) (m.read o).eliminateZeros.entries rfl rfl hlen h.len h.fresh
  have hr := read_write m o hs o rfl rfl hlen
  obtain ⟨p1, p2, p3, p4, p5, p6, p7, p8⟩ := prune_spec hw
  have hbl : ((m.write o (m.read o).eliminateZeros.entries).body o.body).length = (m.body o.body).length := by
    simp only [Mem.write, Function.update_self, List.length_append, List.length_map, List.length_drop]
    have := h.len
    omega
  refine ⟨p1.trans hr, p2, p3, fun a ha => ?_, fun a ha hb => ?_, p6, fun o' h1 h2 h3 h4 => ?_, fun hcap => ?_⟩
  · rw [p4]
    exact Function.update_of_ne ha _ _
  · rw [p5 a ha]
    exact Function.update_of_ne hb _ _
  · have w1 := write_wf (m := m) (o := o) (m.read o).eliminateZeros.entries h1 h2 (hlen.trans h3) h4 h.fresh
    have w2 := read_write m o hs o' h1 h2 (hlen.trans h3)
    have hbody : ((m.write o (m.read o).eliminateZeros.entries).prune o).2.body o'.body = (m.write o (m.read o).eliminateZeros.entries).body o'.body := p5 _ w1.fresh
    refine ⟨⟨?_, ?_, ?_, ?_, ?_⟩, ?_⟩
    · rw [p4]; exact w1.zero
    · rw [p4]; exact w1.mono
    · unfold Mem.nnz; rw [p4]; exact w1.nnz
    · rw [hbody]; exact w1.len
    · exact lt_of_lt_of_le w1.fresh p6
    · exact (read_congr (by rw [p4]) hbody).trans w2
  · exact (p8 (by rw [write_nnz m o _ o rfl, hbl]; unfold Sp.nnz at hcap; omega)).1

end

theorem rowsOf_fst {β : Type} (B B' : List β) (hB : B.length = B'.length) (q : ℕ → ℕ) (k : ℕ) : (rowsOf B q k).map Prod.fst = (rowsOf B' q k).map Prod.fst := by
  unfold rowsOf
  rw [List.map_flatMap, List.map_flatMap]
  refine List.flatMap_congr fun i _ => ?_
  simp [List.map_map, Function.comp_def, hB]

theorem read_setData {m : Mem n K} {o o' : Obj} (h : WF m o') (hb : o'.body = o.body) {k : ℕ} (hk : k < m.nnz o') (v : K) :
    ((m.setData o k v).read o').entries = (m.read o').entries.modify k (fun e => (e.1, e.2.1, v)) ∧ WF (m.setData o k v) o' := by
  have hw : WF (m.setData o k v) o' := by
    refine ⟨h.zero, h.mono, h.nnz, ?_, h.fresh⟩
    simp only [Mem.setData, hb, Function.update_self, List.length_modify]
    rw [← hb]
    exact h.len
  refine ⟨List.map_injective_iff.2 (flat_inj (n := n) (K := K)) ?_, hw⟩
  have hmod : ((m.read o').entries.modify k fun e => (e.1, e.2.1, v)).map flat = ((m.read o').entries.map flat).modify k fun e => (e.1, (e.2.1, v)) := by
    refine List.ext_getElem? fun i => ?_
    simp only [List.getElem?_map, List.getElem?_modify]
    split <;> cases (m.read o').entries[i]? <;> simp [flat]
  rw [hmod, h.read, hw.read]
  have e1 : (m.setData o k v).indptr = m.indptr := rfl
  have e2 : (m.setData o k v).body o'.body = (m.body o'.body).modify k fun e => (e.1, v) := by
    rw [hb]; simp [Mem.setData]
  rw [e1, e2]
  have q0 : ptr (m.indptr o'.indptr) 0 = 0 := by rw [ptr_zero, h.zero]
  have s1 := rowsOf_snd ((m.body o'.body).modify k fun e => (e.1, v)) (ptr (m.indptr o'.indptr)) q0 (ptr_mono h.mono) n
  have s2 := rowsOf_snd (m.body o'.body) (ptr (m.indptr o'.indptr)) q0 (ptr_mono h.mono) n
  have f1 := rowsOf_fst ((m.body o'.body).modify k fun e => (e.1, v)) (m.body o'.body) (by simp) (ptr (m.indptr o'.indptr)) n
  have hk' : k < ptr (m.indptr o'.indptr) n := by rw [ptr_last]; exact hk
  generalize rowsOf ((m.body o'.body).modify k fun e => (e.1, v)) (ptr (m.indptr o'.indptr)) n = L at *
  generalize rowsOf (m.body o'.body) (ptr (m.indptr o'.indptr)) n = L' at *
  have hfst : L.map Prod.fst = (L'.modify k fun e => (e.1, (e.2.1, v))).map Prod.fst := by
    rw [f1]
    refine List.ext_getElem? fun i => ?_
    simp only [List.getElem?_map, List.getElem?_modify]
    split <;> cases L'[i]? <;> simp
  have hsnd : L.map Prod.snd = (L'.modify k fun e => (e.1, (e.2.1, v))).map Prod.snd := by
    rw [s1]
    have : (L'.modify k fun e => (e.1, (e.2.1, v))).map Prod.snd = (L'.map Prod.snd).modify k fun e => (e.1, v) := by
      refine List.ext_getElem? fun i => ?_
      simp only [List.getElem?_map, List.getElem?_modify]
      split <;> cases L'[i]? <;> simp
    rw [this, s2]
    refine List.ext_getElem? fun i => ?_
    simp only [List.getElem?_take, List.getElem?_modify]
    split <;> rename_i hi
    · rfl
    · split <;> simp
  refine List.ext_getElem? fun i => ?_
  have a1 := congrArg (fun l => l[i]?) hfst
  have a2 := congrArg (fun l => l[i]?) hsnd
  simp only [List.getElem?_map] at a1 a2
  cases hx : L[i]? <;> cases hy : (L'.modify k fun e => (e.1, (e.2.1, v)))[i]? <;> simp [hx, hy] at a1 a2 ⊢
  exact Prod.ext a1 a2

/-- Writing back what is read changes nothing. -/
theorem write_read {m : Mem n K} {o : Obj} (h : WF m o) : m.write o (m.read o).entries = m := by
  have q0 : ptr (m.indptr o.indptr) 0 = 0 := by rw [ptr_zero, h.zero]
  have hlen := h.length
  unfold Mem.write
  have e1 : (fun i : Fin (n + 1) => (m.read o).entries.countP fun e => decide (e.1.val < i.val)) = m.indptr o.indptr := by
    funext i
    have := rowsOf_count (m.body o.body) (ptr (m.indptr o.indptr)) q0 (ptr_mono h.mono) n (by rw [ptr_last]; exact h.nnz.trans h.len) i.val (by omega)
    rw [← h.read, List.countP_map, ptr_val] at this
    exact this
  have e2 : (m.read o).entries.map (fun e => (e.2.1, e.2.2)) ++ (m.body o.body).drop (m.read o).entries.length = m.body o.body := by
    have := rowsOf_snd (m.body o.body) (ptr (m.indptr o.indptr)) q0 (ptr_mono h.mono) n
    rw [← h.read, List.map_map, ptr_last] at this
    have h2 : (m.read o).entries.map (fun e => (e.2.1, e.2.2)) = (m.body o.body).take (m.indptr o.indptr (Fin.last n)) := this
    rw [h2, hlen]
    exact List.take_append_drop _ _
  rw [e1, e2, Function.update_eq_self, Function.update_eq_self]

end Sharing

end PyGSP
