import Verif.Lemmas.Sparse

namespace PyGSP

variable {n m : ℕ} {K : Type*}

namespace PyNum

/-- finite -/
def IsFinite : PyNum K → Prop
  | .fin _ => True
  | _ => False

theorem isFinite_iff (x : PyNum K) : x.IsFinite ↔ x.isNaN = false ∧ x.isInf = false := by
  cases x <;> simp [IsFinite, isNaN, isInf]

theorem isFinite_add [AddCommMonoid K] (a b : PyNum K) : (a + b).IsFinite ↔ a.IsFinite ∧ b.IsFinite := by
  cases a <;> cases b <;> simp [HAdd.hAdd, Add.add, add, IsFinite]

theorem toFin_add [AddCommMonoid K] (a b : PyNum K) (ha : a.IsFinite) (hb : b.IsFinite) :
    (a + b).toFin = a.toFin + b.toFin := by
  cases a <;> cases b <;> simp_all [IsFinite]
  rfl

theorem sum_eq [AddCommMonoid K] (l : List (PyNum K)) : PyNum.sum l = l.sum := by
  unfold PyNum.sum
  exact List.sum_eq_foldl.symm

theorem isFinite_sum [AddCommMonoid K] (l : List (PyNum K)) : l.sum.IsFinite ↔ ∀ x ∈ l, x.IsFinite := by
  induction l with
  | nil => simp [IsFinite]
  | cons a l ih => simp [isFinite_add, ih]

theorem toFin_sum [AddCommMonoid K] (l : List (PyNum K)) (h : ∀ x ∈ l, x.IsFinite) :
    l.sum.toFin = (l.map toFin).sum := by
  induction l with
  | nil => rfl
  | cons a l ih =>
    have h1 := h a (by simp)
    have h2 : ∀ x ∈ l, x.IsFinite := fun x hx => h x (by simp [hx])
    rw [List.sum_cons, toFin_add _ _ h1 ((isFinite_sum l).2 h2), ih h2]
    simp

theorem fin_toFin [Zero K] {x : PyNum K} (h : x.IsFinite) : x = .fin x.toFin := by
  cases x <;> simp_all [IsFinite, toFin]

theorem neZero_iff [AddCommMonoid K] [DecidableEq K] (x : PyNum K) : x.neZero = true ↔ x ≠ 0 := by
  have h0 : (0 : PyNum K) = .fin 0 := rfl
  cases x <;> simp [neZero, h0]

end PyNum

/-- forget the IEEE classes -/
def Sp.toFin [Zero K] (A : Sp n m (PyNum K)) : Sp n m K := ⟨A.entries.map fun e => (e.1, e.2.1, e.2.2.toFin)⟩

theorem Sp.isFinite_dense [AddCommMonoid K] (A : Sp n m (PyNum K)) :
    (∀ i j, (A.dense i j).IsFinite) ↔ ∀ x ∈ A.data, x.IsFinite := by
  constructor
  · intro h x hx
    simp only [data, List.mem_map] at hx
    obtain ⟨e, he, rfl⟩ := hx
    have := h e.1 e.2.1
    rw [dense_def, PyNum.isFinite_sum] at this
    apply this
    rw [List.mem_map]
    exact ⟨e, by simp [he], rfl⟩
  · intro h i j
    rw [dense_def, PyNum.isFinite_sum]
    intro x hx
    simp only [List.mem_map, List.mem_filter] at hx
    obtain ⟨e, ⟨he, -⟩, rfl⟩ := hx
    exact h _ (by simp only [data, List.mem_map]; exact ⟨e, he, rfl⟩)

theorem Sp.toFin_dense [AddCommMonoid K] (A : Sp n m (PyNum K)) (h : ∀ x ∈ A.data, x.IsFinite) (i j) :
    A.toFin.dense i j = (A.dense i j).toFin := by
  rw [dense_def A, PyNum.toFin_sum]
  · unfold dense toFin
    rw [List.filter_map]
    simp [List.map_map, Function.comp_def]
  · intro x hx
    simp only [List.mem_map, List.mem_filter] at hx
    obtain ⟨e, ⟨he, -⟩, rfl⟩ := hx
    exact h _ (by simp only [data, List.mem_map]; exact ⟨e, he, rfl⟩)

theorem Sp.toFin_keys [Zero K] (A : Sp n m (PyNum K)) : A.toFin.keys = A.keys := by
  simp [toFin, keys, List.map_map, Function.comp_def]

theorem Sp.mem_sumDuplicates [AddMonoid K] (A : Sp n m K) (i j v) :
    (i, j, v) ∈ A.sumDuplicates.entries ↔ (i, j) ∈ A.keys ∧ v = A.dense i j := by
  simp only [sumDuplicates, List.mem_flatMap, List.mem_filterMap, List.mem_finRange, true_and]
  constructor
  · rintro ⟨a, b, h⟩
    split at h
    · simp only [Option.some.injEq, Prod.mk.injEq] at h
      obtain ⟨rfl, rfl, rfl⟩ := h
      exact ⟨by assumption, rfl⟩
    · simp at h
  · rintro ⟨h, rfl⟩
    exact ⟨i, j, by simp [h]⟩

theorem Sp.canonical_sumDuplicates [AddMonoid K] (A : Sp n m K) : A.sumDuplicates.Canonical := by
  unfold Canonical keys sumDuplicates
  apply nodup_rowmajor (fun i j => if (i, j) ∈ A.keys then some (i, j, A.dense i j) else none)
    (fun e => (e.1, e.2.1))
  intro i j a h
  split at h
  · simp at h; subst h; rfl
  · simp at h

theorem Sp.dense_sumDuplicates [AddMonoid K] (A : Sp n m K) : A.sumDuplicates.dense = A.dense := by
  ext i j
  by_cases hk : (i, j) ∈ A.keys
  · exact dense_of_mem (canonical_sumDuplicates A) ((mem_sumDuplicates A i j _).2 ⟨hk, rfl⟩)
  · have h1 : A.dense i j = 0 := by
      by_contra hc
      obtain ⟨v, hv⟩ := exists_mem_of_dense_ne hc
      exact hk (List.mem_map.2 ⟨_, hv, rfl⟩)
    rw [h1]
    by_contra hc
    obtain ⟨v, hv⟩ := exists_mem_of_dense_ne hc
    rw [mem_sumDuplicates] at hv
    exact hk hv.1

theorem AdjInput.csrOfArray_eq [AddCommMonoid K] [DecidableEq K] (n m : ℕ) (val : List ℕ → PyNum K) :
    AdjInput.csrOfArray n m val = Sp.ofDense (Matrix.of fun (i : Fin n) (j : Fin m) => val [i.val, j.val]) := by
  unfold csrOfArray Sp.ofDense
  congr 1
  apply List.flatMap_congr
  intro i _
  apply List.filterMap_congr
  intro j _
  simp only [PyNum.neZero_iff, Matrix.of_apply]
  congr

namespace AdjInput

/-- The number passed by the caller at position `(i, j)`: the array entry, or the sum of the stored
entries of a sparse matrix. -/
def value [AddCommMonoid K] : AdjInput K → ℕ → ℕ → PyNum K
  | .ndarray _ val, i, j => val [i, j]
  | .csr r c A, i, j => if h : i < r ∧ j < c then A.dense ⟨i, h.1⟩ ⟨j, h.2⟩ else 0
  | .coo r c A, i, j => if h : i < r ∧ j < c then A.dense ⟨i, h.1⟩ ⟨j, h.2⟩ else 0

/-- No position is stored twice in a CSR input (always true of the other inputs). -/
def Canonical : AdjInput K → Prop
  | .csr _ _ A => A.Canonical
  | _ => True

theorem toCsr_none [AddCommMonoid K] [DecidableEq K] (a : AdjInput K) :
    a.toCsr = none ↔ ¬ ∃ n, a.shape = [n, n] := by
  match a with
  | .ndarray [] v => simp [toCsr, shape]
  | .ndarray [x] v => simp [toCsr, shape]
  | .ndarray [r, c] v =>
    simp [toCsr, shape, eq_comm]
  | .ndarray (_ :: _ :: _ :: _) v => simp [toCsr, shape]
  | .csr r c A => simp [toCsr, shape, eq_comm]
  | .coo r c A => simp [toCsr, shape, eq_comm]

theorem toCsr_some [AddCommMonoid K] [DecidableEq K] (a : AdjInput K) {n} {A : Sp n n (PyNum K)}
    (h : a.toCsr = some ⟨n, A⟩) :
    a.shape = [n, n] ∧ (∀ i j : Fin n, A.dense i j = a.value i j) ∧ (a.Canonical → A.Canonical) := by
  match a with
  | .ndarray [] v => simp [toCsr] at h
  | .ndarray [x] v => simp [toCsr] at h
  | .ndarray [r, c] v =>
    simp only [toCsr] at h
    split at h
    · subst_vars
      simp only [Option.some.injEq, Sigma.mk.injEq] at h
      obtain ⟨rfl, h⟩ := h
      have h := eq_of_heq h
      subst h
      refine ⟨rfl, ?_, ?_⟩
      · intro i j
        rw [csrOfArray_eq, Sp.dense_ofDense]; rfl
      · intro _
        rw [csrOfArray_eq]; exact Sp.canonical_ofDense _
    · simp at h
  | .ndarray (_ :: _ :: _ :: _) v => simp [toCsr] at h
  | .csr r c B =>
    simp only [toCsr] at h
    split at h
    · subst_vars
      simp only [Option.some.injEq, Sigma.mk.injEq] at h
      obtain ⟨rfl, h⟩ := h
      have h := eq_of_heq h
      subst h
      exact ⟨rfl, fun i j => by simp [value], fun h => h⟩
    · simp at h
  | .coo r c B =>
    simp only [toCsr] at h
    split at h
    · subst_vars
      simp only [Option.some.injEq, Sigma.mk.injEq] at h
      obtain ⟨rfl, h⟩ := h
      have h := eq_of_heq h
      subst h
      exact ⟨rfl, fun i j => by simp [value, Sp.dense_sumDuplicates],
        fun _ => Sp.canonical_sumDuplicates _⟩
    · simp at h

end AdjInput

/-- closed form of the constructor -/
theorem Graph.init_eq [Field K] [LinearOrder K] (a : AdjInput K) (lt : LapType) :
    Graph.init a lt = match a.toCsr with
      | none => .error .valueError
      | some ⟨n, A⟩ => open Classical in
        if ∀ x ∈ A.data, x.IsFinite then
          (Graph.ofCsr A.toFin lt).map (fun g => ⟨n, g⟩)
        else .error .valueError := by
  unfold Graph.init
  cases h : a.toCsr with
  | none => rfl
  | some p =>
    obtain ⟨n, A⟩ := p
    simp only
    rw [PyNum.sum_eq]
    by_cases hf : ∀ x ∈ A.data, x.IsFinite
    · rw [if_pos hf]
      have := (PyNum.isFinite_iff _).1 ((PyNum.isFinite_sum _).2 hf)
      rw [if_neg (by simp [this.1]), if_neg (by simp [this.2])]
      show (Graph.ofCsr A.toFin lt >>= _) = _
      cases Graph.ofCsr A.toFin lt <;> rfl
    · rw [if_neg hf]
      have : ¬ (A.data.sum.isNaN = false ∧ A.data.sum.isInf = false) := by
        rw [← PyNum.isFinite_iff, PyNum.isFinite_sum]; exact hf
      split
      · rfl
      · split
        · rfl
        · simp_all

end PyGSP
