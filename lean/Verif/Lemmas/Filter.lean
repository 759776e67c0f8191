import Verif.Model.Filter
import Verif.Spec.Filter
import Verif.Lemmas.StateExtra
import Verif.Lemmas.Fourier

/-! # Lemmas about filter banks -/

namespace PyGSP

open Matrix Spec

variable {n : ℕ}

theorem seqFin_ok {α : Type} : ∀ (m : ℕ) (f : Fin m → Py α) (y : Fin m → α),
    seqFin m f = .ok y ↔ ∀ i, f i = .ok (y i)
  | 0, f, y => by
    simp only [seqFin, Except.ok.injEq]
    exact ⟨fun _ i => i.elim0, fun _ => funext fun i => i.elim0⟩
  | m + 1, f, y => by
    unfold seqFin
    constructor
    · intro h
      split at h
      · simp at h
      · rename_i a ha
        split at h
        · simp at h
        · rename_i g hg
          simp only [Except.ok.injEq] at h
          subst h
          have := (seqFin_ok m _ g).1 hg
          intro i
          refine Fin.cases ?_ (fun i => ?_) i
          · simpa using ha
          · simpa using this i
    · intro h
      rw [h 0]
      have : seqFin m (fun i => f i.succ) = .ok fun i => y i.succ := (seqFin_ok m _ _).2 fun i => h i.succ
      simp only [this]
      refine congrArg Except.ok ?_
      funext i
      refine Fin.cases ?_ (fun i => ?_) i <;> simp

theorem seqFin_pure {α : Type} (m : ℕ) (y : Fin m → α) : seqFin m (fun i => .ok (y i)) = .ok y :=
  (seqFin_ok m _ y).2 fun _ => rfl

/-! ### shapes -/

section shapes

theorem parse_of1 (Nf : ℕ) (x : Fin n → ℝ) :
    parseSignal n Nf (Arr.of1 x) = .ok (.analysis 1 fun i _ => x i) := by
  unfold parseSignal
  simp only [Arr.of1, Arr.needsFeatureDim, Arr.ndim, Arr.withSignalDim, Arr.expandDims]
  simp [Arr.toSig, List.insertIdx, List.eraseIdx]

/-- a 2-D array whose second dimension is not `Nf` (or is 1) is a set of signals -/
theorem parse_of2_analysis (Nf : ℕ) {k : ℕ} (x : Fin n → Fin k → ℝ) (h : k = 1 ∨ k ≠ Nf) :
    parseSignal n Nf (Arr.of2 x) = .ok (.analysis k x) := by
  unfold parseSignal
  by_cases hk : k = 1
  · subst hk
    have h1 : (Arr.of2 x).needsFeatureDim Nf = false := by simp [Arr.of2, Arr.needsFeatureDim, Arr.ndim, Arr.last]
    have h2 : (Arr.of2 x).withSignalDim = (Arr.of2 x).expandDims 1 := by simp [Arr.of2, Arr.withSignalDim, Arr.ndim]
    rw [h1, h2]
    simp only [Arr.of2, ne_eq, not_true, if_false, Bool.false_eq_true]
    simp only [Arr.toSig, Arr.expandDims, List.insertIdx, List.modifyTailIdx, List.modifyTailIdx.go]
    refine congrArg Except.ok (congrArg (Sig.analysis 1) ?_)
    funext i j
    have hj : j = 0 := Subsingleton.elim _ _
    subst hj
    simp [List.eraseIdx]
  · have hk' : k ≠ Nf := h.resolve_left hk
    have h1 : (Arr.of2 x).needsFeatureDim Nf = true := by
      simp [Arr.of2, Arr.needsFeatureDim, Arr.ndim, Arr.last, hk, hk']
    rw [h1]
    have h2 : (((Arr.of2 x).expandDims (Arr.of2 x).ndim).withSignalDim) = (Arr.of2 x).expandDims 2 := by
      simp [Arr.of2, Arr.withSignalDim, Arr.ndim, Arr.expandDims, List.insertIdx]
    rw [h2]
    have h3 : (Arr.of2 x).ndim ≠ 3 := by simp [Arr.of2, Arr.ndim]
    rw [if_neg h3]
    simp only [Arr.of2, ne_eq, not_true, if_false, if_true]
    simp only [Arr.toSig, Arr.expandDims, List.insertIdx, List.modifyTailIdx, List.modifyTailIdx.go, if_true]
    refine congrArg Except.ok (congrArg (Sig.analysis k) ?_)
    funext i j
    simp [List.eraseIdx]

/-- a 2-D array whose second dimension is `Nf > 1` is one signal with `Nf` features -/
theorem parse_of2_synthesis (Nf : ℕ) (x : Fin n → Fin Nf → ℝ) (h : Nf ≠ 1) :
    parseSignal n Nf (Arr.of2 x) = .ok (.synthesis 1 fun i _ k => x i k) := by
  unfold parseSignal
  have h1 : (Arr.of2 x).needsFeatureDim Nf = false := by simp [Arr.of2, Arr.needsFeatureDim, Arr.ndim, Arr.last]
  have h2 : (Arr.of2 x).withSignalDim = (Arr.of2 x).expandDims 1 := by simp [Arr.of2, Arr.withSignalDim, Arr.ndim]
  rw [h1, h2]
  simp only [Arr.of2, ne_eq, not_true, if_false, Bool.false_eq_true]
  simp only [Arr.toSig, Arr.expandDims, List.insertIdx, List.modifyTailIdx, List.modifyTailIdx.go]
  rw [if_neg h]
  refine congrArg Except.ok (congrArg (Sig.synthesis 1) ?_)
  funext i j k
  simp [List.eraseIdx]

theorem of3_dims {k p : ℕ} (x : Fin n → Fin k → Fin p → ℝ) : (Arr.of3 x).withSignalDim = Arr.of3 x := by
  simp [Arr.of3, Arr.withSignalDim, Arr.ndim]

theorem parse_of3_analysis (Nf : ℕ) {k : ℕ} (x : Fin n → Fin k → Fin 1 → ℝ) :
    parseSignal n Nf (Arr.of3 x) = .ok (.analysis k fun i j => x i j 0) := by
  unfold parseSignal
  have h1 : (Arr.of3 x).needsFeatureDim Nf = false := by simp [Arr.of3, Arr.needsFeatureDim, Arr.ndim, Arr.last]
  rw [h1, of3_dims]
  simp only [Arr.of3, ne_eq, not_true, if_false, Bool.false_eq_true]
  simp only [Arr.toSig, if_true]
  refine congrArg Except.ok (congrArg (Sig.analysis k) ?_)
  funext i j
  simp

theorem parse_of3_synthesis (Nf : ℕ) {k : ℕ} (x : Fin n → Fin k → Fin Nf → ℝ) (h : Nf ≠ 1) :
    parseSignal n Nf (Arr.of3 x) = .ok (.synthesis k x) := by
  unfold parseSignal
  have h1 : (Arr.of3 x).needsFeatureDim Nf = false := by simp [Arr.of3, Arr.needsFeatureDim, Arr.ndim, Arr.last]
  rw [h1, of3_dims]
  simp only [Arr.of3, ne_eq, not_true, if_false, Bool.false_eq_true]
  simp only [Arr.toSig]
  rw [if_neg h]
  refine congrArg Except.ok (congrArg (Sig.synthesis k) ?_)
  funext i j k
  simp

theorem parse_of3_bad (Nf : ℕ) {k p : ℕ} (x : Fin n → Fin k → Fin p → ℝ) (h : p ≠ Nf) (h1 : p ≠ 1) :
    parseSignal n Nf (Arr.of3 x) = .error .valueError := by
  unfold parseSignal
  have h1 : (Arr.of3 x).needsFeatureDim Nf = true := by simp [Arr.of3, Arr.needsFeatureDim, Arr.ndim, Arr.last, h, h1]
  rw [h1]
  simp [Arr.of3, Arr.ndim]

theorem unsq_one (s idx : List ℕ) : Arr.unsqueeze (1 :: s) idx = 0 :: Arr.unsqueeze s idx := by
  cases idx <;> rfl

theorem unsq_ne {d : ℕ} (h : d ≠ 1) (s : List ℕ) (i : ℕ) (idx : List ℕ) :
    Arr.unsqueeze (d :: s) (i :: idx) = i :: Arr.unsqueeze s idx := by
  conv_lhs => unfold Arr.unsqueeze
  split <;> simp_all

theorem unsq_nil {d : ℕ} (h : d ≠ 1) (s : List ℕ) : Arr.unsqueeze (d :: s) [] = [] := by
  conv_lhs => unfold Arr.unsqueeze
  split <;> simp_all

theorem squeeze_211 (hn : n ≠ 1) (y : Fin n → Fin 1 → Fin 1 → ℝ) :
    (Arr.of3 y).squeeze = Arr.of1 fun i => y i 0 0 := by
  ext1
  · simp [Arr.squeeze, Arr.of3, Arr.of1, hn]
  · funext idx
    show (Arr.of3 y).val (Arr.unsqueeze [n, 1, 1] idx) = _
    rcases idx with _ | ⟨i, _ | ⟨j, idx⟩⟩
    · rw [unsq_nil hn]; rfl
    · rw [unsq_ne hn, unsq_one, unsq_one]
      simp [Arr.of3, Arr.of1, Arr.unsqueeze]
    · rw [unsq_ne hn, unsq_one, unsq_one]
      simp [Arr.of3, Arr.of1, Arr.unsqueeze]

theorem squeeze_2m1 (hn : n ≠ 1) {m : ℕ} (hm : m ≠ 1) (y : Fin n → Fin m → Fin 1 → ℝ) :
    (Arr.of3 y).squeeze = Arr.of2 fun i j => y i j 0 := by
  ext1
  · simp [Arr.squeeze, Arr.of3, Arr.of2, hn, hm]
  · funext idx
    show (Arr.of3 y).val (Arr.unsqueeze [n, m, 1] idx) = _
    rcases idx with _ | ⟨i, _ | ⟨j, _ | ⟨k, idx⟩⟩⟩
    · rw [unsq_nil hn]; rfl
    · rw [unsq_ne hn, unsq_nil hm]; rfl
    · rw [unsq_ne hn, unsq_ne hm, unsq_one]
      simp [Arr.of3, Arr.of2, Arr.unsqueeze]
    · rw [unsq_ne hn, unsq_ne hm, unsq_one]
      simp [Arr.of3, Arr.of2, Arr.unsqueeze]

theorem squeeze_21p (hn : n ≠ 1) {p : ℕ} (hp : p ≠ 1) (y : Fin n → Fin 1 → Fin p → ℝ) :
    (Arr.of3 y).squeeze = Arr.of2 fun i k => y i 0 k := by
  ext1
  · simp [Arr.squeeze, Arr.of3, Arr.of2, hn, hp]
  · funext idx
    show (Arr.of3 y).val (Arr.unsqueeze [n, 1, p] idx) = _
    rcases idx with _ | ⟨i, _ | ⟨j, _ | ⟨k, idx⟩⟩⟩
    · rw [unsq_nil hn]; rfl
    · rw [unsq_ne hn, unsq_one, unsq_nil hp]; rfl
    · rw [unsq_ne hn, unsq_one, unsq_ne hp]
      simp [Arr.of3, Arr.of2, Arr.unsqueeze]
    · rw [unsq_ne hn, unsq_one, unsq_ne hp]
      simp [Arr.of3, Arr.of2, Arr.unsqueeze]

theorem squeeze_2mp (hn : n ≠ 1) {m p : ℕ} (hm : m ≠ 1) (hp : p ≠ 1) (y : Fin n → Fin m → Fin p → ℝ) :
    (Arr.of3 y).squeeze = Arr.of3 y := by
  ext1
  · simp [Arr.squeeze, Arr.of3, hn, hm, hp]
  · funext idx
    show (Arr.of3 y).val (Arr.unsqueeze [n, m, p] idx) = _
    rcases idx with _ | ⟨i, _ | ⟨j, _ | ⟨k, idx⟩⟩⟩
    · rw [unsq_nil hn]
    · rw [unsq_ne hn, unsq_nil hm]
    · rw [unsq_ne hn, unsq_ne hm, unsq_nil hp]
    · rw [unsq_ne hn, unsq_ne hm, unsq_ne hp]
      rfl

end shapes

/-! ### exact filtering -/

section exact
open GState

variable {S : Solvers n}

theorem getBasis_stored {s s' : GState n} {b : Basis n} (h : s.getBasis S = (.ok (some b), s')) :
    s'.basis = some b ∧ s'.getBasis S = (.ok (some b), s') := by
  have h2 : s'.basis = some b := by
    unfold getBasis at h
    split at h
    · rename_i b' hb'
      simp only [Prod.mk.injEq, Except.ok.injEq, Option.some.injEq] at h
      rw [← h.2, hb', h.1]
    · simp only at h
      split at h
      · simp at h
      · simp only [Prod.mk.injEq, Except.ok.injEq] at h
        rw [← h.2, h.1]
  refine ⟨h2, ?_⟩
  unfold getBasis
  rw [h2]

theorem gft_eq {R : Type} [AddCommGroup R] [Module ℝ R] {s : GState n} {b : Basis n}
    (h : s.getBasis S = (.ok (some b), s)) (x : Fin n → R) :
    s.gft S ⟨n, x⟩ = (.ok ⟨b.k, fun j => ∑ i, b.U i j • x i⟩, s) := by
  unfold gft checkSignal
  rw [dif_pos rfl]
  simp only [h]
  rfl

theorem igft_eq {R : Type} [AddCommGroup R] [Module ℝ R] {s : GState n} {b : Basis n}
    (h : s.getBasis S = (.ok (some b), s)) (hk : b.k = n) (y : Fin b.k → R) :
    s.igft S ⟨b.k, y⟩ = (.ok ⟨n, fun i => ∑ j, b.U i j • y j⟩, s) := by
  obtain ⟨k, e, U⟩ := b
  simp only at hk
  subst hk
  unfold igft checkSignal
  rw [dif_pos rfl]
  simp only [h]
  rfl

theorem exactAnalysis_eq (f : Bank) {s s' : GState n} {b : Basis n} (h : s.getBasis S = (.ok (some b), s'))
    (hk : b.k = n) {y : Fin f.Nf → Fin b.k → ℝ} (hy : f.evaluate b.e = .ok y) {ns : ℕ} (x : Fin n → Fin ns → ℝ) :
    f.exactAnalysis S x s = (.ok fun v j i => (spectralOp b.U (y i) * Matrix.of x) v j, s') := by
  have h' := (getBasis_stored h).2
  unfold Bank.exactAnalysis Bank.exactAnalysisWith
  simp only [h, hy]
  rw [if_neg (not_not.2 hk)]
  rw [gft_eq h']
  simp only [dite_true]
  rw [igft_eq h' hk]
  simp only [dite_true]
  refine congrArg (fun z => (Except.ok z, s')) ?_
  funext v j i
  simp only [Fin.cast_eq_self, Finset.sum_apply, Pi.smul_apply, smul_eq_mul, spectralOp]
  rw [Matrix.mul_assoc, Matrix.mul_apply]
  simp only [Matrix.mul_diagonal]
  refine Finset.sum_congr rfl fun l _ => ?_
  rw [Matrix.mul_apply]
  simp only [Matrix.transpose_apply, Matrix.of_apply]
  ring

theorem exactSynthesis_eq (f : Bank) {s s' : GState n} {b : Basis n} (h : s.getBasis S = (.ok (some b), s'))
    (hk : b.k = n) {y : Fin f.Nf → Fin b.k → ℝ} (hy : f.evaluate b.e = .ok y) {ns : ℕ}
    (x : Fin n → Fin ns → Fin f.Nf → ℝ) :
    f.exactSynthesis S x s =
      (.ok fun v j _ => ∑ i, (spectralOp b.U (y i) * Matrix.of fun v j => x v j i) v j, s') := by
  have h' := (getBasis_stored h).2
  unfold Bank.exactSynthesis Bank.exactSynthesisWith
  simp only [h, hy]
  rw [if_neg (not_not.2 hk)]
  rw [gft_eq h']
  simp only [dite_true]
  rw [igft_eq h' hk]
  simp only [dite_true]
  refine congrArg (fun z => (Except.ok z, s')) ?_
  funext v j i
  simp only [Fin.cast_eq_self, Finset.sum_apply, Pi.smul_apply, smul_eq_mul, spectralOp]
  simp only [Finset.mul_sum]
  rw [Finset.sum_comm]
  refine Finset.sum_congr rfl fun i _ => ?_
  rw [Matrix.mul_assoc, Matrix.mul_apply]
  simp only [Matrix.mul_diagonal]
  refine Finset.sum_congr rfl fun l _ => ?_
  rw [Matrix.mul_apply]
  simp only [Matrix.transpose_apply, Matrix.of_apply, Finset.sum_mul, Finset.mul_sum]
  refine Finset.sum_congr rfl fun w _ => ?_
  ring

end exact

end PyGSP
