import Verif.Lemmas.Cheby

/-! # A filter bank acts by one matrix per filter -/

namespace PyGSP

open Matrix Spec Polynomial GState

variable {n : ℕ}

theorem seqFin_map {α β : Type} (h : α → β) : ∀ (m : ℕ) (f : Fin m → Py α),
    seqFin m (fun i => (f i).map h) = (seqFin m f).map fun y i => h (y i)
  | 0, f => by
    simp only [seqFin, Except.map]
    exact congrArg Except.ok (_root_.funext fun i => i.elim0)
  | m + 1, f => by
    unfold seqFin
    rw [seqFin_map h m]
    simp only
    cases f 0 with
    | error e => rfl
    | ok a =>
      simp only [Except.map]
      cases seqFin m fun i => f i.succ with
      | error e => rfl
      | ok g =>
        simp only
        refine congrArg Except.ok (_root_.funext fun i => ?_)
        refine Fin.cases ?_ (fun i => ?_) i <;> simp

theorem chebCoeff1_map (g : Kernel) (l : ℝ) (m : ℕ) :
    chebCoeff1 g l m (m + 1) = (g (m + 1) (chebNode l (m + 1))).map fun y (k : Fin (m + 1)) => chebC y k := by
  cases h : g (m + 1) (chebNode l (m + 1)) with
  | error e => unfold chebCoeff1; rw [h]; rfl
  | ok y => rw [chebCoeff1_ok g l m h]; rfl

namespace Bank

/-- The matrices by which the bank acts, or the exception, and the state of the graph afterwards. -/
noncomputable def ops (S : Solvers n) (f : Bank) (method : FMethod) (order : ℕ) (s : GState n) :
    Py (Fin f.Nf → Matrix (Fin n) (Fin n) ℝ) × GState n :=
  match method with
  | .exact =>
    match s.getBasis S with
    | (.error e, s) => (.error e, s)
    | (.ok none, s) => (.error .typeError, s)
    | (.ok (some b), s) =>
      match f.evaluate b.e with
      | .error e => (.error e, s)
      | .ok y => if b.k ≠ n then (.error .assertionError, s) else (.ok fun i => spectralOp b.U (y i), s)
  | .chebyshev =>
    match lmaxNum S s with
    | (.error e, s) => (.error e, s)
    | (.ok l, s) =>
      if f.Nf = 0 then (.error .indexError, s)
      else
        match f.evaluate (chebNode l (order + 1)) with
        | .error e => (.error e, s)
        | .ok y =>
          if order = 0 then (.error .typeError, s)
          else if l = 0 then (.error .zeroDivisionError, s)
          else (.ok fun i => aeval (rescaled s.L l) (chebSeries (chebC (y i)) (order + 1)), s)
  | .other _ => (.error .valueError, s)

/-- the action of the matrices on a signal -/
noncomputable def act {q : ℕ} (M : Fin q → Matrix (Fin n) (Fin n) ℝ) : Sig n q → Arr
  | .analysis _ x => Arr.of3 fun v j i => (M i * Matrix.of x) v j
  | .synthesis _ x => Arr.of3 fun v j (_ : Fin 1) => ∑ i, (M i * Matrix.of fun v j => x v j i) v j

theorem exactAnalysis_ops (S : Solvers n) (f : Bank) {ns : ℕ} (x : Fin n → Fin ns → ℝ) (order : ℕ) (s : GState n) :
    f.exactAnalysis S x s = match f.ops S .exact order s with
      | (.error e, s) => (.error e, s)
      | (.ok M, s) => (.ok fun v j i => (M i * Matrix.of x) v j, s) := by
  rcases hb : s.getBasis S with ⟨_ | _ | b, s'⟩
  · simp only [exactAnalysis, exactAnalysisWith, ops, hb]
  · simp only [exactAnalysis, exactAnalysisWith, ops, hb]
  · cases hy : f.evaluate b.e with
    | error e => simp only [exactAnalysis, exactAnalysisWith, ops, hb, hy]
    | ok y =>
      by_cases hk : b.k = n
      · rw [exactAnalysis_eq f hb hk hy]
        simp only [ops, hb, hy]
        rw [if_neg (not_not.2 hk)]
      · simp only [exactAnalysis, exactAnalysisWith, ops, hb, hy]
        rw [if_pos hk, if_pos hk]

theorem exactSynthesis_ops (S : Solvers n) (f : Bank) {ns : ℕ} (x : Fin n → Fin ns → Fin f.Nf → ℝ) (order : ℕ)
    (s : GState n) :
    f.exactSynthesis S x s = match f.ops S .exact order s with
      | (.error e, s) => (.error e, s)
      | (.ok M, s) => (.ok fun v j _ => ∑ i, (M i * Matrix.of fun v j => x v j i) v j, s) := by
  rcases hb : s.getBasis S with ⟨_ | _ | b, s'⟩
  · simp only [exactSynthesis, exactSynthesisWith, ops, hb]
  · simp only [exactSynthesis, exactSynthesisWith, ops, hb]
  · cases hy : f.evaluate b.e with
    | error e => simp only [exactSynthesis, exactSynthesisWith, ops, hb, hy]
    | ok y =>
      by_cases hk : b.k = n
      · rw [exactSynthesis_eq f hb hk hy]
        simp only [ops, hb, hy]
        rw [if_neg (not_not.2 hk)]
      · simp only [exactSynthesis, exactSynthesisWith, ops, hb, hy]
        rw [if_pos hk, if_pos hk]

theorem chebCoeffs_eval (S : Solvers n) (f : Bank) (hf : f.Nf ≠ 0) (m : ℕ) {s s' : GState n} {l : ℝ}
    (h : lmaxNum S s = (.ok l, s')) : chebCoeffs S f m none s =
      ((f.evaluate (chebNode l (m + 1))).map fun y i (k : Fin (m + 1)) => chebC (y i) k, s') := by
  unfold chebCoeffs
  simp only [h, Option.getD_none, if_true]
  rw [if_neg hf]
  refine congrArg (fun z => (z, s')) ?_
  simp only [chebCoeff1_map]
  rw [seqFin_map]
  rfl

theorem chebAnalysis_ops (S : Solvers n) (f : Bank) {ns : ℕ} (x : Fin n → Fin ns → ℝ) (order : ℕ) (s : GState n) :
    f.chebAnalysis S order x s = match f.ops S .chebyshev order s with
      | (.error e, s) => (.error e, s)
      | (.ok M, s) => (.ok fun v j i => (M i * Matrix.of x) v j, s) := by
  rcases hl : lmaxNum S s with ⟨_ | l, s'⟩
  · simp only [chebAnalysis, chebAnalysisWith, chebCoeffs, ops, hl]
  · by_cases hf : f.Nf = 0
    · simp only [chebAnalysis, chebAnalysisWith, chebCoeffs, ops, hl]
      rw [if_pos hf, if_pos hf]
    · have hst := lmaxNum_stored hl
      cases hy : f.evaluate (chebNode l (order + 1)) with
      | error e =>
        unfold chebAnalysis chebAnalysisWith
        rw [chebCoeffs_eval S f hf order hl, hy]
        simp only [Except.map, ops, hl, hy]
        rw [if_neg hf]
      | ok y =>
        by_cases ho : order = 0
        · unfold chebAnalysis chebAnalysisWith
          rw [chebCoeffs_eval S f hf order hl, hy]
          simp only [Except.map, ops, hl, hy]
          rw [if_neg hf, if_pos ho]
          unfold chebyOp
          rw [if_pos (by omega)]
        · by_cases hl0 : l = 0
          · unfold chebAnalysis chebAnalysisWith
            rw [chebCoeffs_eval S f hf order hl, hy]
            simp only [Except.map, ops, hl, hy]
            rw [if_neg hf, if_neg ho, if_pos hl0]
            unfold chebyOp
            rw [if_neg (by omega)]
            simp only [hst.2.2]
            rw [if_pos (by rw [hl0]; simp)]
          · rw [chebAnalysis_eq f (Nat.pos_of_ne_zero hf) hl hl0 (Nat.pos_of_ne_zero ho) hy]
            simp only [ops, hl, hy]
            rw [if_neg hf, if_neg ho, if_neg hl0, hst.2.1]

theorem chebSynthesis_ops (S : Solvers n) (f : Bank) {ns : ℕ} (x : Fin n → Fin ns → Fin f.Nf → ℝ) (order : ℕ)
    (s : GState n) :
    f.chebSynthesis S order x s = match f.ops S .chebyshev order s with
      | (.error e, s) => (.error e, s)
      | (.ok M, s) => (.ok fun v j _ => ∑ i, (M i * Matrix.of fun v j => x v j i) v j, s) := by
  rcases hl : lmaxNum S s with ⟨_ | l, s'⟩
  · simp only [chebSynthesis, chebSynthesisWith, chebCoeffs, ops, hl]
  · by_cases hf : f.Nf = 0
    · simp only [chebSynthesis, chebSynthesisWith, chebCoeffs, ops, hl]
      rw [if_pos hf, if_pos hf]
    · have hst := lmaxNum_stored hl
      have hne : ∃ i is, List.finRange f.Nf = i :: is := by
        cases h : List.finRange f.Nf with
        | nil => exact absurd (by simpa using congrArg List.length h) hf
        | cons i is => exact ⟨i, is, rfl⟩
      obtain ⟨i, is, his⟩ := hne
      cases hy : f.evaluate (chebNode l (order + 1)) with
      | error e =>
        unfold chebSynthesis chebSynthesisWith
        rw [chebCoeffs_eval S f hf order hl, hy]
        simp only [Except.map, ops, hl, hy]
        rw [if_neg hf]
      | ok y =>
        by_cases ho : order = 0
        · unfold chebSynthesis chebSynthesisWith
          rw [chebCoeffs_eval S f hf order hl, hy]
          simp only [Except.map, ops, hl, hy]
          rw [if_neg hf, if_pos ho, his]
          unfold chebSynthLoop chebyOp
          rw [if_pos (by omega)]
        · by_cases hl0 : l = 0
          · unfold chebSynthesis chebSynthesisWith
            rw [chebCoeffs_eval S f hf order hl, hy]
            simp only [Except.map, ops, hl, hy]
            rw [if_neg hf, if_neg ho, if_pos hl0, his]
            unfold chebSynthLoop chebyOp
            rw [if_neg (by omega)]
            simp only [hst.2.2]
            rw [if_pos (by rw [hl0]; simp)]
          · rw [chebSynthesis_eq f (Nat.pos_of_ne_zero hf) hl hl0 (Nat.pos_of_ne_zero ho) hy]
            simp only [ops, hl, hy]
            rw [if_neg hf, if_neg ho, if_neg hl0, hst.2.1]

/-- `filter` is: shape analysis, then one matrix per filter, then squeeze. -/
theorem filter_eq (S : Solvers n) (f : Bank) (a : Arr) (method : FMethod) (order : ℕ) (s : GState n) :
    f.filter S a method order s = match parseSignal n f.Nf a with
      | .error e => (.error e, s)
      | .ok sig => match f.ops S method order s with
        | (.error e, s) => (.error e, s)
        | (.ok M, s) => (.ok (act M sig).squeeze, s) := by
  unfold filter
  cases parseSignal n f.Nf a with
  | error e => rfl
  | ok sig =>
    cases sig with
    | analysis ns x =>
      cases method with
      | exact =>
        simp only
        rw [exactAnalysis_ops S f x order s]
        rcases f.ops S .exact order s with ⟨_ | M, s'⟩ <;> rfl
      | chebyshev =>
        simp only
        rw [chebAnalysis_ops S f x order s]
        rcases f.ops S .chebyshev order s with ⟨_ | M, s'⟩ <;> rfl
      | other nm => rfl
    | synthesis ns x =>
      cases method with
      | exact =>
        simp only
        rw [exactSynthesis_ops S f x order s]
        rcases f.ops S .exact order s with ⟨_ | M, s'⟩ <;> rfl
      | chebyshev =>
        simp only
        rw [chebSynthesis_ops S f x order s]
        rcases f.ops S .chebyshev order s with ⟨_ | M, s'⟩ <;> rfl
      | other nm => rfl

end Bank

end PyGSP
