import Verif.Lemmas.Transport
import Verif.Spec.Rows

/-!
# Relabelling the vertices of signals and of filter outputs
-/

namespace PyGSP

open Matrix Spec GState Polynomial Real

variable {n : ℕ}

/-- The permutation matrix that renames vertices. -/
def permQ (σ : Equiv.Perm (Fin n)) : Matrix (Fin n) (Fin n) ℝ := (1 : Matrix (Fin n) (Fin n) ℝ).submatrix σ.symm id

theorem permQ_mul {m : ℕ} (σ : Equiv.Perm (Fin n)) (M : Matrix (Fin n) (Fin m) ℝ) (i : Fin n) (j : Fin m) : (permQ σ * M) i j = M (σ.symm i) j := by
  simp [permQ, Matrix.mul_apply, Matrix.one_apply]

theorem mul_permQ (σ : Equiv.Perm (Fin n)) (M : Matrix (Fin n) (Fin n) ℝ) (i j : Fin n) : (M * permQ σ) i j = M i (σ j) := by
  simp only [permQ, Matrix.mul_apply, Matrix.submatrix_apply, Matrix.one_apply, id_eq, mul_ite, mul_one, mul_zero]
  rw [Finset.sum_eq_single (σ j)]
  · simp
  · intro b _ hb
    rw [if_neg]
    intro h
    exact hb (by rw [← h]; simp)
  · simp

theorem permQ_det (σ : Equiv.Perm (Fin n)) : (permQ σ).det ≠ 0 := by
  refine fun h => one_ne_zero (α := ℝ) ?_
  have : permQ σ * permQ σ.symm = 1 := by
    ext i j
    rw [permQ_mul]
    simp only [permQ, Matrix.submatrix_apply, Matrix.one_apply, id_eq, Equiv.symm_symm, Equiv.apply_symm_apply]
  calc (1 : ℝ) = (permQ σ * permQ σ.symm).det := by rw [this, Matrix.det_one]
    _ = 0 := by rw [Matrix.det_mul, h, zero_mul]

/-- The signal with its vertices renamed. -/
def Sig.relabel {q : ℕ} (σ : Equiv.Perm (Fin n)) : Sig n q → Sig n q
  | .analysis ns x => .analysis ns fun v => x (σ.symm v)
  | .synthesis ns x => .synthesis ns fun v => x (σ.symm v)

theorem relabel_expandDims (σ : Equiv.Perm (Fin n)) (a : Arr) (k : ℕ) : (Spec.Arr.relabel σ a).expandDims (k + 1) = Spec.Arr.relabel σ (a.expandDims (k + 1)) := by
  refine Arr.ext rfl (funext fun idx => ?_)
  cases idx with
  | nil => rfl
  | cons i r =>
    simp only [Arr.expandDims, Spec.Arr.relabel, List.eraseIdx_cons_succ]

theorem relabel_toSig {q : ℕ} (σ : Equiv.Perm (Fin n)) (a : Arr) : (Spec.Arr.relabel σ a).toSig n q = (a.toSig n q).map (Sig.relabel σ) := by
  unfold Arr.toSig
  have : (Spec.Arr.relabel σ a).shape = a.shape := rfl
  rw [this]
  split
  · split
    · simp only [Except.map, Sig.relabel]
      congr 2
      funext i j
      simp [Spec.Arr.relabel]
    · simp only [Except.map, Sig.relabel]
      congr 2
      funext i j k
      simp [Spec.Arr.relabel]
  · rfl

theorem relabel_withSignalDim (σ : Equiv.Perm (Fin n)) (a : Arr) : (Spec.Arr.relabel σ a).withSignalDim = Spec.Arr.relabel σ a.withSignalDim := by
  unfold Arr.withSignalDim
  have : (Spec.Arr.relabel σ a).ndim = a.ndim := rfl
  rw [this]
  split
  · exact relabel_expandDims σ a 0
  · rfl

theorem relabel_parse {q : ℕ} (σ : Equiv.Perm (Fin n)) (a : Arr) : parseSignal n q (Spec.Arr.relabel σ a) = (parseSignal n q a).map (Sig.relabel σ) := by
  unfold parseSignal
  have e1 : (Spec.Arr.relabel σ a).shape = a.shape := rfl
  have e2 : (Spec.Arr.relabel σ a).ndim = a.ndim := rfl
  have e3 : (Spec.Arr.relabel σ a).needsFeatureDim q = a.needsFeatureDim q := rfl
  rw [e1, e2, e3]
  cases hsh : a.shape with
  | nil => rfl
  | cons d r =>
    have hd : a.ndim = r.length + 1 := by unfold Arr.ndim; rw [hsh]; rfl
    dsimp only
    split
    · rfl
    · split
      · split
        · rfl
        · rw [hd, relabel_expandDims, relabel_withSignalDim, relabel_toSig]
      · rw [relabel_withSignalDim, relabel_toSig]

theorem relabel_of3 {m p : ℕ} (σ : Equiv.Perm (Fin n)) (x : Fin n → Fin m → Fin p → ℝ) :
    Spec.Arr.relabel σ (Arr.of3 x) = Arr.of3 fun v => x (σ.symm v) := by
  refine Arr.ext rfl (funext fun idx => ?_)
  match idx with
  | [] => rfl
  | [i] => simp [Spec.Arr.relabel, Arr.of3]
  | [i, j] => simp [Spec.Arr.relabel, Arr.of3]
  | [i, j, k] =>
    by_cases h : i < n
    · simp [Spec.Arr.relabel, Arr.of3, h]
    · simp [Spec.Arr.relabel, Arr.of3, h]
  | i :: j :: k :: l :: r => simp [Spec.Arr.relabel, Arr.of3]

theorem relabel_one (a : Arr) : Spec.Arr.relabel (1 : Equiv.Perm (Fin n)) a = a := by
  refine Arr.ext rfl (funext fun idx => ?_)
  cases idx with
  | nil => rfl
  | cons i r =>
    simp only [Spec.Arr.relabel]
    split <;> rfl

theorem relabel_squeeze (σ : Equiv.Perm (Fin n)) {a : Arr} {r : List ℕ} (h : a.shape = n :: r) : (Spec.Arr.relabel σ a).squeeze = Spec.Arr.relabel σ a.squeeze := by
  by_cases hn : n = 1
  · subst hn
    have : σ = 1 := Subsingleton.elim _ _
    rw [this, relabel_one, relabel_one]
  · refine Arr.ext rfl (funext fun idx => ?_)
    have hs : (Spec.Arr.relabel σ a).shape = a.shape := rfl
    cases idx with
    | nil =>
      simp only [Arr.squeeze, Spec.Arr.relabel, h]
      have : Arr.unsqueeze (n :: r) [] = [] := by
        unfold Arr.unsqueeze
        split
        · rfl
        · rename_i h1; exact absurd (List.cons.inj h1).1 hn
        · rfl
        · rename_i heq; cases heq
      rw [this]
    | cons i t =>
      have : ∀ i, Arr.unsqueeze (n :: r) (i :: t) = i :: Arr.unsqueeze r t := by
        intro i
        conv_lhs => unfold Arr.unsqueeze
        split
        · rename_i heq; cases heq
        · rename_i h1; exact absurd (List.cons.inj h1).1 hn
        · rename_i heq; cases heq
        · rename_i h1 h2; obtain ⟨rfl, rfl⟩ := List.cons.inj h1; obtain ⟨rfl, rfl⟩ := List.cons.inj h2; rfl
      simp only [Arr.squeeze, Spec.Arr.relabel, h, this]

theorem relabel_act {q : ℕ} (σ : Equiv.Perm (Fin n)) {M M' : Fin q → Matrix (Fin n) (Fin n) ℝ} (hM : ∀ i, permQ σ * M i = M' i * permQ σ) (sig : Sig n q) :
    (Bank.act M' (sig.relabel σ)).squeeze = Spec.Arr.relabel σ (Bank.act M sig).squeeze := by
  have key : ∀ {k : ℕ} (i : Fin q) (x : Matrix (Fin n) (Fin k) ℝ) (v : Fin n) (j : Fin k),
      (M' i * Matrix.of fun w => x (σ.symm w)) v j = (M i * x) (σ.symm v) j := by
    intro k i x v j
    have e1 : (Matrix.of fun w => x (σ.symm w)) = permQ σ * x := by ext a b; rw [permQ_mul]; rfl
    rw [e1, ← Matrix.mul_assoc, ← hM, Matrix.mul_assoc, permQ_mul]
  cases sig with
  | analysis ns x =>
    simp only [Sig.relabel, Bank.act]
    rw [← relabel_squeeze (r := [ns, q]) σ rfl, relabel_of3]
    congr 2
    funext v j i
    exact key i (Matrix.of x) v j
  | synthesis ns x =>
    simp only [Sig.relabel, Bank.act]
    rw [← relabel_squeeze (r := [ns, 1]) σ rfl, relabel_of3]
    congr 2
    funext v j _
    exact Finset.sum_congr rfl fun i _ => key i (Matrix.of fun v j => x v j i) v j

/-- Filtering a relabelled signal on a relabelled graph, from the matrices of the bank. -/
theorem relabel_filter (σ : Equiv.Perm (Fin n)) {S S' : Solvers n} {f : Bank} {method : FMethod} {order : ℕ} {s s' : GState n}
    (h : (∃ e, (f.ops S method order s).1 = .error e ∧ (f.ops S' method order s').1 = .error e) ∨
      ∃ M M', (f.ops S method order s).1 = .ok M ∧ (f.ops S' method order s').1 = .ok M' ∧ ∀ i, permQ σ * M i = M' i * permQ σ) (a : Arr) :
    (f.filter S' (Spec.Arr.relabel σ a) method order s').1 = ((f.filter S a method order s).1).map (Spec.Arr.relabel σ) := by
  rw [Bank.filter_eq, Bank.filter_eq, relabel_parse]
  cases parseSignal n f.Nf a with
  | error e => rfl
  | ok sig =>
    dsimp only [Except.map]
    rcases h with ⟨e, h1, h2⟩ | ⟨M, M', h1, h2, h3⟩
    · revert h1 h2
      cases f.ops S method order s with
      | mk r t =>
        cases f.ops S' method order s' with
        | mk r' t' =>
          intro h1 h2
          dsimp only at h1 h2
          subst h1 h2
          rfl
    · revert h1 h2
      cases f.ops S method order s with
      | mk r t =>
        cases f.ops S' method order s' with
        | mk r' t' =>
          intro h1 h2
          dsimp only at h1 h2
          subst h1 h2
          exact congrArg Except.ok (relabel_act σ h3 sig)

end PyGSP
