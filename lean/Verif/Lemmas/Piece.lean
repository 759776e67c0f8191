import Verif.Lemmas.Transport
import Verif.Spec.Rows
import Verif.Spec.Piece

/-!
# Restricting signals, Laplacians and filters to a piece of a graph
-/

namespace PyGSP

open Matrix Spec GState Polynomial Real

variable {n m : ℕ}

/-- The matrix that selects the entries `ι 0, ι 1, ...` of a vector. -/
def pickQ (ι : Fin m → Fin n) : Matrix (Fin m) (Fin n) ℝ := (1 : Matrix (Fin n) (Fin n) ℝ).submatrix ι id

theorem pickQ_mul {k : ℕ} (ι : Fin m → Fin n) (M : Matrix (Fin n) (Fin k) ℝ) (a : Fin m) (j : Fin k) : (pickQ ι * M) a j = M (ι a) j := by
  simp [pickQ, Matrix.mul_apply, Matrix.one_apply]

theorem mul_pickQ {ι : Fin m → Fin n} (hι : Function.Injective ι) (M : Matrix (Fin m) (Fin m) ℝ) (a b : Fin m) : (M * pickQ ι) a (ι b) = M a b := by
  simp only [pickQ, Matrix.mul_apply, Matrix.submatrix_apply, Matrix.one_apply, id_eq, mul_ite, mul_one, mul_zero]
  rw [Finset.sum_eq_single b]
  · simp
  · intro c _ hc
    rw [if_neg fun h => hc (hι h)]
  · simp

theorem mul_pickQ_off {ι : Fin m → Fin n} {j : Fin n} (hj : ∀ b, ι b ≠ j) (M : Matrix (Fin m) (Fin m) ℝ) (a : Fin m) : (M * pickQ ι) a j = 0 := by
  simp only [pickQ, Matrix.mul_apply, Matrix.submatrix_apply, Matrix.one_apply, id_eq, mul_ite, mul_one, mul_zero]
  exact Finset.sum_eq_zero fun c _ => if_neg (hj c)

section

variable {ι : Fin m → Fin n}

/-- The signal on the piece. -/
def Sig.pick {q : ℕ} (ι : Fin m → Fin n) : Sig n q → Sig m q
  | .analysis ns x => .analysis ns fun v => x (ι v)
  | .synthesis ns x => .synthesis ns fun v => x (ι v)

theorem pick_expandDims (a : Arr) (k : ℕ) {d : ℕ} {r : List ℕ} (h : a.shape = d :: r) :
    (Spec.Arr.pick ι a).expandDims (k + 1) = Spec.Arr.pick ι (a.expandDims (k + 1)) := by
  refine Arr.ext ?_ (funext fun idx => ?_)
  · simp only [Arr.expandDims, Spec.Arr.pick, h, List.tail_cons, List.insertIdx_succ_cons]
  · cases idx with
    | nil => rfl
    | cons i r => simp only [Arr.expandDims, Spec.Arr.pick, List.eraseIdx_cons_succ]

theorem pick_toSig {q : ℕ} (a : Arr) {r : List ℕ} (h : a.shape = n :: r) : (Spec.Arr.pick ι a).toSig m q = (a.toSig n q).map (Sig.pick ι) := by
  have h' : (Spec.Arr.pick ι a).shape = m :: r := by simp [Spec.Arr.pick, h]
  unfold Arr.toSig
  rw [h, h']
  match r with
  | [] => rfl
  | [_] => rfl
  | [ns, f] =>
    dsimp only
    split
    · simp only [Except.map, Sig.pick]
      congr 2
      funext i j
      simp [Spec.Arr.pick]
    · simp only [Except.map, Sig.pick]
      congr 2
      funext i j k
      simp [Spec.Arr.pick]
  | _ :: _ :: _ :: _ => rfl

theorem pick_ndim (a : Arr) {r : List ℕ} (h : a.shape = n :: r) : (Spec.Arr.pick ι a).ndim = a.ndim := by
  simp [Arr.ndim, Spec.Arr.pick, h]

theorem pick_needs {q : ℕ} (a : Arr) {r : List ℕ} (h : a.shape = n :: r) : (Spec.Arr.pick ι a).needsFeatureDim q = a.needsFeatureDim q := by
  unfold Arr.needsFeatureDim
  rw [pick_ndim a h]
  cases r with
  | nil => simp [Arr.ndim, h]
  | cons d r =>
    have : (Spec.Arr.pick ι a).last = a.last := by simp [Arr.last, Spec.Arr.pick, h]
    rw [this]

theorem pick_withSignalDim (a : Arr) {r : List ℕ} (h : a.shape = n :: r) : (Spec.Arr.pick ι a).withSignalDim = Spec.Arr.pick ι a.withSignalDim := by
  unfold Arr.withSignalDim
  rw [pick_ndim a h]
  split
  · exact pick_expandDims a 0 h
  · rfl

theorem withSignalDim_shape (a : Arr) {r : List ℕ} (h : a.shape = n :: r) : ∃ r', a.withSignalDim.shape = n :: r' := by
  unfold Arr.withSignalDim
  split
  · refine ⟨r.insertIdx 0 1, ?_⟩
    simp only [Arr.expandDims, h, List.insertIdx_succ_cons]
  · exact ⟨r, h⟩

theorem pick_parse {q : ℕ} (a : Arr) {r : List ℕ} (h : a.shape = n :: r) : parseSignal m q (Spec.Arr.pick ι a) = (parseSignal n q a).map (Sig.pick ι) := by
  unfold parseSignal
  rw [pick_needs a h, pick_ndim a h]
  have h' : (Spec.Arr.pick ι a).shape = m :: r := by simp [Spec.Arr.pick, h]
  have hd : a.ndim = r.length + 1 := by unfold Arr.ndim; rw [h]; rfl
  rw [h, h']
  dsimp only
  rw [if_neg (show ¬ m ≠ m by simp), if_neg (show ¬ n ≠ n by simp)]
  split
  · split
    · rfl
    · have h2 : (a.expandDims (r.length + 1)).shape = n :: r.insertIdx r.length 1 := by
        simp only [Arr.expandDims, h, List.insertIdx_succ_cons]
      obtain ⟨r', hr'⟩ := withSignalDim_shape _ h2
      rw [hd, pick_expandDims a _ h, pick_withSignalDim _ h2, pick_toSig _ hr']
  · obtain ⟨r', hr'⟩ := withSignalDim_shape _ h
    rw [pick_withSignalDim a h, pick_toSig _ hr']

theorem pick_of3 {k p : ℕ} (x : Fin n → Fin k → Fin p → ℝ) : Spec.Arr.pick ι (Arr.of3 x) = Arr.of3 fun v => x (ι v) := by
  refine Arr.ext rfl (funext fun idx => ?_)
  match idx with
  | [] => rfl
  | [i] => simp [Spec.Arr.pick, Arr.of3]
  | [i, j] => simp [Spec.Arr.pick, Arr.of3]
  | [i, j, k] =>
    by_cases h : i < m
    · simp [Spec.Arr.pick, Arr.of3, h]
    · simp [Spec.Arr.pick, Arr.of3, h]
  | i :: j :: k :: l :: r => simp [Spec.Arr.pick, Arr.of3]

theorem unsqueeze_cons {d : ℕ} (hd : d ≠ 1) (s t : List ℕ) (i : ℕ) : Arr.unsqueeze (d :: s) (i :: t) = i :: Arr.unsqueeze s t := by
  conv_lhs => unfold Arr.unsqueeze
  split
  · rename_i heq; cases heq
  · rename_i h1; exact absurd (List.cons.inj h1).1 hd
  · rename_i heq; cases heq
  · rename_i h1 h2; obtain ⟨rfl, rfl⟩ := List.cons.inj h1; obtain ⟨rfl, rfl⟩ := List.cons.inj h2; rfl

theorem unsqueeze_nil {d : ℕ} (hd : d ≠ 1) (s : List ℕ) : Arr.unsqueeze (d :: s) [] = [] := by
  unfold Arr.unsqueeze
  split
  · rfl
  · rename_i h1; exact absurd (List.cons.inj h1).1 hd
  · rfl
  · rename_i heq; cases heq

theorem unsqueeze_self (s t : List ℕ) (h : ∀ d ∈ s, d ≠ 1) : Arr.unsqueeze s t = t := by
  induction s generalizing t with
  | nil => rfl
  | cons d s ih =>
    cases t with
    | nil => exact unsqueeze_nil (h d (by simp)) s
    | cons i t => rw [unsqueeze_cons (h d (by simp)), ih t fun d hd => h d (by simp [hd])]

/-- Picking commutes with dropping the dimensions of size 1 (which may now include the first one). -/
theorem pick_squeeze (hn : n ≠ 1) {a : Arr} {r : List ℕ} (h : a.shape = n :: r) : (Spec.Arr.pick ι a).squeeze = (Spec.Arr.pick ι a.squeeze).squeeze := by
  have hf : ∀ d ∈ r.filter (· ≠ 1), d ≠ 1 := fun d hd => by simpa using (List.mem_filter.1 hd).2
  have hs : (Spec.Arr.pick ι a).shape = m :: r := by simp [Spec.Arr.pick, h]
  have hs1 : a.squeeze.shape = n :: r.filter (· ≠ 1) := by simp [Arr.squeeze, h, hn]
  have hs2 : (Spec.Arr.pick ι a.squeeze).shape = m :: r.filter (· ≠ 1) := by
    change m :: a.squeeze.shape.tail = _
    rw [hs1, List.tail_cons]
  have hv : ∀ i t, a.squeeze.val (i :: t) = a.val (i :: Arr.unsqueeze r t) := fun i t => by
    change a.val (Arr.unsqueeze a.shape (i :: t)) = _
    rw [h, unsqueeze_cons hn]
  have hv0 : a.squeeze.val [] = a.val [] := by
    change a.val (Arr.unsqueeze a.shape []) = _
    rw [h, unsqueeze_nil hn]
  refine Arr.ext ?_ (funext fun idx => ?_)
  · have e : ∀ b : Arr, b.squeeze.shape = b.shape.filter (· ≠ 1) := fun _ => rfl
    rw [e, e, hs, hs2]
    simp [List.filter_cons]
  · change (Spec.Arr.pick ι a).val (Arr.unsqueeze (Spec.Arr.pick ι a).shape idx) = (Spec.Arr.pick ι a.squeeze).val (Arr.unsqueeze (Spec.Arr.pick ι a.squeeze).shape idx)
    rw [hs, hs2]
    by_cases hm : m = 1
    · subst hm
      have e1 : Arr.unsqueeze (1 :: r) idx = 0 :: Arr.unsqueeze r idx := by rw [Arr.unsqueeze]
      have e2 : Arr.unsqueeze (1 :: r.filter (· ≠ 1)) idx = 0 :: idx := by
        rw [Arr.unsqueeze, unsqueeze_self _ _ hf]
      rw [e1, e2]
      simp only [Spec.Arr.pick, Nat.lt_one_iff, dite_true, hv]
    · cases idx with
      | nil =>
        rw [unsqueeze_nil hm, unsqueeze_nil hm]
        exact hv0.symm
      | cons i t =>
        rw [unsqueeze_cons hm, unsqueeze_cons hm, unsqueeze_self _ _ hf]
        simp only [Spec.Arr.pick, hv]

theorem pick_act {q : ℕ} (hn : n ≠ 1) {M : Fin q → Matrix (Fin n) (Fin n) ℝ} {M' : Fin q → Matrix (Fin m) (Fin m) ℝ}
    (hM : ∀ i, pickQ ι * M i = M' i * pickQ ι) (sig : Sig n q) :
    (Bank.act M' (sig.pick ι)).squeeze = (Spec.Arr.pick ι (Bank.act M sig).squeeze).squeeze := by
  have key : ∀ {k : ℕ} (i : Fin q) (x : Matrix (Fin n) (Fin k) ℝ) (v : Fin m) (j : Fin k),
      (M' i * Matrix.of fun w => x (ι w)) v j = (M i * x) (ι v) j := by
    intro k i x v j
    have e1 : (Matrix.of fun w => x (ι w)) = pickQ ι * x := by ext a b; rw [pickQ_mul]; rfl
    rw [e1, ← Matrix.mul_assoc, ← hM, Matrix.mul_assoc, pickQ_mul]
  cases sig with
  | analysis ns x =>
    simp only [Sig.pick, Bank.act]
    rw [← pick_squeeze (r := [ns, q]) hn rfl, pick_of3]
    congr 2
    funext v j i
    exact key i (Matrix.of x) v j
  | synthesis ns x =>
    simp only [Sig.pick, Bank.act]
    rw [← pick_squeeze (r := [ns, 1]) hn rfl, pick_of3]
    congr 2
    funext v j _
    exact Finset.sum_congr rfl fun i _ => key i (Matrix.of fun v j => x v j i) v j

/-- Filtering a piece of the signal on a piece of the graph, from the matrices of the bank. -/
theorem pick_filter (hn : n ≠ 1) {S : Solvers n} {S' : Solvers m} {f : Bank} {method : FMethod} {order : ℕ} {s : GState n} {s' : GState m}
    (h : (∃ e, (f.ops S method order s).1 = .error e ∧ (f.ops S' method order s').1 = .error e) ∨
      ∃ M M', (f.ops S method order s).1 = .ok M ∧ (f.ops S' method order s').1 = .ok M' ∧ ∀ i, pickQ ι * M i = M' i * pickQ ι)
    (a : Arr) {r : List ℕ} (ha : a.shape = n :: r) :
    (f.filter S' (Spec.Arr.pick ι a) method order s').1 = ((f.filter S a method order s).1).map fun y => (Spec.Arr.pick ι y).squeeze := by
  rw [Bank.filter_eq, Bank.filter_eq, pick_parse a ha]
  cases parseSignal n f.Nf a with
  | error e => rfl
  | ok sig =>
    dsimp only [Except.map]
    rcases h with ⟨e, h1, h2⟩ | ⟨M, M', h1, h2, h3⟩
    · revert h1 h2
      cases f.ops S method order s with
      | mk r t =>
        cases f.ops S' method order s' with
        | mk r' t' =>
          intro h1 h2
          dsimp only at h1 h2
          subst h1 h2
          rfl
    · revert h1 h2
      cases f.ops S method order s with
      | mk r t =>
        cases f.ops S' method order s' with
        | mk r' t' =>
          intro h1 h2
          dsimp only at h1 h2
          subst h1 h2
          exact congrArg Except.ok (pick_act hn h3 sig)

end

/-! ### The Laplacian of a piece -/

section

variable {ι : Fin m → Fin n} {W : Sp n n ℝ} {W' : Sp m m ℝ} (hp : Piece ι W.dense W'.dense)

include hp

theorem piece_sum {F : Fin n → ℝ} (hF : ∀ j, (∀ b, ι b ≠ j) → F j = 0) : ∑ b, F (ι b) = ∑ j, F j := by
  rw [← Finset.sum_image (s := Finset.univ) (g := ι) (f := F) fun a _ b _ hab => hp.injective hab]
  refine Finset.sum_subset (Finset.subset_univ _) fun j _ hj => hF j fun b hb => hj (Finset.mem_image.2 ⟨b, Finset.mem_univ _, hb⟩)

theorem piece_laplacian {lt : LapType} {L : Matrix (Fin n) (Fin n) ℝ} {L' : Matrix (Fin m) (Fin m) ℝ} (hL : laplacian W lt = .ok L) (hL' : laplacian W' lt = .ok L') :
    (∀ a b, L' a b = L (ι a) (ι b)) ∧ ∀ a j, (∀ b, ι b ≠ j) → L (ι a) j = 0 ∧ L j (ι a) = 0 := by
  have hd : ∀ a, dw W' a = dw W (ι a) := by
    intro a
    rw [dw_eq, dw_eq]
    unfold wdeg
    rw [← piece_sum hp (F := fun j => W.dense j (ι a)) fun j hj => (hp.closed a j hj).2, ← piece_sum hp (F := fun j => W.dense (ι a) j) fun j hj => (hp.closed a j hj).1]
    simp only [hp.weights]
  have hw : ∀ a b, lapWeights W' a b = lapWeights W (ι a) (ι b) := by
    intro a b
    rw [lapWeights_apply, lapWeights_apply]
    unfold wsym
    rw [hp.weights, hp.weights]
  have hw0 : ∀ a j, (∀ b, ι b ≠ j) → lapWeights W (ι a) j = 0 ∧ lapWeights W j (ι a) = 0 := by
    intro a j hj
    obtain ⟨h1, h2⟩ := hp.closed a j hj
    rw [lapWeights_apply, lapWeights_apply]
    unfold wsym
    rw [h1, h2]
    norm_num
  have hs : ∀ a, invSqrtDegree W' a = invSqrtDegree W (ι a) := by
    intro a; unfold invSqrtDegree; rw [hd]
  cases lt
  · simp only [laplacian, Except.ok.injEq] at hL hL'
    subst hL hL'
    refine ⟨fun a b => ?_, fun a j hj => ?_⟩
    · simp only [Matrix.sub_apply, Matrix.diagonal_apply, hw, hd, hp.injective.eq_iff]
    · simp only [Matrix.sub_apply, Matrix.diagonal_apply, hw0 a j hj, if_neg (hj a), if_neg (Ne.symm (hj a)), sub_zero, and_self]
  · simp only [laplacian, Except.ok.injEq] at hL hL'
    subst hL hL'
    refine ⟨fun a b => ?_, fun a j hj => ?_⟩
    · simp only [Matrix.of_apply, Matrix.sub_apply, Matrix.one_apply, Matrix.mul_diagonal, Matrix.diagonal_mul, hs, hw, hd, hp.injective.eq_iff]
    · simp only [Matrix.of_apply, Matrix.sub_apply, Matrix.one_apply, Matrix.mul_diagonal, Matrix.diagonal_mul, hw0 a j hj, if_neg (hj a), if_neg (Ne.symm (hj a)),
        mul_zero, zero_mul, sub_zero, hj a, Ne.symm (hj a), false_and, if_false, and_self]
  · simp [laplacian] at hL

theorem piece_Q {lt : LapType} {L : Matrix (Fin n) (Fin n) ℝ} {L' : Matrix (Fin m) (Fin m) ℝ} (hL : laplacian W lt = .ok L) (hL' : laplacian W' lt = .ok L') :
    L' * pickQ ι = pickQ ι * L := by
  obtain ⟨h1, h2⟩ := piece_laplacian hp hL hL'
  ext a j
  rw [pickQ_mul]
  by_cases hj : ∃ b, ι b = j
  · obtain ⟨b, rfl⟩ := hj
    rw [mul_pickQ hp.injective, h1]
  · push Not at hj
    rw [mul_pickQ_off hj, (h2 a j hj).1]

end

end PyGSP
