import Verif.Props.Filter
import Verif.Lemmas.Parse

/-!
# C35 - C37: Chebyshev filtering
-/

namespace PyGSP

open Matrix Spec Polynomial GState

variable {n : ℕ}

/-! ## C35 -/

/-- **`cheby_op`** evaluates the truncated Chebyshev series at the rescaled Laplacian: the block `i` of the result is
`(c_{i,0}/2 I + ∑_{1 ≤ k < M} c_{i,k} T_k(2 L / lmax - I)) s`, with the Chebyshev polynomials `T_k` of Mathlib. -/
theorem C35_cheby_op (S : Solvers n) (s : GState n) {l : ℝ} (h : (s.getLmax S).1 = .ok (some (.fin l))) (hl : l ≠ 0)
    {q M ns : ℕ} (hM : 2 ≤ M) (c : Fin q → Fin M → ℝ) (X : Matrix (Fin n) (Fin ns) ℝ) :
    ∃ R, (chebyOp S c X s).1 = .ok R ∧ ∀ i v j, R (finProdFinEquiv (i, v)) j =
      ((∑ k, (if k.1 = 0 then c i k / 2 else c i k) •
        aeval ((2 / l) • s.L - (1 : Matrix (Fin n) (Fin n) ℝ)) (Chebyshev.T ℝ k)) * X) v j := by
  have h' : Bank.lmaxNum S s = (.ok l, (s.getLmax S).2) := by
    unfold Bank.lmaxNum
    rw [show s.getLmax S = (.ok (some (.fin l)), (s.getLmax S).2) by rw [← h]]
  refine ⟨_, by rw [chebyOp_eq h' hl hM], fun i v j => ?_⟩
  simp only [Matrix.of_apply, Equiv.symm_apply_apply]
  suffices key : aeval (rescaled s.L l) (chebSeries (fun k => if h : k < M then c i ⟨k, h⟩ else 0) M) =
      ∑ k : Fin M, (if k.1 = 0 then c i k / 2 else c i k) •
        aeval ((2 / l) • s.L - (1 : Matrix (Fin n) (Fin n) ℝ)) (Chebyshev.T ℝ k) by rw [key]
  have hsum := Fin.sum_univ_eq_sum_range (n := M) (fun k => (if k = 0 then (if h : k < M then c i ⟨k, h⟩ else 0) / 2 else
    (if h : k < M then c i ⟨k, h⟩ else 0)) • aeval ((2 / l) • s.L - (1 : Matrix (Fin n) (Fin n) ℝ)) (Chebyshev.T ℝ k))
  simp only [Fin.is_lt, dite_true, Fin.eta] at hsum
  rw [hsum, Finset.range_eq_Ico, Finset.sum_eq_sum_Ico_succ_bot (by omega)]
  unfold chebSeries rescaled
  rw [map_add, map_sum, aeval_C, Algebra.algebraMap_eq_smul_one]
  congr 1
  · simp
  · refine Finset.sum_congr rfl fun k hk => ?_
    rw [if_neg (by have := (Finset.mem_Ico.1 hk).1; omega), map_mul, aeval_C, Algebra.algebraMap_eq_smul_one,
      Matrix.smul_mul, Matrix.one_mul]

/-- Fewer than two coefficients raise TypeError; `lmax = 0` (a graph without edges) raises ZeroDivisionError. -/
theorem C35_cheby_op_errors (S : Solvers n) (s : GState n) {q M ns : ℕ} (c : Fin q → Fin M → ℝ)
    (X : Matrix (Fin n) (Fin ns) ℝ) :
    (M < 2 → (chebyOp S c X s).1 = .error .typeError) ∧
    (2 ≤ M → (s.getLmax S).1 = .ok (some (.fin 0)) → (chebyOp S c X s).1 = .error .zeroDivisionError) ∧
    (2 ≤ M → (s.getLmax S).1 = .ok none → (chebyOp S c X s).1 = .error .typeError) := by
  refine ⟨fun h => ?_, fun h hl => ?_, fun h hl => ?_⟩
  · unfold chebyOp; rw [if_pos h]
  · unfold chebyOp; rw [if_neg (by omega)]
    have h' : Bank.lmaxNum S s = (.ok 0, (s.getLmax S).2) := by
      unfold Bank.lmaxNum
      rw [show s.getLmax S = (.ok (some (.fin 0)), (s.getLmax S).2) by rw [← hl]]
    simp [h']
  · unfold chebyOp; rw [if_neg (by omega)]
    have h' : Bank.lmaxNum S s = (.error .typeError, (s.getLmax S).2) := by
      unfold Bank.lmaxNum
      rw [show s.getLmax S = (.ok none, (s.getLmax S).2) by rw [← hl]]
    simp [h']

/-! ## C36 -/

theorem lmaxNum_of {S : Solvers n} {s : GState n} {l : ℝ} (h : (s.getLmax S).1 = .ok (some (.fin l))) :
    Bank.lmaxNum S s = (.ok l, (s.getLmax S).2) := by
  unfold Bank.lmaxNum
  rw [show s.getLmax S = (.ok (some (.fin l)), (s.getLmax S).2) by rw [← h]]

/-- the operators of a Chebyshev filter are interpolating polynomials of `L` -/
theorem ops_cheb_poly {S : Solvers n} {s : GState n} {l : ℝ} (h : (s.getLmax S).1 = .ok (some (.fin l))) (hl : l ≠ 0)
    {f : Bank} (hf : f.Nf ≠ 0) {order : ℕ} (ho : order ≠ 0) {y} (hy : f.evaluate (chebNode l (order + 1)) = .ok y)
    (q : Fin f.Nf → ℝ[X]) (hq : ∀ i, (q i).natDegree ≤ order)
    (hv : ∀ i j, (q i).eval (chebNode l (order + 1) j) = y i j) :
    f.ops S .chebyshev order s = (.ok fun i => aeval s.L (q i), (s.getLmax S).2) := by
  rw [Bank.ops_cheb_intro (lmaxNum_of h) hf ho hl hy]
  refine congrArg (fun z => (Except.ok z, (s.getLmax S).2)) ?_
  funext i
  rw [aeval_rescaled, cheb_unique hl order (y i) (q i) (hq i) (hv i)]

/-- **Chebyshev filtering is polynomial filtering**: `filter(x, method="chebyshev", order=m)` is `q_i(L) x`, where `q_i`
is the unique polynomial of degree at most `m` that takes the values of the kernel `i` at the `m + 1` Chebyshev points
of `[0, lmax]`.  (For every polynomial with these properties, and one exists.) -/
theorem C36_interpolation {S : Solvers n} {s : GState n} {l : ℝ} (h : (s.getLmax S).1 = .ok (some (.fin l))) (hl : l ≠ 0)
    (f : Bank) (hf : f.Nf ≠ 0) (k : Fin f.Nf → ℝ → ℝ) (hk : f.IsPointwise k) (order : ℕ) (ho : order ≠ 0) :
    (∀ q : Fin f.Nf → ℝ[X], (∀ i, (q i).natDegree ≤ order) →
      (∀ i (j : Fin (order + 1)),
        (q i).eval (l / 2 * Real.cos (Real.pi * (j + 1 / 2) / (order + 1 : ℕ)) + l / 2) =
          k i (l / 2 * Real.cos (Real.pi * (j + 1 / 2) / (order + 1 : ℕ)) + l / 2)) →
      ∀ x : Fin n → ℝ, (f.filter S (Arr.of1 x) .chebyshev order s).1 =
        .ok (Arr.of3 fun v (_ : Fin 1) i => (aeval s.L (q i) *ᵥ x) v).squeeze) ∧
    ∃ q : Fin f.Nf → ℝ[X], (∀ i, (q i).natDegree ≤ order) ∧ ∀ i (j : Fin (order + 1)),
        (q i).eval (l / 2 * Real.cos (Real.pi * (j + 1 / 2) / (order + 1 : ℕ)) + l / 2) =
          k i (l / 2 * Real.cos (Real.pi * (j + 1 / 2) / (order + 1 : ℕ)) + l / 2) := by
  constructor
  · intro q hq hv x
    rw [Bank.filter_eq, parse_of1]
    simp only [ops_cheb_poly h hl hf ho (hk.evaluate _) q hq hv]
    rfl
  · refine ⟨fun i => Lagrange.interpolate Finset.univ (chebNode l (order + 1)) (fun j => k i (chebNode l (order + 1) j)),
      fun i => ?_, fun i j => ?_⟩
    · have := Lagrange.degree_interpolate_lt (s := Finset.univ) (v := chebNode l (order + 1))
        (fun j => k i (chebNode l (order + 1) j)) (Function.Injective.injOn (chebNode_injective hl _))
      rw [Finset.card_univ, Fintype.card_fin] at this
      exact Polynomial.natDegree_le_of_degree_le (Order.le_of_lt_succ (by exact_mod_cast this))
    · exact Lagrange.eval_interpolate_at_node (v := chebNode l (order + 1)) (fun j => k i (chebNode l (order + 1) j))
        (Function.Injective.injOn (chebNode_injective hl _)) (Finset.mem_univ j)

section C36

variable {S : Solvers n} (hS : Sound S) {g : Graph n ℝ} (hg : g.Built) (hist : List (Op n)) {s : GState n}
  (hs : s = runAll S hist (GState.ofGraph g))

include hS hg hs

/-- **Chebyshev filtering is exact on polynomials**: when every kernel is a polynomial of degree at most `order`, the two
methods return the same array, for every input (any shape; analysis or synthesis; the exceptions are also the same). -/
theorem C36_polynomials (hW : NonnegW g.W.dense) (hn : 0 < n) (hk : Known s.lapType)
    (hcomplete : ∀ b, s.basis = some b → b.k = n) {l : ℝ} (h : (s.getLmax S).1 = .ok (some (.fin l))) (hl : l ≠ 0)
    (f : Bank) (hf : f.Nf ≠ 0) (p : Fin f.Nf → ℝ[X]) (hp : f.IsPointwise fun i x => (p i).eval x) (order : ℕ)
    (ho : order ≠ 0) (hdeg : ∀ i, (p i).natDegree ≤ order) (a : Arr) :
    (f.filter S a .chebyshev order s).1 = (f.filter S a .exact order s).1 := by
  rw [Bank.filter_eq, Bank.filter_eq, ops_cheb_poly h hl hf ho (hp.evaluate _) p hdeg (fun i j => rfl),
    ops_exact_poly hS hg hist hs hW hn hk hcomplete f _ hp order p (fun i l _ => rfl)]
  cases parseSignal n f.Nf a <;> rfl

/-! ## C37 -/

/-- the operators of a Chebyshev filter vanish beyond `order` hops -/
theorem ops_cheb_support {f : Bank} {order : ℕ} {s' : GState n} {M} (h : f.ops S .chebyshev order s = (.ok M, s'))
    {v w : Fin n} (hvw : ¬ WithinHops g.W.dense order v w) (i : Fin f.Nf) : M i v w = 0 := by
  obtain ⟨hi, hWs, -⟩ := reach_inv hS hg hist
  rw [← hs] at hi hWs
  obtain ⟨l, y, h1, h2, h3, h4, h5, rfl⟩ := Bank.ops_cheb h
  obtain ⟨lt, -, hL, -⟩ := hi.lap
  change (aeval (rescaled s.L l) (chebSeries (chebC (y i)) (order + 1))) v w = 0
  rw [aeval_rescaled]
  refine aeval_support (W := g.W.dense) (fun i j hij h1 h2 => laplacian_support hL hij ?_ ?_) ?_ hvw
  · rw [hWs]; exact h1
  · rw [hWs]; exact h2
  · refine (natDegree_comp_le).trans ?_
    have h6 : (affine l).natDegree ≤ 1 := by
      unfold affine
      exact (natDegree_sub_le _ _).trans (by
        rw [natDegree_one, max_eq_left (Nat.zero_le _)]; exact (natDegree_C_mul_le _ _).trans natDegree_X_le)
    calc _ ≤ order * 1 := Nat.mul_le_mul (natDegree_chebSeries _ order) h6
      _ = order := Nat.mul_one _

/-- **Chebyshev filters are local**: when two inputs of the same shape agree on every vertex within `order` hops of
vertex `v`, the outputs of `filter(..., method="chebyshev", order=order)` agree at `v`.  Any graph (directed, negative
weights), any history, analysis and synthesis. -/
theorem C37_local (f : Bank) (order : ℕ) (a b : Arr) (hab : a.shape = b.shape) (v : Fin n)
    (h : ∀ w : Fin n, WithinHops g.W.dense order v w → ∀ idx, a.val (w :: idx) = b.val (w :: idx)) {y}
    (hy : (f.filter S a .chebyshev order s).1 = .ok y) :
    ∃ z, (f.filter S b .chebyshev order s).1 = .ok z ∧ z.shape = y.shape ∧ ∀ idx, y.val (v :: idx) = z.val (v :: idx) := by
  rw [Bank.filter_eq] at hy
  cases hpa : parseSignal n f.Nf a with
  | error e => rw [hpa] at hy; cases hy
  | ok sa =>
    rw [hpa] at hy
    obtain ⟨sb, hpb, hr⟩ := parse_rel (R := fun w x y => WithinHops g.W.dense order v w → x = y) hab
      (fun i idx hi => h i hi idx) hpa
    cases ho : f.ops S .chebyshev order s with
    | mk r s' =>
      rw [ho] at hy
      cases r with
      | error e => cases hy
      | ok M =>
        simp only [Except.ok.injEq] at hy
        subst hy
        refine ⟨(Bank.act M sb).squeeze, by rw [Bank.filter_eq, hpb]; simp only [ho], ?_, fun idx => ?_⟩
        · cases hr <;> rfl
        have key : ∀ {ns : ℕ} (x y : Fin n → Fin ns → ℝ), (∀ w j, WithinHops g.W.dense order v w → x w j = y w j) →
            ∀ i j, (M i * Matrix.of x) v j = (M i * Matrix.of y) v j := by
          intro ns x y hxy i j
          rw [Matrix.mul_apply, Matrix.mul_apply]
          refine Finset.sum_congr rfl fun w _ => ?_
          by_cases hw : WithinHops g.W.dense order v w
          · rw [Matrix.of_apply, Matrix.of_apply, hxy w j hw]
          · rw [ops_cheb_support hS hg hist hs ho hw, zero_mul, zero_mul]
        by_cases hn1 : n = 1
        · subst hn1
          have hv : ∀ w : Fin 1, w = v := fun w => Subsingleton.elim _ _
          have h0 : WithinHops g.W.dense order v v := withinHops_mono _ (Nat.zero_le _) rfl
          have : sa = sb := by
            cases hr with
            | analysis hh => congr 1; funext i j; rw [hv i]; exact hh v j h0
            | synthesis hh => congr 1; funext i j l; rw [hv i]; exact hh v j l h0
          rw [this]
        · cases hr with
          | analysis hh =>
            rw [squeeze_row rfl hn1, squeeze_row rfl hn1]
            generalize Arr.unsqueeze _ idx = idx'
            unfold Bank.act Arr.of3
            simp only
            split
            · rename_i heq
              obtain ⟨rfl, rfl⟩ := List.cons.inj heq
              split
              · exact key _ _ (fun w j hw => hh w j hw) _ _
              · rfl
            · rfl
          | synthesis hh =>
            rw [squeeze_row rfl hn1, squeeze_row rfl hn1]
            generalize Arr.unsqueeze _ idx = idx'
            unfold Bank.act Arr.of3
            simp only
            split
            · rename_i heq
              obtain ⟨rfl, rfl⟩ := List.cons.inj heq
              split
              · exact Finset.sum_congr rfl fun i _ => key _ _ (fun w j hw => hh w j i hw) _ _
              · rfl
            · rfl

end C36

end PyGSP
