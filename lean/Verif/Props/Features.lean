import Verif.Model.Features
import Verif.Props.Cheby
import Verif.Props.FilterWitness
import Verif.Lemmas.Single

/-!
# C86: `pygsp.features`
-/

namespace PyGSP.Features

open Matrix Polynomial Spec GState Classical

variable {n : ℕ}

/-! ## The average degree -/

/-- **C86** What `compute_avg_adj_deg` computes, after any history of calls: the number of vertices that can be reached in exactly two steps along positive
weights, divided by one plus the number of neighbours. -/
theorem C86_avg_adj_deg {S : Solvers n} (hS : Sound S) {g : Graph n ℝ} (hg : g.Built) (ops : List (Op n)) {s : GState n}
    (hs : s = runAll S ops (GState.ofGraph g)) (i : Fin n) :
    (avgAdjDeg s).1 i = (Finset.univ.filter fun j => ∃ k, 0 < g.W.dense i k ∧ 0 < g.W.dense k j).card /
      ((Finset.univ.filter fun j => 0 < g.W.dense i j).card + 1 : ℝ) := by
  have hA := (C18_structure hS hg ops hs).2.2.2.1
  simp only [avgAdjDeg, hA, countRow, boolMul, posAdj, decide_eq_true_eq]

/-- Violation: this is not the average of the degrees of the vertex and of its neighbours.  On the complete graph with unit weights and at least three vertices
it is 1, when all the degrees are `N - 1`. -/
theorem C86_avg_violated {S : Solvers n} (hS : Sound S) {g : Graph n ℝ} (hg : g.Built) (ops : List (Op n)) {s : GState n}
    (hs : s = runAll S ops (GState.ofGraph g)) (hn : 3 ≤ n) (hW : ∀ i j, g.W.dense i j = if i = j then 0 else 1) (i : Fin n) :
    (avgAdjDeg s).1 i = 1 ∧ ∀ j, s.getD.1 j = n - 1 := by
  have hpos : ∀ i j, 0 < g.W.dense i j ↔ i ≠ j := by
    intro i j
    rw [hW]
    by_cases h : i = j <;> simp [h]
  constructor
  · rw [C86_avg_adj_deg hS hg ops hs]
    have h1 : (Finset.univ.filter fun j => ∃ k, 0 < g.W.dense i k ∧ 0 < g.W.dense k j) = Finset.univ := by
      ext j
      simp only [Finset.mem_filter, Finset.mem_univ, true_and, iff_true, hpos]
      have : (({i, j} : Finset (Fin n))ᶜ).Nonempty := by
        rw [← Finset.card_pos, Finset.card_compl, Fintype.card_fin]
        have := Finset.card_le_two (a := i) (b := j)
        omega
      obtain ⟨k, hk⟩ := this
      simp only [Finset.mem_compl, Finset.mem_insert, Finset.mem_singleton, not_or] at hk
      exact ⟨k, Ne.symm hk.1, hk.2⟩
    have h2 : (Finset.univ.filter fun j => 0 < g.W.dense i j) = Finset.univ.erase i := by
      ext j
      simp only [Finset.mem_filter, Finset.mem_univ, true_and, hpos, Finset.mem_erase, and_true]
      exact ne_comm
    rw [h1, h2, Finset.card_erase_of_mem (Finset.mem_univ _), Finset.card_univ, Fintype.card_fin, Nat.cast_sub (by omega)]
    have : (n : ℝ) ≠ 0 := by
      have : n ≠ 0 := by omega
      exact_mod_cast this
    rw [Nat.cast_one, sub_add_cancel, div_self this]
  · intro j
    have hd := (C18_structure hS hg ops hs).2.1
    rw [hd]
    rw [C07_degree g hg j]
    have h3 : (Finset.univ.filter fun k => g.W.dense k j ≠ 0) = Finset.univ.erase j := by
      ext k
      simp only [Finset.mem_filter, Finset.mem_univ, true_and, hW, Finset.mem_erase, and_true]
      by_cases h : k = j <;> simp [h]
    have h2 : (Finset.univ.filter fun k => g.W.dense j k ≠ 0) = Finset.univ.erase j := by
      ext k
      simp only [Finset.mem_filter, Finset.mem_univ, true_and, hW, Finset.mem_erase, and_true]
      by_cases h : j = k <;> simp [h, eq_comm]
    rw [h2, h3, Finset.card_erase_of_mem (Finset.mem_univ _), Finset.card_univ, Fintype.card_fin, Nat.cast_sub (by omega), Nat.cast_one]
    ring

/-! ## The frame of one filter -/

theorem of2_rows {m m' w : ℕ} (h : m = m') (F : Fin m → Fin w → ℝ) : Arr.of2 F = Arr.of2 fun (i : Fin m') j => F (i.cast h.symm) j := by
  subst h
  rfl

/-- the matrix of a filter with one kernel, computed with the default arguments -/
theorem frame_single {S : Solvers n} {s : GState n} (hi : Inv S s) (hn : 2 ≤ n) {l : ℝ} (h : (s.getLmax S).1 = .ok (some (.fin l))) (hl : l ≠ 0)
    (k : ℝ → ℝ) (q : ℝ[X]) (hq : q.natDegree ≤ 30) (hv : ∀ j : Fin 31, q.eval (chebNode l 31 j) = k (chebNode l 31 j)) :
    (Bank.ofArg (.one (Kernel.pointwise k))).computeFrame S .chebyshev 30 s = (.ok (Arr.of2 fun i v => (aeval s.L q) i v), (s.getLmax S).2) := by
  set f := Bank.ofArg (.one (Kernel.pointwise k)) with hf
  have hev : f.evaluate (chebNode l (30 + 1)) = .ok fun _ j => k (chebNode l 31 j) := by
    refine (seqFin_ok _ _ _).2 fun i => ?_
    rw [Subsingleton.elim (α := Fin 1) i 0]
    rfl
  have hops := ops_cheb_poly (S := S) (f := f) h hl (by simp [hf, Bank.ofArg, Bank.Nf]) (order := 30) (by norm_num) hev (fun _ => q) (fun _ => hq)
    (fun _ j => hv j)
  have hsymm := Bank.ops_symm hi hops
  have hNf : f.Nf = 1 := rfl
  unfold Bank.computeFrame
  rw [Bank.filter_eq, parse_of2_analysis _ _ (.inr (by omega))]
  simp only [hops]
  rw [frame_of_ops hn]
  refine congrArg (fun z => (Except.ok z, (s.getLmax S).2)) ?_
  rw [of2_rows (by rw [hNf, one_mul] : f.Nf * n = n)]
  refine congrArg Arr.of2 ?_
  funext i v
  have hs := congrFun (congrFun (hsymm ⟨0, by omega⟩) i) v
  rw [Matrix.transpose_apply] at hs
  rw [← hs]
  have e2 : (finProdFinEquiv.symm (Fin.cast (by rw [hNf, one_mul] : n = f.Nf * n) i)).2 = i := by
    refine Fin.ext ?_
    simp [finProdFinEquiv, Fin.modNat, Nat.mod_eq_of_lt i.2]
  rw [e2]

/-- `q` is the polynomial of degree at most 30 that takes the values of `k` at the 31 Chebyshev points of `[0, l]`. -/
def Interpolates (q : ℝ[X]) (l : ℝ) (k : ℝ → ℝ) : Prop :=
  q.natDegree ≤ 30 ∧ ∀ j : Fin 31, q.eval (l / 2 * Real.cos (Real.pi * (j + 1 / 2) / 31) + l / 2) =
    k (l / 2 * Real.cos (Real.pi * (j + 1 / 2) / 31) + l / 2)

theorem exists_interpolates {l : ℝ} (hl : l ≠ 0) (k : ℝ → ℝ) : ∃ q, Interpolates q l k := by
  refine ⟨Lagrange.interpolate Finset.univ (chebNode l 31) (fun j => k (chebNode l 31 j)), ?_, fun j => ?_⟩
  · have := Lagrange.degree_interpolate_lt (s := Finset.univ) (v := chebNode l 31)
      (fun j => k (chebNode l 31 j)) (Function.Injective.injOn (chebNode_injective hl _))
    rw [Finset.card_univ, Fintype.card_fin] at this
    exact Polynomial.natDegree_le_of_degree_le (Order.le_of_lt_succ (by exact_mod_cast this))
  · exact Lagrange.eval_interpolate_at_node (v := chebNode l 31) (fun j => k (chebNode l 31 j))
      (Function.Injective.injOn (chebNode_injective hl _)) (Finset.mem_univ j)

/-- a polynomial of degree at most 30 interpolates itself -/
theorem interpolates_self {p : ℝ[X]} (hp : p.natDegree ≤ 30) (l : ℝ) : Interpolates p l fun x => p.eval x := ⟨hp, fun _ => rfl⟩

theorem Interpolates.node {q : ℝ[X]} {l : ℝ} {k : ℝ → ℝ} (h : Interpolates q l k) (j : Fin 31) : q.eval (chebNode l 31 j) = k (chebNode l 31 j) := h.2 j

theorem aeval_sq_diag {L : Matrix (Fin n) (Fin n) ℝ} (hL : Lᵀ = L) (q : ℝ[X]) (i : Fin n) :
    ∑ v, (aeval L q) i v ^ 2 = (aeval L (q ^ 2)) i i := by
  have hs := aeval_symm hL q
  rw [map_pow, sq, Matrix.mul_apply]
  refine Finset.sum_congr rfl fun v _ => ?_
  have : (aeval L q) v i = (aeval L q) i v := by
    conv_lhs => rw [← hs]
    rfl
  rw [this, sq]

theorem normRows_of2 {m w : ℕ} (F : Fin m → Fin w → ℝ) : normRows (Arr.of2 F) = Arr.of1 fun i => √(∑ j, F i j ^ 2) := by
  show Arr.of1 (fun i : Fin m => √(∑ j : Fin w, (Arr.of2 F).val [i, j] ^ 2)) = _
  refine congrArg Arr.of1 ?_
  funext i
  congr 1
  refine Finset.sum_congr rfl fun j _ => ?_
  simp [Arr.of2]

section
variable {S : Solvers n} (hS : Sound S) {g : Graph n ℝ} (hg : g.Built) (ops : List (Op n)) {s : GState n}
  (hs : s = runAll S ops (GState.ofGraph g)) (hn : 2 ≤ n) {l : ℝ} (h : (s.getLmax S).1 = .ok (some (.fin l))) (hl : l ≠ 0)

include hS hg hs hn h hl

/-- **C86** `compute_tig(g)` of a filter with one kernel, after any history: entry `(i, v)` is entry `(i, v)` of `q(L)`, where `q` is the interpolating polynomial of
degree 30 (which exists; it is the kernel itself if that is a polynomial of degree at most 30).  `compute_norm_tig(g)` is the vector of the
`√(q²(L))(i, i)`. -/
theorem C86_tig (k : ℝ → ℝ) (kw : Kwargs) :
    (∃ q, Interpolates q l k) ∧ ∀ q, Interpolates q l k →
      (computeTig S (Bank.ofArg (.one (Kernel.pointwise k))) kw s).1 = .ok (.one (Arr.of2 fun i v => (aeval s.L q) i v)) ∧
      (computeNormTig S (Bank.ofArg (.one (Kernel.pointwise k))) kw s).1 = .ok (.one (Arr.of1 fun i => √((aeval s.L (q ^ 2)) i i))) := by
  obtain ⟨hi, -, -⟩ := reach_inv hS hg ops
  rw [← hs] at hi
  refine ⟨exists_interpolates hl k, fun q hq => ?_⟩
  have hfr := frame_single hi hn h hl k q hq.1 hq.node
  have hNf : (Bank.ofArg (.one (Kernel.pointwise k))).Nf ≤ 1 := le_refl 1
  constructor
  · simp only [computeTig, filterbankHandler, tig, hfr, if_pos (Or.inr hNf)]
  · simp only [computeNormTig, filterbankHandler, normTig, tig, hfr, if_pos (Or.inr hNf), normRows_of2, aeval_sq_diag (Inv.L_transpose hi)]

theorem shiftLoop_ok {s' : GState n} (hL : s'.L = s.L) (hi' : Inv S s') (h' : s'.getLmax S = (.ok (some (.fin l)), s')) (atom : ℝ → ℝ) (M : ℕ) (kw : Kwargs)
    (q : ℕ → ℝ[X]) (hq : ∀ j, Interpolates (q j) l fun x => atom (x - linspace l M j)) (m j : ℕ) (out : ℕ → Fin n → ℝ) :
    ∃ out', shiftLoop S atom l M kw m j out s' = (.ok out', s') ∧
      (∀ t, j ≤ t → t < j + m → ∀ i, out' t i = (aeval s.L (q t ^ 2)) i i) ∧ ∀ t, t < j → out' t = out t := by
  induction m generalizing j out with
  | zero => exact ⟨out, rfl, fun t h1 h2 => by omega, fun t _ => rfl⟩
  | succ m ih =>
    have hfr := frame_single hi' hn (by rw [h']) hl (fun x => atom (x - linspace l M j)) (q j) (hq j).1 (hq j).node
    have hNf : (Bank.ofArg (.one (Kernel.pointwise fun x => atom (x - linspace l M j)))).Nf ≤ 1 := le_refl 1
    have hLt : s.Lᵀ = s.L := by rw [← hL]; exact Inv.L_transpose hi'
    have hnt : computeNormTig S (Bank.ofArg (.one (Kernel.pointwise fun x => atom (x - linspace l M j)))) kw s' =
        (.ok (.one (Arr.of1 fun i => √((aeval s.L (q j ^ 2)) i i))), s') := by
      simp only [computeNormTig, filterbankHandler, normTig, tig, hfr, if_pos (Or.inr hNf), normRows_of2, h', hL, aeval_sq_diag hLt]
    have hcol : column (n := n) (Arr.of1 fun i : Fin n => √((aeval s.L (q j ^ 2)) i i)) = .ok fun i => (aeval s.L (q j ^ 2)) i i := by
      have hsq : (Arr.of1 fun i : Fin n => √((aeval s.L (q j ^ 2)) i i)).squeeze.shape = [n] := by
        simp [Arr.squeeze, Arr.of1]
        omega
      simp only [column]
      rw [if_pos hsq]
      refine congrArg Except.ok ?_
      funext i
      have : (Arr.of1 fun i : Fin n => √((aeval s.L (q j ^ 2)) i i)).squeeze.val [i.1] = √((aeval s.L (q j ^ 2)) i i) := by
        show (Arr.of1 fun i : Fin n => √((aeval s.L (q j ^ 2)) i i)).val (Arr.unsqueeze [n] [i.1]) = _
        rw [unsq_ne (by omega)]
        simp [Arr.of1, Arr.unsqueeze]
      rw [this, Real.sq_sqrt]
      rw [← aeval_sq_diag hLt]
      positivity
    simp only [shiftLoop, hnt, hcol]
    obtain ⟨out', o1, o2, o3⟩ := ih (j + 1) (Function.update out j fun i => (aeval s.L (q j ^ 2)) i i)
    refine ⟨out', o1, fun t h1 h2 i => ?_, fun t ht => ?_⟩
    · rcases Nat.lt_or_ge j t with hjt | hjt
      · exact o2 t hjt (by omega) i
      · obtain rfl : t = j := by omega
        rw [o3 t (by omega), Function.update_self]
    · rw [o3 t (by omega), Function.update_of_ne (by omega)]

/-- **C86** `compute_spectrogram(G, atom, M)` after any history: entry `(i, j)` is `(q_j²(L))(i, i)`, where `q_j` is the polynomial of degree at most 30 that interpolates
`x ↦ atom(x - j lmax / (M - 1))`; by default `atom(x) = exp(-M (x / lmax)²)`.  In terms of any Fourier basis, it is `∑ₖ q_j(e_k)² U(i, k)²`, and the sum of a column is
`∑ₖ q_j(e_k)²`. -/
theorem C86_spectrogram (atom : Option (ℝ → ℝ)) {M : ℕ} (hM : 2 ≤ M) (kw : Kwargs) :
    ∃ (P : Fin n → Fin M → ℝ) (q : Fin M → ℝ[X]), (computeSpectrogram S atom M kw s).1 = .ok P ∧
      (∀ j, Interpolates (q j) l fun x => (atom.getD fun x => Real.exp (-M * (x / l) ^ 2)) (x - j * l / (M - 1))) ∧
      (∀ i j, P i j = (aeval s.L (q j ^ 2)) i i) ∧
      ∀ e (U : Matrix (Fin n) (Fin n) ℝ), IsEigenPairs s.L e U →
        (∀ i j, P i j = ∑ k, (q j).eval (e k) ^ 2 * U i k ^ 2) ∧ ∀ j, ∑ i, P i j = ∑ k, (q j).eval (e k) ^ 2 := by
  obtain ⟨hi, -, -⟩ := reach_inv hS hg ops
  rw [← hs] at hi
  have hln := lmaxNum_of h
  obtain ⟨t1, t2, t3⟩ := lmaxNum_stored hln
  have h' : (s.getLmax S).2.getLmax S = (.ok (some (.fin l)), (s.getLmax S).2) := by
    generalize (s.getLmax S).2 = s' at t1
    unfold getLmax
    rw [t1]
  have hi' : Inv S (s.getLmax S).2 := getLmax_inv hi
  have hex : ∀ j : ℕ, ∃ q, Interpolates q l fun x => (atom.getD (defaultAtom l M)) (x - linspace l M j) := fun j => exists_interpolates hl _
  choose q hq using hex
  obtain ⟨out, o1, o2, -⟩ := shiftLoop_ok hS hg ops hs hn h hl t2 hi' h' (atom.getD (defaultAtom l M)) M kw q hq M 0 fun _ _ => 0
  have hent : ∀ (i : Fin n) (j : Fin M), out j i = (aeval s.L (q j ^ 2)) i i := fun i j => o2 j (by omega) (by have := j.2; omega) i
  have hval : ∀ e (U : Matrix (Fin n) (Fin n) ℝ), IsEigenPairs s.L e U → ∀ (i : Fin n) (j : Fin M), out j i = ∑ k, (q j).eval (e k) ^ 2 * U i k ^ 2 := by
    intro e U hU i j
    rw [hent, aeval_spectral hU, spectralOp_apply]
    refine Finset.sum_congr rfl fun k _ => ?_
    rw [Polynomial.eval_pow]
    ring
  refine ⟨fun i j => out j i, fun j => q j, ?_, fun j => ?_, hent, fun e U hU => ⟨hval e U hU, fun j => ?_⟩⟩
  · simp only [computeSpectrogram, hln, o1]
  · have := hq j
    simp only [linspace, if_neg (by omega : ¬ M = 1)] at this
    refine ⟨this.1, fun t => ?_⟩
    have := this.2 t
    rw [this]
    beta_reduce
    rw [mul_div_assoc (j : ℝ)]
    rfl
  · simp only [hval e U hU]
    rw [Finset.sum_comm]
    refine Finset.sum_congr rfl fun k _ => ?_
    rw [← Finset.mul_sum]
    have := congrFun (congrFun hU.orthonormal k) k
    rw [Matrix.mul_apply, Matrix.one_apply, if_pos rfl] at this
    simp only [Matrix.transpose_apply] at this
    rw [Finset.sum_congr rfl fun i _ => sq (U i k), this, mul_one]

end

theorem handlerLoop_const {func : GState n → Py Arr × GState n} {a : Arr} {s : GState n} (h : func s = (.ok a, s)) (m : ℕ) (out : List Arr) :
    handlerLoop func m out s = (.ok (out ++ List.replicate m a), s) := by
  induction m generalizing out with
  | zero => simp [handlerLoop]
  | succ m ih =>
    simp only [handlerLoop, h]
    rw [ih, List.append_assoc, List.replicate_succ]
    rfl

theorem frame_again {S : Solvers n} {s : GState n} {f : Bank} {A : Arr} (hA : (f.computeFrame S .chebyshev 30 s).1 = .ok A) :
    f.computeFrame S .chebyshev 30 (f.computeFrame S .chebyshev 30 s).2 = (.ok A, (f.computeFrame S .chebyshev 30 s).2) := by
  have hfe := Bank.filter_eq S f (Arr.of2 fun i j : Fin n => if i = j then (1 : ℝ) else 0) .chebyshev 30
  cases hp : parseSignal n f.Nf (Arr.of2 fun i j : Fin n => if i = j then (1 : ℝ) else 0) with
  | error e =>
    have := hfe s
    rw [hp] at this
    simp [Bank.computeFrame, this] at hA
  | ok sig =>
    rcases ho : f.ops S .chebyshev 30 s with ⟨e | M, s'⟩
    · have := hfe s
      rw [hp] at this
      simp only [ho] at this
      simp [Bank.computeFrame, this] at hA
    · have h1 : f.computeFrame S .chebyshev 30 s = ((Bank.act M sig).squeeze.transpose.reshapeRows n, s') := by
        have := hfe s
        rw [hp] at this
        simp only [ho] at this
        simp only [Bank.computeFrame, this]
      have h2 : f.computeFrame S .chebyshev 30 s' = ((Bank.act M sig).squeeze.transpose.reshapeRows n, s') := by
        have := hfe s'
        rw [hp] at this
        simp only [Bank.ops_again ho] at this
        simp only [Bank.computeFrame, this]
      rw [h1] at hA ⊢
      simp only at hA ⊢
      rw [h2, hA]

/-- Violation: for a bank of `Nf ≥ 2` filters, `compute_tig` returns `Nf` times the same matrix, the one of all the filters, instead of one matrix per filter. -/
theorem C86_bank_violated {S : Solvers n} {s : GState n} {f : Bank} (hf : 2 ≤ f.Nf) {A : Arr} (hA : (f.computeFrame S .chebyshev 30 s).1 = .ok A) :
    (computeTig S f {} s).1 = .ok (.many (List.replicate f.Nf A)) ∧
      (computeNormTig S f {} s).1 = .ok (.many (List.replicate f.Nf (normRows A))) := by
  have hc : ¬ (({} : Kwargs).hasI = true ∨ f.Nf ≤ 1) := by
    rintro (h | h)
    · cases h
    · omega
  obtain ⟨m, hm⟩ : ∃ m, f.Nf = m + 1 := ⟨f.Nf - 1, by omega⟩
  have h2 := frame_again hA
  rcases hfr : f.computeFrame S .chebyshev 30 s with ⟨r, s'⟩
  rw [hfr] at hA h2
  simp only at hA h2
  subst hA
  have h1 : tig S f {} s = (.ok A, s') := hfr
  have h3 : normTig S f {} s = (.ok (normRows A), s') := by simp only [normTig, h1]
  have h1' : tig S f {} s' = (.ok A, s') := h2
  have h3' : normTig S f {} s' = (.ok (normRows A), s') := by simp only [normTig, h1']
  constructor
  · simp only [computeTig, filterbankHandler, if_neg hc]
    rw [hm, handlerLoop]
    simp only [h1, handlerLoop_const h1', List.nil_append, List.replicate_succ, List.singleton_append]
  · simp only [computeNormTig, filterbankHandler, if_neg hc]
    rw [hm, handlerLoop]
    simp only [h3, handlerLoop_const h3', List.nil_append, List.replicate_succ, List.singleton_append]

/-- Violation: the argument `method` is ignored: asking for the exact method changes nothing. -/
theorem C86_method_violated (S : Solvers n) (s : GState n) (f : Bank) (method : FMethod) :
    computeTig S f { method := some method } s = computeTig S f {} s ∧ computeNormTig S f { method := some method } s = computeNormTig S f {} s :=
  ⟨rfl, rfl⟩

/-- Violation: `G.plot_spectrogram()` never draws anything: it raises ValueError when the library `pyqtgraph` is installed (four modules are unpacked into three names), ImportError
when it is not; the graph is left alone. -/
theorem C86_plot_violated (installed : Bool) (rest : Option QtModule → GState n → Py Unit × GState n) (s : GState n) :
    plotSpectrogram installed rest s = (.error (if installed then .valueError else .importError), s) := by
  cases installed <;> rfl

/-- The hypotheses of C86 hold for a path with four vertices, and the complete graph with three vertices exists. -/
example : (∃ (g : Graph 4 ℝ) (S : Solvers 4) (l : ℝ), g.Built ∧ Sound S ∧ ((runAll S [.computeFourierBasis none] (GState.ofGraph g)).getLmax S).1 = .ok (some (.fin l)) ∧ l ≠ 0) ∧
    ∃ g : Graph 3 ℝ, g.Built ∧ ∀ i j, g.W.dense i j = if i = j then 0 else 1 := by
  constructor
  · obtain ⟨g, hg, hd, S, hS, s, hs, hk, -, l, ⟨hl, -⟩, hlm⟩ :=
      exists_setup path4 path4_nonneg (i := 0) (j := 1) (by decide) (by simp [path4])
    exact ⟨g, S, l, hg, hS, by rw [← hs]; exact hlm, hl.ne'⟩
  · obtain ⟨g, hg, hd, -⟩ := Graph.exists_built (K := ℝ) (fun i j : Fin 3 => if i = j then 0 else 1)
    exact ⟨g, hg, fun i j => by rw [hd]⟩

end PyGSP.Features
