import Verif.Props.Rounding
import Verif.Props.ChebError

/-!
# C142: the total error of Chebyshev filtering
-/

namespace PyGSP

open Matrix Spec Polynomial Rounding

variable {n : ℕ}

namespace Rounding

theorem of3_squeeze_inj {p : ℕ} {y z : Fin n → Fin 1 → Fin p → ℝ} (h : (Arr.of3 y).squeeze = (Arr.of3 z).squeeze) : y = z := by
  have hval : ∀ idx, (Arr.of3 y).val (Arr.unsqueeze [n, 1, p] idx) = (Arr.of3 z).val (Arr.unsqueeze [n, 1, p] idx) := fun idx => congrArg (fun a : Arr => a.val idx) h
  funext v t i
  obtain rfl : t = 0 := Subsingleton.elim _ _
  obtain ⟨idx, hidx⟩ : ∃ idx, Arr.unsqueeze [n, 1, p] idx = [v.1, 0, i.1] := by
    have hv := v.2
    have hi := i.2
    by_cases hn : n = 1
    · by_cases hp : p = 1
      · refine ⟨[], ?_⟩
        subst hn hp
        simp [Arr.unsqueeze]
      · refine ⟨[i.1], ?_⟩
        subst hn
        simp [Arr.unsqueeze, hp]
    · by_cases hp : p = 1
      · refine ⟨[v.1], ?_⟩
        subst hp
        simp [Arr.unsqueeze, hn]
      · exact ⟨[v.1, i.1], by simp [Arr.unsqueeze, hn, hp]⟩
  have := hval idx
  rw [hidx] at this
  simpa [Arr.of3] using this

/-- two Chebyshev series with close coefficients -/
theorem series_len {A U : Matrix (Fin n) (Fin n) ℝ} {w : Fin n → ℝ} (hE : IsEigenPairs A w U) (hw : ∀ i, |w i| ≤ 1) {c d : ℕ → ℝ} {M : ℕ} {κ : ℝ} (hM : 0 < M) (h : ∀ k < M, |c k - d k| ≤ κ)
    (x : Fin n → ℝ) : len (fun v => (aeval A (chebSeries c M) *ᵥ x) v - (aeval A (chebSeries d M) *ᵥ x) v) ≤ M * κ * len x := by
  have hκ : 0 ≤ κ := (abs_nonneg _).trans (h 0 hM)
  have e : (fun v => (aeval A (chebSeries c M) *ᵥ x) v - (aeval A (chebSeries d M) *ᵥ x) v) =
      ((c 0 - d 0) / 2) • x + ∑ k ∈ Finset.Ico 1 M, (c k - d k) • (aeval A (Chebyshev.T ℝ k) *ᵥ x) := by
    have h1 : ∀ c : ℕ → ℝ, aeval A (chebSeries c M) *ᵥ x = (c 0 / 2) • x + ∑ k ∈ Finset.Ico 1 M, c k • (aeval A (Chebyshev.T ℝ k) *ᵥ x) := fun c => by
      unfold chebSeries
      simp only [map_add, map_sum, map_mul, aeval_C, Matrix.add_mulVec, Matrix.sum_mulVec, Algebra.algebraMap_eq_smul_one, Matrix.smul_mulVec, Matrix.one_mulVec, smul_mul_assoc, one_mul]
    rw [h1, h1]
    funext v
    simp only [Pi.add_apply, Pi.smul_apply, smul_eq_mul, Finset.sum_apply, sub_mul, Finset.sum_sub_distrib, sub_div]
    ring
  rw [e]
  refine (len_add _ _).trans ?_
  have h2 : len (((c 0 - d 0) / 2) • x) ≤ κ * len x := by
    rw [len_smul, abs_div, abs_two]
    refine mul_le_mul_of_nonneg_right ?_ (len_nonneg _)
    have := h 0 hM
    linarith
  have h3 : len (∑ k ∈ Finset.Ico 1 M, (c k - d k) • (aeval A (Chebyshev.T ℝ k) *ᵥ x)) ≤ ∑ k ∈ Finset.Ico 1 M, κ * len x := by
    refine (len_sum _ _).trans (Finset.sum_le_sum fun k hk => ?_)
    rw [len_smul]
    exact mul_le_mul (h k (Finset.mem_Ico.1 hk).2) (exact_len hE hw x k) (len_nonneg _) hκ
  rw [Finset.sum_const, Nat.card_Ico, nsmul_eq_mul, Nat.cast_sub (by omega), Nat.cast_one] at h3
  linarith

end Rounding

/-- **C142** The total error of Chebyshev filtering with the combinatorial Laplacian: the arithmetic, the error `κ` of the computed coefficients (`compute_cheby_coeff`), and the error `E` of the
approximation (C97) add up. -/
theorem C142_total {u l : ℝ} {fl : ℝ → ℝ} {S : Solvers n} {g : Graph n ℝ} {s : GState n} (hr : Rounds fl u) (h : Ready S g s) (hc : s.lapType = .combinatorial)
    (hl : (s.getLmax S).1 = .ok (some (.fin l))) (hpos : 0 < l) (hfl : fl l = l) (hup : ∀ t, IsEigenvalue s.L t → t ≤ l)
    {m : ℕ} (hm : ∀ v, (Finset.univ.filter fun w => g.W.dense v w ≠ 0 ∨ g.W.dense w v ≠ 0 ∨ v = w).card ≤ m) {f : Bank} (hf : f.Nf ≠ 0) {k : Fin f.Nf → ℝ → ℝ} (hk : f.IsPointwise k)
    {order : ℕ} (ho : order ≠ 0) (hsmall : 16 * order * (order + 1) * roundings u (m + 5) ≤ 1) {c : Fin f.Nf → Fin (order + 1) → ℝ} (hcoef : (chebCoeffs S f order none s).1 = .ok c)
    {ch : Fin f.Nf → Fin (order + 1) → ℝ} {κ : ℝ} (hκ : ∀ i k, |ch i k - c i k| ≤ κ) {x : Fin n → ℝ} {E : ℝ} (hE : ChebWithin S f order s x E) :
    ∃ (Rh : Matrix (Fin (f.Nf * n)) (Fin 1) ℝ) (z : Fin n → Fin 1 → Fin f.Nf → ℝ), (chebyOpFl fl S ch (Matrix.of fun v (_ : Fin 1) => x v) s).1 = .ok Rh ∧
      (f.filter S (Arr.of1 x) .exact order s).1 = .ok (Arr.of3 z).squeeze ∧
      ∀ i, len (fun v => Rh (finProdFinEquiv (i, v)) 0 - z v 0 i) ≤
        ((2 * roundings u (order + 2) + 16 * order * (order + 1) * roundings u (m + 5)) * (∑ k, |ch i k|) + (order + 1) * κ + E) * len x := by
  obtain ⟨R, Rh, hR, hRh, hb⟩ := C142_combinatorial hr h hc hl hpos hfl hup hm (M := order + 1) (by omega) (by push_cast; rw [add_sub_cancel_right]; exact hsmall) ch (Matrix.of fun v (_ : Fin 1) => x v)
  obtain ⟨y, z, hy, hz, hyz⟩ := hE
  refine ⟨Rh, z, hRh, hz, fun i => ?_⟩
  have hnum := lmaxNum_of hl
  have hev := hk.evaluate (chebNode l (order + 1))
  obtain ⟨e, U, -, hEig⟩ := h.basis
  have hw : ∀ j, |2 / l * e j - 1| ≤ 1 := fun j => by
    have h1 : 0 ≤ 2 / l * e j := mul_nonneg (by positivity) (h.eig_nonneg (hEig.isEigenvalue j))
    have h2 : 2 / l * e j ≤ 2 := by
      rw [div_mul_eq_mul_div, div_le_iff₀ hpos]
      linarith [hup _ (hEig.isEigenvalue j)]
    rw [abs_le]
    constructor <;> linarith
  -- the exact coefficients
  have hc' : c = fun i (o : Fin (order + 1)) => chebC (fun j => k i (chebNode l (order + 1) j)) o := by
    unfold chebCoeffs at hcoef
    simp only [hnum, Option.getD_none, if_true, if_neg hf] at hcoef
    have h1 : seqFin f.Nf (fun i => chebCoeff1 (f.kernels.get i) l order (order + 1)) = .ok fun i (o : Fin (order + 1)) => chebC (fun j => k i (chebNode l (order + 1) j)) o := by
      rw [seqFin_ok]
      intro i
      exact chebCoeff1_ok _ _ _ ((seqFin_ok _ _ _).1 hev i)
    exact Except.ok.inj (hcoef.symm.trans h1)
  -- the exact filtering with the Chebyshev method
  have hy' : y = fun v _ i => (aeval (rescaled s.L l) (chebSeries (chebC fun j => k i (chebNode l (order + 1) j)) (order + 1)) *ᵥ x) v := by
    refine of3_squeeze_inj (Except.ok.inj (hy.symm.trans ?_))
    rw [Bank.filter_eq, parse_of1]
    simp only [Bank.ops_cheb_intro hnum hf ho hpos.ne' hev]
    rfl
  have hR' : ∀ v, R (finProdFinEquiv (i, v)) 0 = (aeval (rescaled s.L l) (chebSeries (fun k => if h : k < order + 1 then ch i ⟨k, h⟩ else 0) (order + 1)) *ᵥ x) v := fun v => by
    rw [chebyOp_eq hnum hpos.ne' (by omega)] at hR
    rw [← Except.ok.inj hR]
    simp only [Matrix.of_apply, Equiv.symm_apply_apply, Matrix.mul_apply, Matrix.mulVec, dotProduct]
  have t1 := hb i 0
  have t2 := series_len (rescaled_pairs hEig l) hw (c := fun k => if h : k < order + 1 then ch i ⟨k, h⟩ else 0) (d := chebC fun j => k i (chebNode l (order + 1) j)) (M := order + 1) (κ := κ) (by omega)
    (fun k hk => by
      have := hκ i ⟨k, hk⟩
      rw [hc'] at this
      simpa [hk] using this) x
  have t3 := hyz i
  have split : (fun v => Rh (finProdFinEquiv (i, v)) 0 - z v 0 i) = ((fun v => Rh (finProdFinEquiv (i, v)) 0 - R (finProdFinEquiv (i, v)) 0) +
      (fun v => (aeval (rescaled s.L l) (chebSeries (fun k => if h : k < order + 1 then ch i ⟨k, h⟩ else 0) (order + 1)) *ᵥ x) v -
        (aeval (rescaled s.L l) (chebSeries (chebC fun j => k i (chebNode l (order + 1) j)) (order + 1)) *ᵥ x) v)) + fun v => y v 0 i - z v 0 i := by
    funext v
    simp only [Pi.add_apply, hR', hy']
    ring
  rw [split]
  refine (len_add _ _).trans ((add_le_add ((len_add _ _).trans (add_le_add t1 t2)) t3).trans (le_of_eq ?_))
  simp only [Matrix.of_apply]
  unfold len
  push_cast
  ring

/-- the hypotheses are met: the cycle of `cycle_witness`, a heat filter and an approximation of order 30 -/
example : ∃ (S : Solvers 4) (g : Graph 4 ℝ) (s : GState 4) (f : Bank) (k : Fin f.Nf → ℝ → ℝ) (c : Fin f.Nf → Fin (30 + 1) → ℝ) (E : ℝ), Ready S g s ∧ s.lapType = .combinatorial ∧
    (s.getLmax S).1 = .ok (some (.fin 4)) ∧ (∀ t, IsEigenvalue s.L t → t ≤ 4) ∧
    (∀ v, (Finset.univ.filter fun w => g.W.dense v w ≠ 0 ∨ g.W.dense w v ≠ 0 ∨ v = w).card ≤ 4) ∧ f.Nf ≠ 0 ∧ f.IsPointwise k ∧
    (16 : ℝ) * (30 : ℕ) * ((30 : ℕ) + 1) * roundings ((2 : ℝ) ^ (-(53 : ℤ))) (4 + 5) ≤ 1 ∧ (chebCoeffs S f 30 none s).1 = .ok c ∧ (∀ x, ChebWithin S f 30 s x E) ∧ E < 1 / 10 ^ 20 ∧
    Rounds (nearest 53) ((2 : ℝ) ^ (-(53 : ℤ))) ∧ nearest 53 4 = 4 := by
  obtain ⟨S, g, s, h, hc, hl, hup, hm, -, -, -, -, -, hr, h4, -, hsm, -⟩ := cycle_witness
  obtain ⟨hist, hs⟩ := h.reached
  have hker := heat_kernels 4 [10]
  have hp : (Design.heat 4 [10] none).IsPointwise fun _ => Design.heatKernel 4 10 := fun i => by
    have hi : i.1 = 0 := by
      have := i.2
      simp only [Bank.Nf, hker, List.length_map, List.length_singleton] at this
      omega
    simp [hker, hi]
  have hf : (Design.heat 4 [10] none).Nf ≠ 0 := by simp [Bank.Nf, hker]
  have hev := hp.evaluate (chebNode 4 (30 + 1))
  have h1 : seqFin (Design.heat 4 [10] none).Nf (fun i => chebCoeff1 ((Design.heat 4 [10] none).kernels.get i) 4 30 (30 + 1)) =
      .ok fun i (o : Fin (30 + 1)) => chebC (fun j => Design.heatKernel 4 10 (chebNode 4 (30 + 1) j)) o := by
    rw [seqFin_ok]
    intro i
    exact chebCoeff1_ok _ _ _ ((seqFin_ok _ _ _).1 hev i)
  have h2 : (chebCoeffs S (Design.heat 4 [10] none) 30 none s).1 = .ok fun _ (o : Fin (30 + 1)) => chebC (fun j => Design.heatKernel 4 10 (chebNode 4 (30 + 1) j)) o := by
    unfold chebCoeffs
    simp only [lmaxNum_of hl, Option.getD_none, if_true, if_neg hf]
    exact h1
  refine ⟨S, g, s, Design.heat 4 [10] none, _, _, 2 * (10 / 4) ^ (30 + 1) / (30 + 1).factorial, h, hc, hl, hup, hm, hf, hp, ?_, h2, fun x => ?_, ?_, hr, h4⟩
  · refine le_trans (le_of_eq ?_) hsm
    push_cast
    ring
  · exact C97_heat h.sound h.built hist hs h.nonneg h.pos h.known h.complete hl (by norm_num) hup (by simp) (τ := 10) (by simp) (by norm_num) x
  · norm_num [Nat.factorial]

end PyGSP
