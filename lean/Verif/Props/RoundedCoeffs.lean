import Verif.Model.RoundedCoeffs
import Verif.Props.RoundedTotal
import Verif.Props.RoundedFourier
import Mathlib.Analysis.Real.Pi.Bounds

/-!
# C149: rounding errors of the Chebyshev coefficients, and of the whole filtering
-/

namespace PyGSP

open Matrix Spec Rounding Real

variable {n : ℕ}

namespace RoundedCoeffs

/-- The error of a computed abscissa, `δ` being the error of the computed cosines. -/
noncomputable def nodeError (u δ l : ℝ) : ℝ := l / 2 * (δ + 7 * roundings u 4)

section

variable {u δ l : ℝ} {fl cosFl : ℝ → ℝ} (hr : Rounds fl u) (hδ : δ ≤ 1) (hcos : ∀ t, |cosFl t - cos t| ≤ δ)
include hr

theorem half_near (j : ℕ) : Near u 1 (fl (j + 1 / 2)) ((j : ℝ) + 1 / 2) (j + 1 / 2) := by
  have := (Near.refl (u := u) ((j : ℝ) + 1 / 2)).round hr
  rwa [abs_of_nonneg (by positivity)] at this

theorem pi_near : Near u 1 (fl π) π π := by
  have := (Near.refl (u := u) π).round hr
  rwa [abs_of_nonneg pi_pos.le] at this

theorem cos_close {N : ℕ} {t th T : ℝ} {k : ℕ} (h : Near u k th t T) (hT : T ≤ 4 * N) (hcos : ∀ t, |cosFl t - cos t| ≤ δ) : |cosFl th - cos t| ≤ δ + 4 * N * roundings u k := by
  have h1 := hcos th
  have h2 : |cos th - cos t| ≤ |th - t| := abs_cos_sub_cos_le th t
  have h3 : |th - t| ≤ roundings u k * (4 * N) := h.1.trans (mul_le_mul_of_nonneg_left hT (roundings_nonneg hr.nonneg k))
  have h4 : cosFl th - cos t = (cosFl th - cos th) + (cos th - cos t) := by ring
  rw [h4]
  refine (abs_add_le _ _).trans ?_
  linarith

theorem angle_close (hcos : ∀ t, |cosFl t - cos t| ≤ δ) {N : ℕ} (o : ℕ) (j : Fin N) : |cosFl (angleFl fl N o j) - cos (π * o * (j + 1 / 2) / N)| ≤ δ + 4 * o * roundings u 5 := by
  have hN : (0 : ℝ) < N := by exact_mod_cast (Nat.zero_le _).trans_lt j.2
  have ho : Near u 0 (o : ℝ) o o := by
    have := Near.refl (u := u) (o : ℝ)
    rwa [abs_of_nonneg (Nat.cast_nonneg o)] at this
  have h := (((((pi_near hr).mul hr.nonneg ho).round hr).mul hr.nonneg (half_near hr j)).round hr |>.div hN).round hr
  refine cos_close hr h ?_ hcos
  have hj : (j : ℝ) + 1 / 2 ≤ N := by
    have : (j : ℝ) + 1 ≤ N := by exact_mod_cast j.2
    linarith
  rw [div_le_iff₀ hN]
  have h4 := pi_le_four
  have := pi_pos
  have h5 : π * o ≤ 4 * o := mul_le_mul_of_nonneg_right h4 (Nat.cast_nonneg o)
  exact mul_le_mul h5 hj (by positivity) (by positivity)

include hδ in
theorem node_close (hcos : ∀ t, |cosFl t - cos t| ≤ δ) (hl : 0 < l) (hfl : fl l = l) {N : ℕ} (j : Fin N) : |nodeFl fl cosFl l N j - chebNode l N j| ≤ nodeError u δ l := by
  have hN : (0 : ℝ) < N := by exact_mod_cast (Nat.zero_le _).trans_lt j.2
  have h := ((((pi_near hr).mul hr.nonneg (half_near hr j)).round hr).div hN).round hr
  have hj : (j : ℝ) + 1 / 2 ≤ N := by
    have : (j : ℝ) + 1 ≤ N := by exact_mod_cast j.2
    linarith
  have hc := cos_close hr (N := 1) h (by
    rw [Nat.cast_one, mul_one, div_le_iff₀ hN]
    exact mul_le_mul pi_le_four hj (by positivity) (by norm_num)) hcos
  rw [Nat.cast_one, mul_one] at hc
  unfold nodeFl chebNode nodeError
  dsimp only
  rw [sub_zero, add_zero, half_lmax hr hfl]
  set th := fl (fl (fl π * fl (j + 1 / 2)) / N)
  set t := π * ((j : ℝ) + 1 / 2) / N
  have hb : |cosFl th| ≤ 1 + δ := by
    have h1 := hcos th
    have h2 := abs_cos_le_one th
    have h3 : cosFl th = (cosFl th - cos th) + cos th := by ring
    rw [h3]
    exact (abs_add_le _ _).trans (by linarith)
  have hx := (((Near.refl (u := u) (l / 2 * cosFl th)).round hr).add ((Near.refl (u := u) (l / 2)).mono hr.nonneg (Nat.zero_le 1) le_rfl)).round hr
  have h1 := hx.1
  rw [abs_mul, abs_of_pos (half_pos hl)] at h1
  have h2 : roundings u 2 ≤ roundings u 4 := roundings_mono hr.nonneg (by norm_num)
  have h3 := roundings_nonneg hr.nonneg 2
  have e : fl (fl (l / 2 * cosFl th) + l / 2) - (l / 2 * cos t + l / 2) = (fl (fl (l / 2 * cosFl th) + l / 2) - (l / 2 * cosFl th + l / 2)) + l / 2 * (cosFl th - cos t) := by ring
  rw [e]
  refine (abs_add_le _ _).trans ?_
  rw [abs_mul, abs_of_pos (half_pos hl)]
  have h4 : |fl (fl (l / 2 * cosFl th) + l / 2) - (l / 2 * cosFl th + l / 2)| ≤ roundings u 2 * (l / 2 * 3) := by
    refine h1.trans (mul_le_mul_of_nonneg_left ?_ h3)
    nlinarith [half_pos hl]
  have h5 : roundings u 2 * (l / 2 * 3) ≤ roundings u 4 * (l / 2 * 3) := mul_le_mul_of_nonneg_right h2 (by positivity)
  have h6 := mul_le_mul_of_nonneg_left hc (half_pos hl).le
  have h7 : (1 : ℕ) + 1 + 1 + 1 = 4 := rfl
  simp only [h7] at h6
  linarith

end

/-- The bound on the error of the computed coefficients: `N` quadrature points, order `m`, error `u` of the arithmetic and `δ` of the cosines, `ε` of the kernel, which varies by at most
`Λ` per unit of frequency and is bounded by `B`. -/
noncomputable def coeffError (u δ l ε Λ B : ℝ) (m N : ℕ) : ℝ :=
  4 * (1 + roundings u (N + 3)) * (ε + Λ * nodeError u δ l) + 4 * roundings u (N + 3) * B + 2 * B * (δ + 4 * m * roundings u 5)

theorem node_range {l : ℝ} (hl : 0 < l) {N : ℕ} (j : Fin N) : 0 ≤ chebNode l N j ∧ chebNode l N j ≤ l := by
  unfold chebNode
  have h1 := neg_one_le_cos (π * ((j : ℝ) + 1 / 2) / N)
  have h2 := cos_le_one (π * ((j : ℝ) + 1 / 2) / N)
  constructor <;> nlinarith

end RoundedCoeffs

open RoundedCoeffs

section

variable {u δ l ε Λ B : ℝ} {fl cosFl ker k : ℝ → ℝ}

/-- **C149** The computed Chebyshev coefficients: whatever the order in which `np.dot` adds, they differ from the exact ones by at most
`4 (1 + g(N + 3)) (ε + Λ η) + 4 g(N + 3) B + 2 B (δ + 4 m g(5))`, where `g(j) = (1 + u)^j - 1` and `η = l / 2 (δ + 7 g(4))` bounds the error of the abscissae: linearly in the order. -/
theorem C149_coefficients (hr : Rounds fl u) (hδ0 : 0 ≤ δ) (hδ : δ ≤ 1) (hcos : ∀ t, |cosFl t - cos t| ≤ δ) (hl : 0 < l) (hfl : fl l = l) (hk : KernelError ker k l (nodeError u δ l) ε Λ B)
    {m N : ℕ} (hN : 0 < N) {ch : Fin (m + 1) → ℝ} (h : CoeffFl fl cosFl ker l m N ch) {c : Fin (m + 1) → ℝ} (hc : chebCoeff1 (Kernel.pointwise k) l m N = .ok c) (o : Fin (m + 1)) :
    |ch o - c o| ≤ coeffError u δ l ε Λ B m N ∧ |c o| ≤ 2 * B := by
  obtain ⟨r, hdot, hch⟩ := h o
  have hc' : c o = 2 / N * ∑ j : Fin N, k (chebNode l N j) * cos (π * o * (j + 1 / 2) / N) := by
    have : chebCoeff1 (Kernel.pointwise k) l m N = .ok fun o => 2 / N * ∑ j : Fin N, k (chebNode l N j) * cos (π * o * (j + 1 / 2) / N) := rfl
    rw [this] at hc
    rw [← Except.ok.inj hc]
  have hu0 := hr.nonneg
  have hNr : (0 : ℝ) < N := by exact_mod_cast hN
  set η := nodeError u δ l with hη
  have hη0 : 0 ≤ η := by
    have := roundings_nonneg hu0 4
    unfold nodeError at hη
    rw [hη]
    positivity
  set yh : Fin N → ℝ := fun j => ker (nodeFl fl cosFl l N j) with hyh
  set ah : Fin N → ℝ := fun j => cosFl (angleFl fl N o j) with hah
  have hB0 : 0 ≤ B := (abs_nonneg _).trans (hk.bound 0 le_rfl hl.le)
  -- the kernel
  have hy : ∀ j, |yh j - k (chebNode l N j)| ≤ ε + Λ * η := fun j => by
    have h1 := node_close hr hδ hcos hl hfl j
    obtain ⟨h2, h3⟩ := node_range hl j
    obtain ⟨h4, h5⟩ := abs_le.1 h1
    have h6 := hk.err (nodeFl fl cosFl l N j) (by linarith) (by linarith)
    have h7 := hk.vary (nodeFl fl cosFl l N j) (chebNode l N j) (by linarith) (by linarith) h2 h3
    have e : yh j - k (chebNode l N j) = (ker (nodeFl fl cosFl l N j) - k (nodeFl fl cosFl l N j)) + (k (nodeFl fl cosFl l N j) - k (chebNode l N j)) := by rw [hyh]; ring
    rw [e]
    refine (abs_add_le _ _).trans ?_
    have := mul_le_mul_of_nonneg_left h1 hk.lip
    linarith
  set E := ε + Λ * η with hE
  have hE0 : 0 ≤ E := add_nonneg hk.eps (mul_nonneg hk.lip hη0)
  have hkb : ∀ j : Fin N, |k (chebNode l N j)| ≤ B := fun j => hk.bound _ (node_range hl j).1 (node_range hl j).2
  have hyb : ∀ j, |yh j| ≤ B + E := fun j => by
    have e : yh j = (yh j - k (chebNode l N j)) + k (chebNode l N j) := by ring
    rw [e]
    exact (abs_add_le _ _).trans (by linarith [hy j, hkb j])
  -- the cosines
  have ha : ∀ j, |ah j - cos (π * o * (j + 1 / 2) / N)| ≤ δ + 4 * m * roundings u 5 := fun j => by
    refine (angle_close hr hcos o j).trans ?_
    have h1 : ((o : ℕ) : ℝ) ≤ m := by exact_mod_cast Nat.lt_succ_iff.1 o.2
    have h2 := mul_le_mul_of_nonneg_right h1 (roundings_nonneg hu0 5)
    linarith
  have hab : ∀ j, |ah j| ≤ 2 := fun j => by
    have h1 := hcos (angleFl fl N o j)
    have h2 := abs_cos_le_one (angleFl fl N o j)
    have e : ah j = (cosFl (angleFl fl N o j) - cos (angleFl fl N o j)) + cos (angleFl fl N o j) := by rw [hah]; ring
    rw [e]
    exact (abs_add_le _ _).trans (by linarith)
  set A := δ + 4 * m * roundings u 5 with hA
  -- the sum of the products
  have hprod : |∑ j, yh j * ah j - ∑ j : Fin N, k (chebNode l N j) * cos (π * o * (j + 1 / 2) / N)| ≤ N * (2 * E + B * A) := by
    rw [← Finset.sum_sub_distrib]
    refine (Finset.abs_sum_le_sum_abs _ _).trans ?_
    have : ∀ j : Fin N, |yh j * ah j - k (chebNode l N j) * cos (π * o * (j + 1 / 2) / N)| ≤ 2 * E + B * A := fun j => by
      have e : yh j * ah j - k (chebNode l N j) * cos (π * o * (j + 1 / 2) / N) =
          (yh j - k (chebNode l N j)) * ah j + k (chebNode l N j) * (ah j - cos (π * o * (j + 1 / 2) / N)) := by ring
      rw [e]
      refine (abs_add_le _ _).trans ?_
      rw [abs_mul, abs_mul]
      have h1 := mul_le_mul (hy j) (hab j) (abs_nonneg _) hE0
      have h2 := mul_le_mul (hkb j) (ha j) (abs_nonneg _) hB0
      linarith
    refine (Finset.sum_le_sum fun j _ => this j).trans ?_
    rw [Finset.sum_const, Finset.card_univ, Fintype.card_fin, nsmul_eq_mul]
  have habs : ∑ j, |yh j| * |ah j| ≤ N * (2 * (B + E)) := by
    refine (Finset.sum_le_sum fun j _ => (mul_le_mul (hyb j) (hab j) (abs_nonneg _) (by linarith))).trans ?_
    rw [Finset.sum_const, Finset.card_univ, Fintype.card_fin, nsmul_eq_mul]
    linarith
  -- the dot product and the final product
  have hn := (dotAny_near hr hdot).2
  rw [Finset.card_univ, Fintype.card_fin] at hn
  have h2N : Near u 1 (fl (2 / N)) (2 / N) (2 / N) := by
    have := (Near.refl (u := u) (2 / (N : ℝ))).round hr
    rwa [abs_of_pos (by positivity)] at this
  have hfin := ((h2N.mul hu0 hn).round hr).mono hu0 (m' := N + 3) (by omega) le_rfl
  have h1 : |ch o - 2 / N * ∑ j, yh j * ah j| ≤ roundings u (N + 3) * (2 / N * (N * (2 * (B + E)))) := by
    rw [hch]
    refine hfin.1.trans (mul_le_mul_of_nonneg_left (mul_le_mul_of_nonneg_left habs (by positivity)) (roundings_nonneg hu0 _))
  have h2 : |2 / N * ∑ j, yh j * ah j - c o| ≤ 2 / N * (N * (2 * E + B * A)) := by
    rw [hc', ← mul_sub, abs_mul, abs_of_pos (show (0 : ℝ) < 2 / N by positivity)]
    exact mul_le_mul_of_nonneg_left hprod (by positivity)
  have e1 : (2 : ℝ) / N * (N * (2 * (B + E))) = 4 * (B + E) := by field_simp; ring
  have e2 : (2 : ℝ) / N * (N * (2 * E + B * A)) = 4 * E + 2 * (B * A) := by field_simp; ring
  rw [e1] at h1
  rw [e2] at h2
  constructor
  · have e : ch o - c o = (ch o - 2 / N * ∑ j, yh j * ah j) + (2 / N * ∑ j, yh j * ah j - c o) := by ring
    rw [e]
    refine (abs_add_le _ _).trans ((add_le_add h1 h2).trans (le_of_eq ?_))
    unfold coeffError
    rw [← hη, ← hE, ← hA]
    ring
  · rw [hc', abs_mul, abs_of_pos (show (0 : ℝ) < 2 / N by positivity)]
    have h3 : |∑ j : Fin N, k (chebNode l N j) * cos (π * o * (j + 1 / 2) / N)| ≤ N * B := by
      refine (Finset.abs_sum_le_sum_abs _ _).trans ((Finset.sum_le_sum fun j _ => ?_).trans (by rw [Finset.sum_const, Finset.card_univ, Fintype.card_fin, nsmul_eq_mul]))
      rw [abs_mul]
      exact (mul_le_mul (hkb j) (abs_cos_le_one _) (abs_nonneg _) hB0).trans (by rw [mul_one])
    refine (mul_le_mul_of_nonneg_left h3 (by positivity)).trans (le_of_eq ?_)
    field_simp

/-- **C149** With exact arithmetic, cosines and kernels, the coefficients are those of the other theorems. -/
theorem C149_exact {m N : ℕ} {ch : Fin (m + 1) → ℝ} (h : CoeffFl (fun x => x) cos k l m N ch) : chebCoeff1 (Kernel.pointwise k) l m N = .ok ch := by
  have : chebCoeff1 (Kernel.pointwise k) l m N = .ok fun o => 2 / N * ∑ j : Fin N, k (chebNode l N j) * cos (π * o * (j + 1 / 2) / N) := rfl
  rw [this]
  congr 1
  funext o
  obtain ⟨r, hr, hc⟩ := h o
  rw [hc, dotAny_exact hr]
  have h1 : ∀ j, nodeFl (fun x => x) cos l N j = chebNode l N j := fun j => by
    unfold nodeFl chebNode
    dsimp only
    rw [sub_zero, add_zero]
  simp only [h1]
  rfl

/-- **C149** There are computed coefficients. -/
theorem C149_exists (fl cosFl ker : ℝ → ℝ) (l : ℝ) (m : ℕ) {N : ℕ} (hN : 0 < N) : ∃ ch, CoeffFl fl cosFl ker l m N ch := by
  have : ∀ o : Fin (m + 1), ∃ r, DotAny fl (fun j => ker (nodeFl fl cosFl l N j)) (fun j => cosFl (angleFl fl N o j)) Finset.univ r := fun o =>
    dotAny_exists _ _ _ _ ⟨⟨0, hN⟩, Finset.mem_univ _⟩
  choose r hr using this
  exact ⟨fun o => fl (fl (2 / N) * r o), fun o => ⟨r o, hr o, rfl⟩⟩

end

/-- **C149** The whole Chebyshev filtering in floating-point arithmetic, from the kernels to the filtered signals, with the combinatorial Laplacian: the error is at most the error `E` of the
approximation (C97), plus `order + 1` times the error `κ` of the coefficients, plus the rounding errors of the recurrence, in which the sum of the absolute coefficients is at most
`(order + 1) (2 B + κ)`. -/
theorem C149_total {u δ l ε Λ B : ℝ} {fl cosFl : ℝ → ℝ} {S : Solvers n} {g : Graph n ℝ} {s : GState n} (hr : Rounds fl u) (hδ0 : 0 ≤ δ) (hδ : δ ≤ 1) (hcos : ∀ t, |cosFl t - cos t| ≤ δ)
    (h : Ready S g s) (hc : s.lapType = .combinatorial) (hl : (s.getLmax S).1 = .ok (some (.fin l))) (hpos : 0 < l) (hfl : fl l = l) (hup : ∀ t, IsEigenvalue s.L t → t ≤ l)
    {m : ℕ} (hm : ∀ v, (Finset.univ.filter fun w => g.W.dense v w ≠ 0 ∨ g.W.dense w v ≠ 0 ∨ v = w).card ≤ m) {f : Bank} (hf : f.Nf ≠ 0) {k ker : Fin f.Nf → ℝ → ℝ} (hk : f.IsPointwise k)
    (hker : ∀ i, KernelError (ker i) (k i) l (nodeError u δ l) ε Λ B) {order : ℕ} (ho : order ≠ 0) (hsmall : 16 * order * (order + 1) * roundings u (m + 5) ≤ 1)
    {ch : Fin f.Nf → Fin (order + 1) → ℝ} (hch : ∀ i, CoeffFl fl cosFl (ker i) l order (order + 1) (ch i)) {x : Fin n → ℝ} {E : ℝ} (hE : ChebWithin S f order s x E) :
    ∃ (Rh : Matrix (Fin (f.Nf * n)) (Fin 1) ℝ) (z : Fin n → Fin 1 → Fin f.Nf → ℝ), (chebyOpFl fl S ch (Matrix.of fun v (_ : Fin 1) => x v) s).1 = .ok Rh ∧
      (f.filter S (Arr.of1 x) .exact order s).1 = .ok (Arr.of3 z).squeeze ∧
      ∀ i, len (fun v => Rh (finProdFinEquiv (i, v)) 0 - z v 0 i) ≤
        ((2 * roundings u (order + 2) + 16 * order * (order + 1) * roundings u (m + 5)) * ((order + 1) * (2 * B + coeffError u δ l ε Λ B order (order + 1))) +
          (order + 1) * coeffError u δ l ε Λ B order (order + 1) + E) * len x := by
  have hnum := lmaxNum_of hl
  have hci : ∀ i, ∃ c, chebCoeff1 (f.kernels.get i) l order (order + 1) = .ok c ∧ ∀ o, |ch i o - c o| ≤ coeffError u δ l ε Λ B order (order + 1) ∧ |c o| ≤ 2 * B := fun i => by
    have e : chebCoeff1 (Kernel.pointwise (k i)) l order (order + 1) = .ok fun o : Fin (order + 1) => 2 / (order + 1 : ℕ) * ∑ j : Fin (order + 1), k i (chebNode l (order + 1) j) * cos (π * o * (j + 1 / 2) / (order + 1 : ℕ)) := rfl
    exact ⟨_, by rw [hk i]; exact e, fun o => C149_coefficients hr hδ0 hδ hcos hpos hfl (hker i) (Nat.succ_pos _) (hch i) e o⟩
  choose c hc1 hc2 using hci
  have hcoef : (chebCoeffs S f order none s).1 = .ok c := by
    unfold chebCoeffs
    simp only [hnum, Option.getD_none, if_true, if_neg hf]
    rw [seqFin_ok]
    exact hc1
  obtain ⟨Rh, z, h1, h2, h3⟩ := C142_total hr h hc hl hpos hfl hup hm hf hk ho hsmall hcoef (fun i o => (hc2 i o).1) hE
  refine ⟨Rh, z, h1, h2, fun i => (h3 i).trans (mul_le_mul_of_nonneg_right ?_ (len_nonneg _))⟩
  have h4 : ∑ o, |ch i o| ≤ (order + 1) * (2 * B + coeffError u δ l ε Λ B order (order + 1)) := by
    have : ∀ o, |ch i o| ≤ 2 * B + coeffError u δ l ε Λ B order (order + 1) := fun o => by
      have e : ch i o = (ch i o - c i o) + c i o := by ring
      rw [e]
      exact (abs_add_le _ _).trans (by linarith [(hc2 i o).1, (hc2 i o).2])
    refine (Finset.sum_le_sum fun o _ => this o).trans (le_of_eq ?_)
    rw [Finset.sum_const, Finset.card_univ, Fintype.card_fin, nsmul_eq_mul]
    push_cast
    ring
  have h5 : 0 ≤ 2 * roundings u (order + 2) + 16 * order * (order + 1) * roundings u (m + 5) := by
    have a1 := roundings_nonneg hr.nonneg (order + 2)
    have a2 := roundings_nonneg hr.nonneg (m + 5)
    positivity
  have := mul_le_mul_of_nonneg_left h4 h5
  linarith

namespace RoundedCoeffs

theorem clip_exp_lip (a b : ℝ) : |min (exp a) 1 - min (exp b) 1| ≤ |a - b| := by
  have key : ∀ a b : ℝ, b ≤ a → |min (exp a) 1 - min (exp b) 1| ≤ |a - b| := fun a b hab => by
    have h1 : min (exp b) 1 ≤ min (exp a) 1 := min_le_min_right _ (exp_le_exp.2 hab)
    rw [abs_of_nonneg (sub_nonneg.2 h1), abs_of_nonneg (sub_nonneg.2 hab)]
    by_cases hb : 0 ≤ b
    · have h2 : 1 ≤ exp b := one_le_exp hb
      rw [min_eq_right h2]
      linarith [min_le_right (exp a) 1]
    · have hb' : exp b ≤ 1 := exp_le_one_iff.2 (not_le.1 hb).le
      rw [min_eq_left hb']
      have h2 : min (exp a) 1 ≤ exp (min a 0) := by
        rcases le_total a 0 with h | h
        · rw [min_eq_left h]; exact min_le_left _ _
        · rw [min_eq_right h, exp_zero]; exact min_le_right _ _
      set c := min a 0
      have hc : c ≤ 0 := min_le_right _ _
      have hca : c ≤ a := min_le_left _ _
      have h3 := add_one_le_exp (b - c)
      have h4 : exp b = exp c * exp (b - c) := by rw [← exp_add]; congr 1; ring
      have h5 := exp_pos c
      have h6 : exp c ≤ 1 := exp_le_one_iff.2 hc
      have hbc : b ≤ c := le_min hab (not_le.1 hb).le
      have h7 : exp c - exp b ≤ exp c * (c - b) := by rw [h4]; nlinarith
      have h8 : exp c * (c - b) ≤ 1 * (c - b) := mul_le_mul_of_nonneg_right h6 (by linarith)
      linarith
  rcases le_total b a with h | h
  · exact key a b h
  · rw [abs_sub_comm, abs_sub_comm a b]; exact key b a h

/-- the kernels of `Heat` vary by at most `τ / l` per unit of frequency and are bounded by one -/
theorem heat_error {l sc τ ε η : ℝ} {ker : ℝ → ℝ} (hl : 0 < l) (hs : 0 ≤ sc) (hst : sc ≤ τ) (hε : 0 ≤ ε) (hker : ∀ x, |ker x - Design.heatKernel l sc x| ≤ ε) :
    KernelError ker (Design.heatKernel l sc) l η ε (τ / l) 1 where
  eps := hε
  lip := div_nonneg (hs.trans hst) hl.le
  err x _ _ := hker x
  vary x y _ _ _ _ := by
    unfold Design.heatKernel
    refine (clip_exp_lip _ _).trans ?_
    rw [← sub_div, ← mul_sub, abs_div, abs_mul, abs_neg, abs_of_nonneg hs, abs_of_pos hl, div_mul_eq_mul_div]
    exact div_le_div_of_nonneg_right (mul_le_mul_of_nonneg_right hst (abs_nonneg _)) hl.le
  bound x _ _ := by
    unfold Design.heatKernel
    rw [abs_of_nonneg (le_min (exp_pos _).le zero_le_one)]
    exact min_le_right _ _

end RoundedCoeffs

/-- **C149** Diffusion in floating-point arithmetic: `Heat(G, scale)` with scales at most `τ`, evaluated with an error `ε`, and Chebyshev filtering of a given order.  The error has an
explicit bound that tends to the error of the approximation, `2 (τ / 4)^(order + 1) / (order + 1)!`, when the rounding errors tend to zero. -/
theorem C149_heat {u δ l ε τ : ℝ} {fl cosFl : ℝ → ℝ} {S : Solvers n} {g : Graph n ℝ} {s : GState n} (hr : Rounds fl u) (hδ0 : 0 ≤ δ) (hδ : δ ≤ 1) (hcos : ∀ t, |cosFl t - cos t| ≤ δ)
    (h : Ready S g s) (hc : s.lapType = .combinatorial) (hl : (s.getLmax S).1 = .ok (some (.fin l))) (hpos : 0 < l) (hfl : fl l = l) (hup : ∀ t, IsEigenvalue s.L t → t ≤ l)
    {m : ℕ} (hm : ∀ v, (Finset.univ.filter fun w => g.W.dense v w ≠ 0 ∨ g.W.dense w v ≠ 0 ∨ v = w).card ≤ m) {scale : List ℝ} (hsc : scale ≠ []) (hτ : ∀ t ∈ scale, 0 ≤ t ∧ t ≤ τ)
    {ker : ℝ → ℝ → ℝ} (hε : 0 ≤ ε) (hker : ∀ t ∈ scale, ∀ x, |ker t x - Design.heatKernel l t x| ≤ ε) {order : ℕ} (ho : order ≠ 0) (hsmall : 16 * order * (order + 1) * roundings u (m + 5) ≤ 1)
    {ch : Fin (Design.heat l scale none).Nf → Fin (order + 1) → ℝ} (hch : ∀ i t, scale[i.1]? = some t → CoeffFl fl cosFl (ker t) l order (order + 1) (ch i)) (x : Fin n → ℝ) :
    ∃ (Rh : Matrix (Fin ((Design.heat l scale none).Nf * n)) (Fin 1) ℝ) (z : Fin n → Fin 1 → Fin (Design.heat l scale none).Nf → ℝ),
      (chebyOpFl fl S ch (Matrix.of fun v (_ : Fin 1) => x v) s).1 = .ok Rh ∧
      ((Design.heat l scale none).filter S (Arr.of1 x) .exact order s).1 = .ok (Arr.of3 z).squeeze ∧
      ∀ i, len (fun v => Rh (finProdFinEquiv (i, v)) 0 - z v 0 i) ≤
        ((2 * roundings u (order + 2) + 16 * order * (order + 1) * roundings u (m + 5)) * ((order + 1) * (2 + coeffError u δ l ε (τ / l) 1 order (order + 1))) +
          (order + 1) * coeffError u δ l ε (τ / l) 1 order (order + 1) + 2 * (τ / 4) ^ (order + 1) / (order + 1).factorial) * len x := by
  obtain ⟨hist, hs⟩ := h.reached
  have hkern := heat_kernels l scale
  have hlen : (Design.heat l scale none).Nf = scale.length := by simp [Bank.Nf, hkern]
  have hget : ∀ i : Fin (Design.heat l scale none).Nf, i.val < scale.length := fun i => hlen ▸ i.2
  have hp : (Design.heat l scale none).IsPointwise fun i => Design.heatKernel l (scale[i.val]'(hget i)) := fun i => by
    simp only [List.get_eq_getElem, hkern, List.getElem_map]
  have hf : (Design.heat l scale none).Nf ≠ 0 := by
    rw [hlen]
    simpa using hsc
  have hE := C97_heat h.sound h.built hist hs h.nonneg h.pos h.known h.complete hl hpos hup hsc hτ ho x
  have := C149_total hr hδ0 hδ hcos h hc hl hpos hfl hup hm hf hp (ker := fun i => ker (scale[i.val]'(hget i)))
    (fun i => heat_error hpos (hτ _ (List.getElem_mem (hget i))).1 (hτ _ (List.getElem_mem (hget i))).2 hε (hker _ (List.getElem_mem (hget i)))) ho hsmall
    (fun i => hch i _ (List.getElem?_eq_getElem (hget i))) hE
  simpa only [mul_one] using this

/-- Witness for C149: diffusion with scale 10 on a cycle of four vertices, with an approximation of order 30 in double precision, correctly rounded cosines and exponentials; the bound is
below `1e-8`. -/
example : ∃ (S : Solvers 4) (g : Graph 4 ℝ) (s : GState 4) (ch : Fin (Design.heat 4 [10] none).Nf → Fin (30 + 1) → ℝ) (Rh : Matrix (Fin ((Design.heat 4 [10] none).Nf * 4)) (Fin 1) ℝ)
    (z : Fin 4 → Fin 1 → Fin (Design.heat 4 [10] none).Nf → ℝ), Ready S g s ∧
      (∀ i, CoeffFl (nearest 53) (fun t => nearest 53 (cos t)) (fun t => nearest 53 (Design.heatKernel 4 10 t)) 4 30 (30 + 1) (ch i)) ∧
      (chebyOpFl (nearest 53) S ch (Matrix.of fun v (_ : Fin 1) => (![1, 0, 0, 0] : Fin 4 → ℝ) v) s).1 = .ok Rh ∧
      ((Design.heat 4 [10] none).filter S (Arr.of1 ![1, 0, 0, 0]) .exact 30 s).1 = .ok (Arr.of3 z).squeeze ∧
      ∀ i, len (fun v => Rh (finProdFinEquiv (i, v)) 0 - z v 0 i) ≤ 1 / 10 ^ 8 := by
  obtain ⟨S, g, s, h, hc, hl, hup, hm, -, -, -, -, -, hr, h4, -, hsm, -⟩ := cycle_witness
  obtain ⟨ch, hch⟩ := C149_exists (nearest 53) (fun t => nearest 53 (cos t)) (fun t => nearest 53 (Design.heatKernel 4 10 t)) 4 30 (N := 30 + 1) (by norm_num)
  have hround : ∀ x : ℝ, |x| ≤ 1 → |nearest 53 x - x| ≤ (2 : ℝ) ^ (-(53 : ℤ)) := fun x hx => (hr.err x).trans (by
    have := mul_le_mul_of_nonneg_left hx hr.nonneg
    linarith)
  obtain ⟨Rh, z, h1, h2, h3⟩ := C149_heat (ker := fun sc t => nearest 53 (Design.heatKernel 4 sc t)) (τ := 10) (δ := (2 : ℝ) ^ (-(53 : ℤ))) (ε := (2 : ℝ) ^ (-(53 : ℤ))) hr (by positivity)
    (by norm_num) (fun t => hround _ (abs_cos_le_one t)) h hc hl (by norm_num) h4 hup hm (scale := [10]) (by simp) (by simp) (by positivity)
    (fun t _ x => hround _ (by
      unfold Design.heatKernel
      rw [abs_of_nonneg (le_min (exp_pos _).le zero_le_one)]
      exact min_le_right _ _)) (order := 30) (by norm_num) (by refine le_trans (le_of_eq ?_) hsm; push_cast; ring) (ch := fun _ => ch)
    (fun i t ht => by
      have hi : i.1 = 0 := by
        have := i.2
        simp only [Bank.Nf, heat_kernels, List.length_map, List.length_singleton] at this
        omega
      rw [hi] at ht
      simp only [List.getElem?_cons_zero, Option.some.injEq] at ht
      subst ht
      exact hch) ![1, 0, 0, 0]
  refine ⟨S, g, s, fun _ => ch, Rh, z, h, fun _ => hch, h1, h2, fun i => (h3 i).trans ?_⟩
  have hlen : len (![1, 0, 0, 0] : Fin 4 → ℝ) = 1 := by simp [len, Fin.sum_univ_four]
  rw [hlen, mul_one]
  unfold coeffError nodeError roundings
  norm_num [Nat.factorial]

end PyGSP
