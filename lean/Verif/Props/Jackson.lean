import Verif.Lemmas.Jackson
import Verif.Props.ChebyRect
import Verif.Props.DesignWitness

/-!
# C92: `compute_jackson_cheby_coeff`
-/

namespace PyGSP

open Matrix Spec GState Real Polynomial

variable {n : ℕ}

namespace Spec

/-- The value at `x` of the polynomial with Chebyshev coefficients `c` on `[lmin, lmax]`, in the convention of `cheby_op`
(the first coefficient counts half; see C35). -/
noncomputable def chebValue {m : ℕ} (lmin lmax : ℝ) (c : Fin (m + 1) → ℝ) (x : ℝ) : ℝ :=
  ∑ k, (if k.1 = 0 then c k / 2 else c k) * (Chebyshev.T ℝ k).eval ((2 * x - lmin - lmax) / (lmax - lmin))

/-- The `i`-th Chebyshev coefficient of a function on `[lmin, lmax]`. -/
noncomputable def chebCoefficient (lmin lmax : ℝ) (f : ℝ → ℝ) (i : ℕ) : ℝ :=
  2 / π * ∫ θ in (0 : ℝ)..π, f (lmin + (lmax - lmin) * (1 + cos θ) / 2) * cos (i * θ)

/-- The weights of the Jackson kernel of degree `m`: `sin(π / (m + 2)), sin(2 π / (m + 2)), …`, at `0 ≤ j ≤ m`. -/
noncomputable def jacksonWeight (m j : ℕ) : ℝ := sin ((j + 1) * (π / (m + 2)))

/-- The damping factors of Jackson: the normalized autocorrelation of the weights. -/
noncomputable def jacksonDamping (m i : ℕ) : ℝ :=
  (∑ j ∈ Finset.range (m + 1 - i), jacksonWeight m j * jacksonWeight m (j + i)) / ∑ j ∈ Finset.range (m + 1), jacksonWeight m j ^ 2

end Spec

theorem jacksonFactor_eq {m i : ℕ} (hi : i ≤ m) : jacksonFactor m i = jacksonDamping m i := by
  have h0 := jw_sum (m := m) (Nat.zero_le m)
  have h1 := jw_sum hi
  simp only [Nat.sub_zero, Nat.add_zero, ← sq, jacksonFactor_zero, mul_one] at h0
  have hm : (0 : ℝ) < m + 2 := by positivity
  unfold jacksonDamping
  have e1 : ∑ j ∈ Finset.range (m + 1 - i), jacksonWeight m j * jacksonWeight m (j + i) = (m + 2) / 2 * jacksonFactor m i := h1
  have e0 : ∑ j ∈ Finset.range (m + 1), jacksonWeight m j ^ 2 = (m + 2) / 2 := h0
  rw [e0, e1]
  field_simp

section

variable {a b lmin lmax : ℝ}

theorem rescale_eq (hd : lmin < lmax) (x : ℝ) :
    (x - (lmax + lmin) / 2) / ((lmax - lmin) / 2) = 2 * (x - lmin) / (lmax - lmin) - 1 := by
  have : lmax - lmin ≠ 0 := by linarith [sub_pos.2 hd]
  field_simp
  ring

/-- what the function returns -/
theorem jacksonCoeff_eq (h0 : lmin ≤ a) (h12 : a ≤ b) (h1 : b ≤ lmax) (hd : lmin < lmax) (m : ℕ) :
    jacksonCoeff (a, b) (lmin, lmax) m =
      ⟨.ok (fun i => rectC (arccos (2 * (a - lmin) / (lmax - lmin) - 1)) (arccos (2 * (b - lmin) / (lmax - lmin) - 1)) i,
        fun i => rectC (arccos (2 * (a - lmin) / (lmax - lmin) - 1)) (arccos (2 * (b - lmin) / (lmax - lmin) - 1)) i *
          jacksonFactor m i), (2 * (a - lmin) / (lmax - lmin) - 1, 2 * (b - lmin) / (lmax - lmin) - 1)⟩ := by
  have hl : 0 < lmax - lmin := sub_pos.2 hd
  have k1 := scaled_mem hl (sub_nonneg.2 h0) (show a - lmin ≤ lmax - lmin by linarith)
  have k2 := scaled_mem hl (show 0 ≤ b - lmin by linarith) (show b - lmin ≤ lmax - lmin by linarith)
  unfold jacksonCoeff
  simp only
  rw [if_neg (show ¬ (lmin > a ∨ lmax < b) by rintro (h | h) <;> linarith), if_neg (show ¬ lmin > lmax by linarith),
    if_neg (show ¬ (lmax - lmin) / 2 = 0 by intro h; linarith)]
  simp only [rescale_eq hd]
  rw [if_neg (by
    rintro (h | h | h | h)
    · exact absurd k1.1 (not_le.2 h)
    · exact absurd k1.2 (not_le.2 h)
    · exact absurd k2.1 (not_le.2 h)
    · exact absurd k2.2 (not_le.2 h))]
  simp only [rectCoeff_eq]

theorem chebValue_cos {m : ℕ} (hd : lmin < lmax) (c : ℕ → ℝ) (θ : ℝ) :
    chebValue lmin lmax (fun i : Fin (m + 1) => c i) (lmin + freq (lmax - lmin) θ) = cosPoly c (m + 1) θ := by
  unfold chebValue cosPoly
  have hl : lmax - lmin ≠ 0 := by linarith [sub_pos.2 hd]
  have e : (2 * (lmin + freq (lmax - lmin) θ) - lmin - lmax) / (lmax - lmin) = cos θ := by
    unfold freq
    field_simp
    ring
  rw [e, Fin.sum_univ_eq_sum_range (fun k => (if k = 0 then c k / 2 else c k) * (Chebyshev.T ℝ k).eval (cos θ)),
    Finset.range_eq_Ico, Finset.sum_eq_sum_Ico_succ_bot (by omega)]
  congr 1
  · simp
  · refine Finset.sum_congr rfl fun k hk => ?_
    rw [if_neg (by have := (Finset.mem_Ico.1 hk).1; omega)]
    have := Chebyshev.T_real_cos θ k
    simp only [Int.cast_natCast] at this
    rw [this]

/-- every frequency of the range has an angle -/
theorem exists_angle (hd : lmin < lmax) {x : ℝ} (h0 : lmin ≤ x) (h1 : x ≤ lmax) :
    ∃ θ ∈ Set.Icc 0 π, lmin + freq (lmax - lmin) θ = x := by
  refine ⟨arccos (2 * (x - lmin) / (lmax - lmin) - 1), ⟨arccos_nonneg _, arccos_le_pi _⟩, ?_⟩
  rw [freq_arccos (sub_pos.2 hd) (by linarith) (by linarith)]; ring

theorem angle_order (h12 : a ≤ b) (hd : lmin < lmax) :
    arccos (2 * (b - lmin) / (lmax - lmin) - 1) ≤ arccos (2 * (a - lmin) / (lmax - lmin) - 1) := by
  refine arccos_mono ?_
  have hl := sub_pos.2 hd
  have : 2 * (a - lmin) / (lmax - lmin) ≤ 2 * (b - lmin) / (lmax - lmin) := by gcongr
  linarith

theorem rect_shift (h0 : lmin ≤ a) (h12 : a ≤ b) (h1 : b ≤ lmax) (hd : lmin < lmax) {θ : ℝ} (hθ : θ ∈ Set.Icc 0 π) :
    rect a b (lmin + freq (lmax - lmin) θ) =
      box (arccos (2 * (a - lmin) / (lmax - lmin) - 1)) (arccos (2 * (b - lmin) / (lmax - lmin) - 1)) θ := by
  rw [← rect_freq (sub_pos.2 hd) (sub_nonneg.2 h0) (by linarith) (by linarith) hθ]
  unfold rect
  refine if_congr ?_ rfl rfl
  constructor <;> rintro ⟨h, h'⟩ <;> constructor <;> linarith

/-- **The coefficients.**  For `lmin ≤ a ≤ b ≤ lmax`, `lmin < lmax` and every degree `m`, the first array returned holds the exact
Chebyshev coefficients on `[lmin, lmax]` of the ideal band-pass filter of `[a, b]`, and the second one the same coefficients
multiplied by the damping factors of Jackson. -/
theorem C92_coefficients (h0 : lmin ≤ a) (h12 : a ≤ b) (h1 : b ≤ lmax) (hd : lmin < lmax) (m : ℕ) :
    ∃ ch jch, (jacksonCoeff (a, b) (lmin, lmax) m).result = .ok (ch, jch) ∧
      (∀ i : Fin (m + 1), ch i = chebCoefficient lmin lmax (rect a b) i) ∧
      ∀ i : Fin (m + 1), jch i = chebCoefficient lmin lmax (rect a b) i * jacksonDamping m i := by
  have hch : ∀ i : ℕ, rectC (arccos (2 * (a - lmin) / (lmax - lmin) - 1)) (arccos (2 * (b - lmin) / (lmax - lmin) - 1)) i =
      chebCoefficient lmin lmax (rect a b) i := by
    intro i
    have := rectC_integral (arccos_nonneg _) (angle_order (lmin := lmin) (lmax := lmax) h12 hd) (arccos_le_pi _) i
    unfold chebCoefficient
    have e : ∫ θ in (0 : ℝ)..π, rect a b (lmin + (lmax - lmin) * (1 + cos θ) / 2) * cos (i * θ) =
        ∫ θ in (0 : ℝ)..π, box (arccos (2 * (a - lmin) / (lmax - lmin) - 1)) (arccos (2 * (b - lmin) / (lmax - lmin) - 1)) θ *
          cos (i * θ) := by
      refine intervalIntegral.integral_congr fun θ hθ => ?_
      rw [Set.uIcc_of_le pi_pos.le] at hθ
      rw [← rect_shift h0 h12 h1 hd hθ, freq]
    rw [e, this]
    have := pi_ne_zero
    field_simp
  refine ⟨_, _, by rw [jacksonCoeff_eq h0 h12 h1 hd], fun i => hch i, fun i => ?_⟩
  rw [hch i, jacksonFactor_eq (by have := i.2; omega)]

/-- **The damped polynomial has no overshoot**: with the second array, the polynomial takes values in `[0, 1]` on the whole
range `[lmin, lmax]`, for every band and every degree. -/
theorem C92_bounds (h0 : lmin ≤ a) (h12 : a ≤ b) (h1 : b ≤ lmax) (hd : lmin < lmax) (m : ℕ) :
    ∃ ch jch, (jacksonCoeff (a, b) (lmin, lmax) m).result = .ok (ch, jch) ∧
      ∀ x, lmin ≤ x → x ≤ lmax → 0 ≤ chebValue lmin lmax jch x ∧ chebValue lmin lmax jch x ≤ 1 := by
  refine ⟨_, _, by rw [jacksonCoeff_eq h0 h12 h1 hd], fun x hx0 hx1 => ?_⟩
  obtain ⟨θ, hθ, rfl⟩ := exists_angle hd hx0 hx1
  rw [chebValue_cos hd (fun i => rectC (arccos (2 * (a - lmin) / (lmax - lmin) - 1))
    (arccos (2 * (b - lmin) / (lmax - lmin) - 1)) i * jacksonFactor m i)]
  exact jackson_bounds (arccos_nonneg _) (angle_order h12 hd) (arccos_le_pi _) m θ

/-- **Accuracy of the damped polynomial**: at a frequency `x` whose distance to the frequencies on the other side of the edges
of the band is at least `d`, the polynomial of degree `m ≥ 2` differs from the ideal filter by at most
`π² (lmax - lmin)² / (2 (m + 2)² d²)`. -/
theorem C92_accuracy (h0 : lmin ≤ a) (h12 : a ≤ b) (h1 : b ≤ lmax) (hd : lmin < lmax) {m : ℕ} (hm : 2 ≤ m) :
    ∃ ch jch, (jacksonCoeff (a, b) (lmin, lmax) m).result = .ok (ch, jch) ∧
      ∀ x d, lmin ≤ x → x ≤ lmax → 0 < d → (∀ y, lmin ≤ y → y ≤ lmax → rect a b y ≠ rect a b x → d ≤ |y - x|) →
        |chebValue lmin lmax jch x - rect a b x| ≤ π ^ 2 * (lmax - lmin) ^ 2 / (2 * (m + 2) ^ 2 * d ^ 2) := by
  refine ⟨_, _, by rw [jacksonCoeff_eq h0 h12 h1 hd], fun x d hx0 hx1 hd0 hfar => ?_⟩
  obtain ⟨θ, hθ, rfl⟩ := exists_angle hd hx0 hx1
  have hl := sub_pos.2 hd
  rw [chebValue_cos hd (fun i => rectC (arccos (2 * (a - lmin) / (lmax - lmin) - 1))
    (arccos (2 * (b - lmin) / (lmax - lmin) - 1)) i * jacksonFactor m i)]
  have hr : rect a b (lmin + freq (lmax - lmin) θ) = 0 ∨ rect a b (lmin + freq (lmax - lmin) θ) = 1 := by
    unfold rect; split_ifs <;> simp
  have key := jackson_close (arccos_nonneg _) (angle_order (lmin := lmin) (lmax := lmax) h12 hd) (arccos_le_pi _) hm θ
    (η := 2 * d / (lmax - lmin)) (by positivity) (rect a b (lmin + freq (lmax - lmin) θ)) hr (by
      intro φ hφ hne
      have h2 := hfar (lmin + freq (lmax - lmin) φ) (by
          unfold freq
          have : 0 ≤ 1 + cos φ := by linarith [neg_one_le_cos φ]
          have := mul_nonneg hl.le this
          linarith) (by
          unfold freq
          have : 1 + cos φ ≤ 2 := by linarith [cos_le_one φ]
          have := mul_le_mul_of_nonneg_left this hl.le
          linarith) (by rw [rect_shift h0 h12 h1 hd hφ]; exact hne)
      have e : lmin + freq (lmax - lmin) φ - (lmin + freq (lmax - lmin) θ) = (lmax - lmin) / 2 * (cos φ - cos θ) := by
        unfold freq; ring
      rw [e, abs_mul, abs_of_pos (by positivity)] at h2
      rw [div_le_iff₀ hl]
      linarith)
  refine key.trans (le_of_eq ?_)
  have hmp : (0 : ℝ) < m + 2 := by positivity
  field_simp

/-- **Exceptions.**  Bounds outside the range, or a range in the wrong order, raise TypeError (the code says `raise ()`); an empty
range (`lmin = lmax`) raises ZeroDivisionError.  In these three cases the caller's list of bounds is unchanged. -/
theorem C92_errors (a b lmin lmax : ℝ) (m : ℕ) :
    (lmin > a ∨ lmax < b ∨ lmin > lmax → jacksonCoeff (a, b) (lmin, lmax) m = ⟨.error .typeError, (a, b)⟩) ∧
    (lmin ≤ a → b ≤ lmax → lmin = lmax → jacksonCoeff (a, b) (lmin, lmax) m = ⟨.error .zeroDivisionError, (a, b)⟩) := by
  constructor
  · intro h
    unfold jacksonCoeff
    by_cases h' : lmin > a ∨ lmax < b
    · exact if_pos h'
    · simp only
      rw [if_neg h', if_pos]
      rcases h with h | h | h
      · exact absurd (.inl h) h'
      · exact absurd (.inr h) h'
      · exact h
  · intro h0 h1 he
    subst he
    unfold jacksonCoeff
    simp only
    rw [if_neg (show ¬ (lmin > a ∨ lmin < b) by rintro (h | h) <;> linarith), if_neg (lt_irrefl _), if_pos (by simp)]

/-- **The caller's list is overwritten** (a defect): after a successful call the list given as `filter_bounds` holds the bounds
rescaled to `[-1, 1]`.  So the same call, repeated with the same list on a range of non-negative frequencies, raises TypeError as
soon as the band starts below the middle of the range. -/
theorem C92_bounds_overwritten_violated (h0 : lmin ≤ a) (h12 : a ≤ b) (h1 : b ≤ lmax) (hd : lmin < lmax) (m m' : ℕ) :
    (jacksonCoeff (a, b) (lmin, lmax) m).bounds =
      ((2 * a - lmin - lmax) / (lmax - lmin), (2 * b - lmin - lmax) / (lmax - lmin)) ∧
    (0 ≤ lmin → 2 * a < lmin + lmax →
      (jacksonCoeff (jacksonCoeff (a, b) (lmin, lmax) m).bounds (lmin, lmax) m').result = .error .typeError) := by
  have hl := sub_pos.2 hd
  have e : ∀ x : ℝ, 2 * (x - lmin) / (lmax - lmin) - 1 = (2 * x - lmin - lmax) / (lmax - lmin) := by
    intro x; field_simp; ring
  have hb : (jacksonCoeff (a, b) (lmin, lmax) m).bounds =
      ((2 * a - lmin - lmax) / (lmax - lmin), (2 * b - lmin - lmax) / (lmax - lmin)) := by
    rw [jacksonCoeff_eq h0 h12 h1 hd]
    simp only [e]
  refine ⟨hb, fun hl0 ha => ?_⟩
  rw [hb, ((C92_errors _ _ lmin lmax m').1 (.inl ?_))]
  have : (2 * a - lmin - lmax) / (lmax - lmin) < 0 := div_neg_of_neg_of_pos (by linarith) hl
  linarith

end

/-! ### filtering with the damped coefficients -/

section

variable {S : Solvers n} (hS : Sound S) {g : Graph n ℝ} (hg : g.Built) (hist : List (Op n)) {s : GState n}
  (hs : s = runAll S hist (GState.ofGraph g))

include hS hg hs

/-- **Filtering with the damped coefficients never amplifies**: `cheby_op(G, jch, x)`, where `jch` was computed on `[0, lmax]`
for any band and any degree `m ≥ 1`, returns a signal of norm at most the one of `x`, on every graph with non-negative weights
whose `lmax` bounds the spectrum.  (Per column; the result has one block since there is one filter.) -/
theorem C92_filter (hW : NonnegW g.W.dense) (hn : 0 < n) (hk : Known s.lapType)
    (hcomplete : ∀ b, s.basis = some b → b.k = n) {l : ℝ} (h : (s.getLmax S).1 = .ok (some (.fin l))) (hl : 0 < l)
    (hbound : ∀ v, IsEigenvalue s.L v → v ≤ l) {a b : ℝ} (h0 : 0 ≤ a) (h12 : a ≤ b) (h1 : b ≤ l) {m : ℕ} (hm : 1 ≤ m)
    {ns : ℕ} (X : Matrix (Fin n) (Fin ns) ℝ) :
    ∃ ch jch, (jacksonCoeff (a, b) (0, l) m).result = .ok (ch, jch) ∧
      ∃ R, (chebyOp S (fun _ : Fin 1 => jch) X s).1 = .ok R ∧
        ∀ j, ∑ i, R i j ^ 2 ≤ ∑ v, X v j ^ 2 := by
  obtain ⟨B, hb, hbk, he⟩ := GState.complete_basis hS hg hist hs hW hn hk hcomplete
  obtain ⟨hi', hWs, -⟩ := reach_inv hS hg hist
  rw [← hs] at hi' hWs
  have hpsd := hi'.psd (show NonnegW s.W.dense by rw [hWs]; exact hW)
  obtain ⟨k, e, U⟩ := B
  simp only at hbk
  subst hbk
  refine ⟨_, _, by rw [jacksonCoeff_eq h0 h12 h1 hl], _, by rw [chebyOp_eq (lmaxNum_of h) hl.ne' (by omega)], fun j => ?_⟩
  set c : ℕ → ℝ := fun i => rectC (arccos (2 * (a - 0) / (l - 0) - 1)) (arccos (2 * (b - 0) / (l - 0) - 1)) i * jacksonFactor m i
    with hc
  have hser : chebSeries (fun q => if hq : q < m + 1 then c ((⟨q, hq⟩ : Fin (m + 1)) : ℕ) else 0) (m + 1) = chebSeries c (m + 1) :=
    chebSeries_congr (Nat.succ_pos m) fun q hq => by rw [dif_pos hq]
  have hsum : ∀ f : Fin (1 * k) → ℝ, ∑ i, f i = ∑ v : Fin k, f (finProdFinEquiv (0, v)) := by
    intro f
    rw [← Equiv.sum_comp finProdFinEquiv, Fintype.sum_prod_type]
    simp
  rw [hsum]
  simp only [Matrix.of_apply, Equiv.symm_apply_apply]
  change ∑ v, ((aeval (rescaled s.L l) (chebSeries (fun q => if hq : q < m + 1 then c ((⟨q, hq⟩ : Fin (m + 1)) : ℕ) else 0)
    (m + 1)) * X) v j) ^ 2 ≤ _
  rw [hser, aeval_rescaled, aeval_spectral he]
  set y : Fin k → ℝ := fun t => ((chebSeries c (m + 1)).comp (affine l)).eval (e t) with hy
  have hcol : ∀ v, (spectralOp U y * X) v j = (spectralOp U y *ᵥ fun v => X v j) v := fun v => rfl
  simp only [hcol]
  rw [energy_spectralOp he.orthonormal, ← energy_gft he.orthonormal]
  refine Finset.sum_le_sum fun t _ => ?_
  have hyt : 0 ≤ y t ∧ y t ≤ 1 := by
    obtain ⟨θ, hθ, hx⟩ := exists_angle (lmin := 0) (lmax := l) hl (eig_nonneg hpsd (he.isEigenvalue t))
      (hbound _ (he.isEigenvalue t))
    rw [zero_add, sub_zero] at hx
    have hx : freq l θ = e t := hx
    rw [hy]
    simp only
    rw [← hx, eval_series_freq hl]
    exact jackson_bounds (arccos_nonneg _) (angle_order h12 hl) (arccos_le_pi _) m θ
  have : y t ^ 2 ≤ 1 := pow_le_one₀ hyt.1 hyt.2
  exact mul_le_of_le_one_left (sq_nonneg _) this

end

/-- The hypotheses of C91 and C92 are met: the path of four vertices, after its Fourier basis has been computed. -/
example : ∃ (g : Graph 4 ℝ) (S : Solvers 4) (s : GState 4) (l : ℝ), g.Built ∧ Sound S ∧
    s = runAll S [.computeFourierBasis none] (GState.ofGraph g) ∧ NonnegW g.W.dense ∧ Known s.lapType ∧
    (∀ b, s.basis = some b → b.k = 4) ∧ (s.getLmax S).1 = .ok (some (.fin l)) ∧ 0 < l ∧
    (∀ v, IsEigenvalue s.L v → v ≤ l) ∧ 0 ≤ l / 4 ∧ l / 4 ≤ l / 2 ∧ l / 2 ≤ l := by
  obtain ⟨g, hg, hd, S, hS, s, hs, hk, ⟨b, hb, hbk⟩, l, ⟨hl, -, -, hv⟩, hlm⟩ :=
    exists_setup path4 path4_nonneg (i := 0) (j := 1) (by decide) (by simp [path4])
  refine ⟨g, S, s, l, hg, hS, hs, by rw [hd]; exact path4_nonneg, hk, fun b' hb' => ?_, hlm, hl, hv, by linarith, by linarith,
    by linarith⟩
  rw [hb] at hb'
  rw [← Option.some.inj hb', hbk]

end PyGSP
