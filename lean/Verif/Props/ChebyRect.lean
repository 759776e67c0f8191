import Verif.Lemmas.Rect
import Verif.Lemmas.Single
import Verif.Props.FilterWitness

/-!
# C91: `cheby_rect`
-/

namespace PyGSP

open Matrix Spec GState Real Polynomial Filter Topology

variable {n : ℕ}

namespace Spec

/-- the ideal band-pass filter of `[lo, hi]` -/
noncomputable def rect (lo hi x : ℝ) : ℝ := if lo ≤ x ∧ x ≤ hi then 1 else 0

/-- The frequency in `[0, l]` of the angle `θ`. -/
noncomputable def freq (l θ : ℝ) : ℝ := l * (1 + cos θ) / 2

/-- The squared error of the polynomial `p` on `[0, l]`, in the Chebyshev measure (`dx / √(x (l - x))`, that is `dθ` with
`x = l (1 + cos θ) / 2`). -/
noncomputable def rectError (l lo hi : ℝ) (p : ℝ[X]) : ℝ :=
  ∫ θ in (0 : ℝ)..π, (rect lo hi (freq l θ) - p.eval (freq l θ)) ^ 2

/-- What the ideal filter becomes at infinite order: one inside the band, zero outside, and one half on an edge of the band
that is inside `(0, l)`. -/
noncomputable def rectLimit (l lo hi x : ℝ) : ℝ :=
  if x < lo ∨ hi < x ∨ lo = hi then 0
  else if (x = lo ∧ 0 < lo) ∨ (x = hi ∧ hi < l) then 1 / 2 else 1

end Spec

/-! ### angles -/

section angles

variable {l lo hi : ℝ}

theorem arccos_mono {x y : ℝ} (h : x ≤ y) : arccos y ≤ arccos x := antitone_arccos h

theorem scaled_mem (hl : 0 < l) (h0 : 0 ≤ lo) (h1 : lo ≤ l) : -1 ≤ 2 * lo / l - 1 ∧ 2 * lo / l - 1 ≤ 1 := by
  constructor
  · have : 0 ≤ 2 * lo / l := by positivity
    linarith
  · have : 2 * lo / l ≤ 2 := by rw [div_le_iff₀ hl]; linarith
    linarith

/-- the angle of a frequency -/
theorem freq_arccos (hl : 0 < l) (h0 : 0 ≤ lo) (h1 : lo ≤ l) : freq l (arccos (2 * lo / l - 1)) = lo := by
  have := scaled_mem hl h0 h1
  unfold freq
  rw [cos_arccos this.1 this.2]
  field_simp
  ring

theorem freq_le_iff (hl : 0 < l) {θ φ : ℝ} (hθ : θ ∈ Set.Icc 0 π) (hφ : φ ∈ Set.Icc 0 π) : freq l θ ≤ freq l φ ↔ φ ≤ θ := by
  unfold freq
  rw [div_le_div_iff_of_pos_right two_pos, mul_le_mul_iff_right₀ hl, add_le_add_iff_left]
  exact strictAntiOn_cos.le_iff_ge hθ hφ

theorem rect_freq (hl : 0 < l) (h0 : 0 ≤ lo) (h12 : lo ≤ hi) (h1 : hi ≤ l) {θ : ℝ} (hθ : θ ∈ Set.Icc 0 π) :
    rect lo hi (freq l θ) = box (arccos (2 * lo / l - 1)) (arccos (2 * hi / l - 1)) θ := by
  unfold rect box
  have e1 := freq_arccos hl h0 (h12.trans h1)
  have e2 := freq_arccos hl (h0.trans h12) h1
  have m : ∀ x, arccos x ∈ Set.Icc 0 π := fun x => ⟨arccos_nonneg x, arccos_le_pi x⟩
  have k1 := freq_le_iff hl (m (2 * lo / l - 1)) hθ
  have k2 := freq_le_iff hl hθ (m (2 * hi / l - 1))
  rw [e1] at k1
  rw [e2] at k2
  exact if_congr (by rw [k1, k2, and_comm]) rfl rfl

theorem affine_freq (hl : 0 < l) (θ : ℝ) : (affine l).eval (freq l θ) = cos θ := by
  simp only [affine, eval_sub, eval_mul, eval_C, eval_X, eval_one, freq]
  field_simp
  ring

/-- every polynomial is a Chebyshev series -/
theorem exists_chebSeries (hl : l ≠ 0) (m : ℕ) (q : ℝ[X]) (hq : q.natDegree ≤ m) :
    ∃ c, q = (chebSeries c (m + 1)).comp (affine l) :=
  ⟨_, (cheb_unique hl m (fun j => q.eval (chebNode l (m + 1) j)) q hq fun _ => rfl).symm⟩

theorem natDegree_comp_affine {p : ℝ[X]} {m : ℕ} (h : p.natDegree ≤ m) (l : ℝ) : (p.comp (affine l)).natDegree ≤ m := by
  refine natDegree_comp_le.trans ?_
  have h1 : (affine l).natDegree ≤ 1 := by
    unfold affine
    compute_degree
  calc _ ≤ m * 1 := Nat.mul_le_mul h h1
    _ = m := by ring

theorem eval_series_freq (hl : 0 < l) (c : ℕ → ℝ) (M : ℕ) (θ : ℝ) :
    ((chebSeries c M).comp (affine l)).eval (freq l θ) = cosPoly c M θ := by
  rw [eval_comp, affine_freq hl, chebSeries_eval]
  rfl

theorem rectError_series (hl : 0 < l) (h0 : 0 ≤ lo) (h12 : lo ≤ hi) (h1 : hi ≤ l) (c : ℕ → ℝ) (M : ℕ) :
    rectError l lo hi ((chebSeries c M).comp (affine l)) =
      ∫ θ in (0 : ℝ)..π, (box (arccos (2 * lo / l - 1)) (arccos (2 * hi / l - 1)) θ - cosPoly c M θ) ^ 2 := by
  unfold rectError
  refine intervalIntegral.integral_congr fun θ hθ => ?_
  rw [Set.uIcc_of_le pi_pos.le] at hθ
  simp only [rect_freq hl h0 h12 h1 hθ, eval_series_freq hl]

end angles

/-! ### what `cheby_rect` returns -/

section code

variable {S : Solvers n} {s : GState n} {l lo hi : ℝ}

theorem chebyRect_eq (h : (s.getLmax S).1 = .ok (some (.fin l))) (hl : 0 < l) (h0 : 0 ≤ lo) (h12 : lo ≤ hi) (h1 : hi ≤ l)
    {ns : ℕ} (X : Matrix (Fin n) (Fin ns) ℝ) (order : ℤ) :
    (chebyRect S (some [lo, hi]) X order s).1 = .ok (aeval s.L ((chebSeries
      (rectC (arccos (2 * lo / l - 1)) (arccos (2 * hi / l - 1))) (max order.toNat 1 + 1)).comp (affine l)) * X) := by
  have h' := lmaxNum_of h
  have hL := (lmaxNum_stored h').2.1
  have k1 := scaled_mem hl h0 (h12.trans h1)
  have k2 := scaled_mem hl (h0.trans h12) h1
  unfold chebyRect
  simp only [h']
  rw [if_neg (by
    rintro (h | h | h | h | h)
    · exact hl.ne' h
    · exact absurd k1.1 (not_le.2 h)
    · exact absurd k1.2 (not_le.2 h)
    · exact absurd k2.1 (not_le.2 h)
    · exact absurd k2.2 (not_le.2 h))]
  refine congrArg Except.ok ?_
  rw [rectLoop_eq, aeval_rescaled, hL]
  congr 4
  omega

/-- **`cheby_rect` applies the best polynomial approximation of the ideal band-pass filter.**  For every graph state whose
`lmax` is a positive number, every band `0 ≤ lo ≤ hi ≤ lmax`, every order and every signal (any number of columns), the
result is `p(L) X` for a polynomial `p` of degree at most `order` (at most `1` if `order ≤ 0`) whose squared error in the
Chebyshev measure is smaller than the one of every other polynomial of that degree. -/
theorem C91_best_approximation (h : (s.getLmax S).1 = .ok (some (.fin l))) (hl : 0 < l) (h0 : 0 ≤ lo) (h12 : lo ≤ hi) (h1 : hi ≤ l)
    (order : ℤ) :
    ∃ p : ℝ[X], p.natDegree ≤ max order.toNat 1 ∧
      (∀ q : ℝ[X], q.natDegree ≤ max order.toNat 1 → q ≠ p → rectError l lo hi p < rectError l lo hi q) ∧
      ∀ {ns : ℕ} (X : Matrix (Fin n) (Fin ns) ℝ),
        (chebyRect S (some [lo, hi]) X order s).1 = .ok (aeval s.L p * X) := by
  set b1 := arccos (2 * lo / l - 1)
  set b2 := arccos (2 * hi / l - 1)
  set M := max order.toNat 1 with hM
  have hb0 : 0 ≤ b2 := arccos_nonneg _
  have hb12 : b2 ≤ b1 := arccos_mono (by
    have : 2 * lo / l ≤ 2 * hi / l := by gcongr
    linarith)
  have hbp : b1 ≤ π := arccos_le_pi _
  refine ⟨_, natDegree_comp_affine (natDegree_chebSeries _ M) l, ?_, fun X => chebyRect_eq h hl h0 h12 h1 X order⟩
  intro q hq hne
  obtain ⟨c, rfl⟩ := exists_chebSeries hl.ne' M q hq
  rw [rectError_series hl h0 h12 h1, rectError_series hl h0 h12 h1, box_pythagoras hb0 hb12 hbp (Nat.succ_pos M) c]
  refine lt_add_of_pos_right _ ?_
  have hc := cosPoly_cont c (M + 1)
  have ha := cosPoly_cont (rectC b1 b2) (M + 1)
  refine intervalIntegral.integral_pos pi_pos (Continuous.continuousOn (by fun_prop)) (fun θ _ => sq_nonneg _) ?_
  by_contra hcon
  push Not at hcon
  apply hne
  have hz : ∀ θ ∈ Set.Icc 0 π, cosPoly c (M + 1) θ = cosPoly (rectC b1 b2) (M + 1) θ := by
    intro θ hθ
    have := le_antisymm (hcon θ hθ) (sq_nonneg _)
    exact sub_eq_zero.1 (by simpa using this)
  refine Polynomial.eq_of_infinite_eval_eq _ _ (Set.Infinite.mono (s := freq l '' Set.Icc 0 π) ?_ ?_)
  · rintro x ⟨θ, hθ, rfl⟩
    simp only [Set.mem_setOf_eq, eval_series_freq hl]
    exact hz θ hθ
  · refine Set.Infinite.image ?_ (Set.Icc_infinite pi_pos)
    intro θ hθ φ hφ hf
    exact le_antisymm ((freq_le_iff hl hφ hθ).1 hf.ge) ((freq_le_iff hl hθ hφ).1 hf.le)

/-- **Arguments.**  `bounds` must be a list or an array of two numbers: anything else raises ValueError, and the graph is
untouched. -/
theorem C91_errors {ns : ℕ} (X : Matrix (Fin n) (Fin ns) ℝ) (order : ℤ) (bounds : Option (List ℝ))
    (hb : ∀ b, bounds = some b → b.length ≠ 2) : chebyRect S bounds X order s = (.error .valueError, s) := by
  match bounds, hb with
  | none, _ => rfl
  | some [], _ => rfl
  | some [_], _ => rfl
  | some (_ :: _ :: _ :: _), _ => rfl
  | some [_, _], hb => exact absurd rfl (hb _ rfl)

end code

/-! ### infinite order -/

section limit

/-- the limit of the partial sums of `∑ sin (k x) / k` on `(-2 π, 2 π]` -/
noncomputable def sawVal (x : ℝ) : ℝ := if x = 0 ∨ x = 2 * π then 0 else if 0 < x then (π - x) / 2 else (-π - x) / 2

theorem sinSum_tendsto_pos {x : ℝ} (h0 : 0 < x) (hx : x < 2 * π) :
    Tendsto (fun N => sinSum N x) atTop (𝓝 ((π - x) / 2)) := by
  rw [tendsto_iff_norm_sub_tendsto_zero]
  have hs : 0 < sin (x / 2) := sin_pos_of_pos_of_lt_pi (by linarith) (by linarith)
  have hz : Tendsto (fun N : ℕ => 2 / ((2 * (N : ℝ) - 1) * sin (x / 2))) atTop (𝓝 0) := by
    refine Tendsto.const_div_atTop ?_ 2
    refine Tendsto.atTop_mul_const hs ?_
    refine tendsto_atTop_add_const_right _ _ ?_
    exact Tendsto.const_mul_atTop two_pos tendsto_natCast_atTop_atTop
  refine squeeze_zero' (Eventually.of_forall fun N => norm_nonneg _) ?_ hz
  filter_upwards [eventually_gt_atTop 0] with N hN
  exact sinSum_bound hN h0 hx

theorem sinSum_tendsto {x : ℝ} (h0 : -(2 * π) < x) (hx : x ≤ 2 * π) : Tendsto (fun N => sinSum N x) atTop (𝓝 (sawVal x)) := by
  unfold sawVal
  split_ifs with h1 h2
  · rcases h1 with rfl | rfl
    · simp [sinSum_zero]
    · have : ∀ N, sinSum N (2 * π) = 0 := fun N => by
        have := sinSum_reflect N 0
        rw [sub_zero, sinSum_zero, neg_zero] at this
        exact this
      simp [this]
  · push Not at h1
    exact sinSum_tendsto_pos h2 (lt_of_le_of_ne hx h1.2)
  · push Not at h1
    have h3 : x < 0 := lt_of_le_of_ne (not_lt.1 h2) h1.1
    have := (sinSum_tendsto_pos (x := -x) (by linarith) (by linarith)).neg
    simp only [sinSum_neg, neg_neg] at this
    convert this using 2
    ring

theorem cosPoly_rectC (b1 b2 : ℝ) (M : ℕ) (θ : ℝ) : cosPoly (rectC b1 b2) M θ =
    (b1 - b2 + (sinSum M (b1 + θ) + sinSum M (b1 - θ) - sinSum M (b2 + θ) - sinSum M (b2 - θ))) / π := by
  have hpi := pi_ne_zero
  have h : ∑ k ∈ Finset.Ico 1 M, rectC b1 b2 k * cos (k * θ) =
      (sinSum M (b1 + θ) + sinSum M (b1 - θ) - sinSum M (b2 + θ) - sinSum M (b2 - θ)) / π := by
    unfold sinSum
    rw [← Finset.sum_add_distrib, ← Finset.sum_sub_distrib, ← Finset.sum_sub_distrib, Finset.sum_div]
    refine Finset.sum_congr rfl fun k hk => ?_
    have hk0 : k ≠ 0 := by have := (Finset.mem_Ico.1 hk).1; omega
    have hk1 : (k : ℝ) ≠ 0 := by exact_mod_cast hk0
    rw [rectC, if_neg hk0]
    simp only [mul_add, mul_sub, sin_add, sin_sub]
    field_simp
    ring
  rw [cosPoly, h, rectC, if_pos rfl]
  field_simp

theorem rectC_limit {b1 b2 θ : ℝ} (h0 : 0 ≤ b2) (h12 : b2 ≤ b1) (hp : b1 ≤ π) (hθ : θ ∈ Set.Icc 0 π) :
    Tendsto (fun M => cosPoly (rectC b1 b2) M θ) atTop (𝓝
      (if θ < b2 ∨ b1 < θ ∨ b1 = b2 then 0 else if (θ = b1 ∧ b1 < π) ∨ (θ = b2 ∧ 0 < b2) then 1 / 2 else 1)) := by
  simp only [cosPoly_rectC]
  have hpi := pi_pos
  have hpi0 := pi_ne_zero
  have ht := hθ.1
  have ht2 := hθ.2
  have key := ((((sinSum_tendsto (x := b1 + θ) (by linarith) (by linarith)).add
    (sinSum_tendsto (x := b1 - θ) (by linarith) (by linarith))).sub
    (sinSum_tendsto (x := b2 + θ) (by linarith) (by linarith))).sub
    (sinSum_tendsto (x := b2 - θ) (by linarith) (by linarith))).const_add (b1 - b2) |>.div_const π
  convert key using 2
  unfold sawVal
  rw [eq_div_iff hpi0]
  have n1 : ¬ (b1 - θ = 2 * π) := fun h => by linarith
  have n2 : ¬ (b2 - θ = 2 * π) := fun h => by linarith
  simp only [n1, n2, or_false]
  rcases lt_trichotomy θ b2 with hA | hA | hA
  · -- outside, above the band
    rw [if_pos (.inl hA), if_neg (show ¬ (b1 + θ = 0 ∨ b1 + θ = 2 * π) by rintro (h | h) <;> linarith),
      if_pos (show 0 < b1 + θ by linarith), if_neg (show ¬ (b1 - θ = 0) by intro h; linarith), if_pos (show 0 < b1 - θ by linarith),
      if_neg (show ¬ (b2 + θ = 0 ∨ b2 + θ = 2 * π) by rintro (h | h) <;> linarith), if_pos (show 0 < b2 + θ by linarith),
      if_neg (show ¬ (b2 - θ = 0) by intro h; linarith), if_pos (show 0 < b2 - θ by linarith)]
    ring
  · subst hA
    rcases eq_or_lt_of_le h12 with hB | hB
    · subst hB
      rw [if_pos (.inr (.inr rfl))]
      ring
    · rw [if_neg (show ¬ (θ < θ ∨ b1 < θ ∨ b1 = θ) by rintro (h | h | h) <;> linarith),
        if_neg (show ¬ (b1 + θ = 0 ∨ b1 + θ = 2 * π) by rintro (h | h) <;> linarith), if_pos (show 0 < b1 + θ by linarith),
        if_neg (show ¬ (b1 - θ = 0) by intro h; linarith), if_pos (show 0 < b1 - θ by linarith), if_pos (sub_self θ)]
      rcases eq_or_lt_of_le h0 with hC | hC
      · rw [if_neg (show ¬ (θ = b1 ∧ b1 < π ∨ θ = θ ∧ 0 < θ) by rintro (h | h) <;> linarith [h.1, h.2]),
          if_pos (show θ + θ = 0 ∨ θ + θ = 2 * π from .inl (by linarith))]
        linarith
      · rw [if_pos (.inr ⟨rfl, hC⟩), if_neg (show ¬ (θ + θ = 0 ∨ θ + θ = 2 * π) by rintro (h | h) <;> linarith),
          if_pos (show 0 < θ + θ by linarith)]
        ring
  · rw [if_neg (show ¬ (b2 + θ = 0 ∨ b2 + θ = 2 * π) by rintro (h | h) <;> linarith), if_pos (show 0 < b2 + θ by linarith),
      if_neg (show ¬ (b2 - θ = 0) by intro h; linarith), if_neg (show ¬ 0 < b2 - θ by linarith)]
    rcases lt_trichotomy θ b1 with hB | hB | hB
    · rw [if_neg (show ¬ (θ < b2 ∨ b1 < θ ∨ b1 = b2) by rintro (h | h | h) <;> linarith),
        if_neg (show ¬ (θ = b1 ∧ b1 < π ∨ θ = b2 ∧ 0 < b2) by rintro (h | h) <;> linarith [h.1, h.2]),
        if_neg (show ¬ (b1 + θ = 0 ∨ b1 + θ = 2 * π) by rintro (h | h) <;> linarith), if_pos (show 0 < b1 + θ by linarith),
        if_neg (show ¬ (b1 - θ = 0) by intro h; linarith), if_pos (show 0 < b1 - θ by linarith)]
      ring
    · subst hB
      rw [if_neg (show ¬ (θ < b2 ∨ θ < θ ∨ θ = b2) by rintro (h | h | h) <;> linarith), if_pos (sub_self θ)]
      rcases eq_or_lt_of_le hp with hC | hC
      · rw [if_neg (show ¬ (θ = θ ∧ θ < π ∨ θ = b2 ∧ 0 < b2) by rintro (h | h) <;> linarith [h.1, h.2]),
          if_pos (show θ + θ = 0 ∨ θ + θ = 2 * π from .inr (by linarith))]
        linarith
      · rw [if_pos (.inl ⟨rfl, hC⟩), if_neg (show ¬ (θ + θ = 0 ∨ θ + θ = 2 * π) by rintro (h | h) <;> linarith),
          if_pos (show 0 < θ + θ by linarith)]
        ring
    · rw [if_pos (.inr (.inl hB)), if_neg (show ¬ (b1 + θ = 0 ∨ b1 + θ = 2 * π) by
          rintro (h | h) <;> linarith), if_pos (show 0 < b1 + θ by linarith),
        if_neg (show ¬ (b1 - θ = 0) by intro h; linarith), if_neg (show ¬ 0 < b1 - θ by linarith)]
      ring

/-- the polynomials of `cheby_rect` converge to the ideal filter on `[0, lmax]` -/
theorem rect_poly_limit {l lo hi x : ℝ} (hl : 0 < l) (h0 : 0 ≤ lo) (h12 : lo ≤ hi) (h1 : hi ≤ l) (hx0 : 0 ≤ x) (hx : x ≤ l) :
    Tendsto (fun M : ℕ => ((chebSeries (rectC (arccos (2 * lo / l - 1)) (arccos (2 * hi / l - 1))) M).comp (affine l)).eval x)
      atTop (𝓝 (rectLimit l lo hi x)) := by
  have hx' : freq l (arccos (2 * x / l - 1)) = x := freq_arccos hl hx0 hx
  set θ := arccos (2 * x / l - 1) with hθ
  have m : ∀ y, arccos y ∈ Set.Icc 0 π := fun y => ⟨arccos_nonneg y, arccos_le_pi y⟩
  have e1 := freq_arccos hl h0 (h12.trans h1)
  have e2 := freq_arccos hl (h0.trans h12) h1
  set b1 := arccos (2 * lo / l - 1) with hb1
  set b2 := arccos (2 * hi / l - 1) with hb2
  have hb12 : b2 ≤ b1 := by
    rw [← freq_le_iff hl (m _) (m _), e1, e2]; exact h12
  have lt_iff : ∀ {θ φ : ℝ}, θ ∈ Set.Icc 0 π → φ ∈ Set.Icc 0 π → (freq l θ < freq l φ ↔ φ < θ) := by
    intro θ φ h h'
    rw [← not_le, ← not_le, freq_le_iff hl h' h]
  have eq_iff : ∀ {θ φ : ℝ}, θ ∈ Set.Icc 0 π → φ ∈ Set.Icc 0 π → (freq l θ = freq l φ ↔ θ = φ) := by
    intro θ φ h h'
    constructor
    · intro hf
      exact le_antisymm ((freq_le_iff hl h' h).1 hf.ge) ((freq_le_iff hl h h').1 hf.le)
    · rintro rfl; rfl
  have key := rectC_limit (m _).1 hb12 (m _).2 (m (2 * x / l - 1)) (b1 := b1) (b2 := b2)
  have fpi : freq l π = 0 := by simp [freq]
  have f0 : freq l 0 = l := by simp [freq]; ring
  have hval : rectLimit l lo hi x =
      if θ < b2 ∨ b1 < θ ∨ b1 = b2 then 0 else if (θ = b1 ∧ b1 < π) ∨ (θ = b2 ∧ 0 < b2) then 1 / 2 else 1 := by
    unfold rectLimit
    have k1 : x < lo ↔ b1 < θ := by rw [← lt_iff (m _) (m _), hx', e1]
    have k2 : hi < x ↔ θ < b2 := by rw [← lt_iff (m _) (m _), hx', e2]
    have k3 : lo = hi ↔ b1 = b2 := by rw [← eq_iff (m _) (m _), e1, e2]
    have k4 : x = lo ↔ θ = b1 := by rw [← eq_iff (m _) (m _), hx', e1]
    have k5 : x = hi ↔ θ = b2 := by rw [← eq_iff (m _) (m _), hx', e2]
    have k6 : 0 < lo ↔ b1 < π := by rw [← lt_iff ⟨pi_pos.le, le_rfl⟩ (m _), fpi, e1]
    have k7 : hi < l ↔ 0 < b2 := by rw [← lt_iff (m _) ⟨le_rfl, pi_pos.le⟩, f0, e2]
    exact if_congr (by rw [k1, k2, k3, or_left_comm]) rfl (if_congr (by rw [k4, k5, k6, k7]) rfl rfl)
  rw [hval]
  refine key.congr fun M => ?_
  rw [← eval_series_freq hl, hx']

variable {S : Solvers n} (hS : Sound S) {g : Graph n ℝ} (hg : g.Built) (hist : List (Op n)) {s : GState n}
  (hs : s = runAll S hist (GState.ofGraph g))

include hS hg hs

/-- **`cheby_rect` converges to the ideal filter.**  On a graph with non-negative weights, when `lmax` bounds the spectrum, the
result converges, as the order grows, to the ideal filtering in the Fourier basis of the graph: the Fourier coefficients inside
the band are kept, the ones outside are removed, and the ones at a frequency equal to an edge of the band inside `(0, lmax)`
are halved. -/
theorem C91_limit (hW : NonnegW g.W.dense) (hn : 0 < n) (hk : Known s.lapType)
    (hcomplete : ∀ b, s.basis = some b → b.k = n) {l lo hi : ℝ} (h : (s.getLmax S).1 = .ok (some (.fin l))) (hl : 0 < l)
    (hbound : ∀ v, IsEigenvalue s.L v → v ≤ l) (h0 : 0 ≤ lo) (h12 : lo ≤ hi) (h1 : hi ≤ l) {ns : ℕ}
    (X : Matrix (Fin n) (Fin ns) ℝ) :
    ∃ (e : Fin n → ℝ) (U : Matrix (Fin n) (Fin n) ℝ), (s.getBasis S).1 = .ok (some ⟨n, e, U⟩) ∧
      ∃ R : ℕ → Matrix (Fin n) (Fin ns) ℝ, (∀ order : ℕ, (chebyRect S (some [lo, hi]) X order s).1 = .ok (R order)) ∧
        Tendsto R atTop (𝓝 (U * Matrix.diagonal (fun j => rectLimit l lo hi (e j)) * Uᵀ * X)) := by
  obtain ⟨b, hb, hbk, he⟩ := GState.complete_basis hS hg hist hs hW hn hk hcomplete
  obtain ⟨hi', hWs, -⟩ := reach_inv hS hg hist
  rw [← hs] at hi' hWs
  have hpsd := hi'.psd (show NonnegW s.W.dense by rw [hWs]; exact hW)
  obtain ⟨k, e, U⟩ := b
  simp only at hbk
  subst hbk
  refine ⟨e, U, hb, _, fun order => chebyRect_eq h hl h0 h12 h1 X order, ?_⟩
  have hlim : Tendsto (fun order : ℕ => U * Matrix.diagonal (fun j => ((chebSeries (rectC (arccos (2 * lo / l - 1))
      (arccos (2 * hi / l - 1))) (max order 1 + 1)).comp (affine l)).eval (e j)) * Uᵀ * X) atTop
      (𝓝 (U * Matrix.diagonal (fun j => rectLimit l lo hi (e j)) * Uᵀ * X)) := by
    have hd : Tendsto (fun order : ℕ => fun j => ((chebSeries (rectC (arccos (2 * lo / l - 1))
        (arccos (2 * hi / l - 1))) (max order 1 + 1)).comp (affine l)).eval (e j)) atTop
        (𝓝 fun j => rectLimit l lo hi (e j)) := by
      refine tendsto_pi_nhds.2 fun j => ?_
      have := rect_poly_limit hl h0 h12 h1 (eig_nonneg hpsd (he.isEigenvalue j)) (hbound _ (he.isEigenvalue j))
      refine this.comp (tendsto_atTop_mono (fun m => ?_) tendsto_id)
      simp only [id]
      omega
    have hc : Continuous fun d : Fin k → ℝ => U * Matrix.diagonal d * Uᵀ * X := by fun_prop
    exact (hc.tendsto _).comp hd
  refine hlim.congr fun order => ?_
  simp only [Int.toNat_natCast]
  rw [aeval_spectral he]
  rfl

end limit

end PyGSP
