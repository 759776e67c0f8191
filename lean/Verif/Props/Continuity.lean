import Verif.Props.Bands
import Mathlib.Analysis.SpecialFunctions.SmoothTransition

/-!
# C90: the responses of the filter designs are continuous functions of the frequency
-/

namespace PyGSP

open Real Design
open scoped ContDiff

/-- On the frequencies of `I`, the bank evaluates each of its filters as a continuous function of the frequency. -/
def Bank.ContOn (f : Bank) (I : Set ℝ) : Prop :=
  ∃ φ : Fin f.Nf → ℝ → ℝ, (∀ i, ContinuousOn (φ i) I) ∧
    ∀ (k : ℕ) (x : Fin k → ℝ), 0 < k → (∀ j, x j ∈ I) → f.evaluate x = .ok fun i j => φ i (x j)

/-- a kernel that computes the function `φ` on `I` -/
def Kernel.Is (g : Kernel) (φ : ℝ → ℝ) (I : Set ℝ) : Prop := ∀ (k : ℕ) (x : Fin k → ℝ), 0 < k → (∀ j, x j ∈ I) → g k x = .ok fun j => φ (x j)

theorem contOn_of_kernels {f : Bank} {I : Set ℝ} (h : ∀ g ∈ f.kernels, ∃ φ, ContinuousOn φ I ∧ Kernel.Is g φ I) : f.ContOn I := by
  choose φ h1 h2 using h
  refine ⟨fun i => φ (f.kernels.get i) (List.get_mem _ _), fun i => h1 _ _, fun k x hk hx => ?_⟩
  unfold Bank.evaluate
  exact (seqFin_ok _ _ _).2 fun i => h2 _ _ k x hk hx

theorem pointwise_is (φ : ℝ → ℝ) (I : Set ℝ) : Kernel.Is (Kernel.pointwise φ) φ I := fun _ _ _ _ => rfl

theorem contOn_pointwise {f : Bank} (gs : List (ℝ → ℝ)) (hf : f.kernels = gs.map Kernel.pointwise) {I : Set ℝ} (h : ∀ g ∈ gs, ContinuousOn g I) : f.ContOn I := by
  refine contOn_of_kernels fun g hg => ?_
  rw [hf, List.mem_map] at hg
  obtain ⟨φ, h1, rfl⟩ := hg
  exact ⟨φ, h φ h1, pointwise_is φ I⟩

theorem contOn_withComplement {g : Kernel} {φ : ℝ → ℝ} {I : Set ℝ} (hc : ContinuousOn φ I) (hg : Kernel.Is g φ I) (h1 : ∀ x ∈ I, φ x ^ 2 ≤ 1) :
    (withComplement g).ContOn I := by
  have key : ∀ k (x : Fin k → ℝ), 0 < k → (∀ j, x j ∈ I) →
      (withComplement g).evaluate x = .ok ((fun i j => (if i.1 = 0 then φ (x j) else √(1 - φ (x j) ^ 2))) : Fin 2 → Fin k → ℝ) := by
    intro k x hk hx
    obtain ⟨z, hz, h2⟩ := withComplement_tight g hk x _ (hg k x hk hx) fun j => h1 _ (hx j)
    rw [hz]
    refine congrArg Except.ok (funext fun i => funext fun j => ?_)
    fin_cases i
    · simpa using (h2 j).1
    · simpa using (h2 j).2.1
  refine ⟨fun i x => if i.1 = 0 then φ x else √(1 - φ x ^ 2), fun i => ?_, key⟩
  by_cases h : i.1 = 0
  · simpa only [h, if_true] using hc
  · simp only [h, if_false]
    exact (continuousOn_const.sub (hc.pow 2)).sqrt

/-! ## Piecewise definitions -/

/-- restrict to the interval from `lo` to `hi` -/
def clamp (lo hi x : ℝ) : ℝ := max lo (min hi x)

theorem continuous_clamp (lo hi : ℝ) : Continuous (clamp lo hi) := by unfold clamp; fun_prop

theorem clamp_low {lo hi x : ℝ} (h : x ≤ lo) : clamp lo hi x = lo := max_eq_left (le_trans (min_le_right _ _) h)

theorem clamp_high {lo hi x : ℝ} (h0 : lo ≤ hi) (h : hi ≤ x) : clamp lo hi x = hi := by
  unfold clamp; rw [min_eq_left h, max_eq_right h0]

theorem clamp_mid {lo hi x : ℝ} (h1 : lo ≤ x) (h2 : x ≤ hi) : clamp lo hi x = x := by
  unfold clamp; rw [min_eq_right h2, max_eq_right h1]

theorem clamp_ge (lo hi x : ℝ) : lo ≤ clamp lo hi x := le_max_left _ _

theorem held_clamp {a : ℝ} (ha : 0 < a) {x : ℝ} (hx : 0 ≤ x) :
    heldKernel a x = some (sin (2 * π * (-1 + 24 * (clamp a (2 * a) x / 8 / a) - 144 * (clamp a (2 * a) x / 8 / a) ^ 2 + 256 * (clamp a (2 * a) x / 8 / a) ^ 3))) := by
  unfold heldKernel
  simp only
  split
  · rename_i h
    rw [clamp_high (by linarith) h]
    have : 2 * a / 8 / a = 1 / 4 := by field_simp; norm_num
    rw [this, show (2 * π * (-1 + 24 * (1 / 4) - 144 * (1 / 4) ^ 2 + 256 * (1 / 4) ^ 3) : ℝ) = 0 by ring, sin_zero]
  · rename_i h
    push Not at h
    split
    · rename_i h'
      rw [clamp_mid h'.1 h.le]
    · rename_i h'
      have hxa : x < a := by
        by_contra h''
        exact h' ⟨not_lt.1 h'', h⟩
      rw [if_pos ⟨hx, hxa⟩, clamp_low hxa.le]
      have : a / 8 / a = 1 / 8 := by field_simp
      rw [this, show (2 * π * (-1 + 24 * (1 / 8) - 144 * (1 / 8) ^ 2 + 256 * (1 / 8) ^ 3) : ℝ) = π / 2 by ring, sin_pi_div_two]

theorem papadakis_clamp {a : ℝ} (ha : 0 < a) {x : ℝ} (hx : 0 ≤ x) :
    papadakisKernel a x = some (√((1 - sin (3 * π / (2 * a) * clamp a (a * 5 / 3) x)) / 2)) := by
  unfold papadakisKernel
  split
  · rename_i h
    rw [clamp_high (by linarith) h]
    have : 3 * π / (2 * a) * (a * 5 / 3) = π / 2 + 2 * π := by field_simp; ring
    rw [this, sin_add_two_pi, sin_pi_div_two]; simp
  · rename_i h
    push Not at h
    split
    · rename_i h'
      rw [clamp_mid h'.1 h.le]
    · rename_i h'
      have hxa : x < a := by
        by_contra h''
        exact h' ⟨not_lt.1 h'', h⟩
      rw [if_pos ⟨hx, hxa⟩, clamp_low hxa.le]
      have : 3 * π / (2 * a) * a = π / 2 + π := by field_simp; ring
      rw [this, sin_add_pi, sin_pi_div_two]; norm_num

theorem simoncelli_clamp {a : ℝ} (ha : 0 < a) {x : ℝ} (hx : 0 ≤ x) :
    simoncelliKernel a x = some (cos (π / 2 * log (clamp a (2 * a) x / a) / log 2)) := by
  have hl : log 2 ≠ 0 := (log_pos (by norm_num)).ne'
  unfold simoncelliKernel
  split
  · rename_i h
    rw [clamp_high (by linarith) h, show 2 * a / a = 2 by field_simp, mul_div_assoc, div_self hl, mul_one, cos_pi_div_two]
  · rename_i h
    push Not at h
    split
    · rename_i h'
      rw [clamp_mid h'.1 h.le]
    · rename_i h'
      have hxa : x < a := by
        by_contra h''
        exact h' ⟨not_lt.1 h'', h⟩
      rw [if_pos ⟨hx, hxa⟩, clamp_low hxa.le, div_self ha.ne', log_one]; simp

theorem onEmpty_is (junk : Junk) {p : ℝ → Option ℝ} {φ : ℝ → ℝ} {I : Set ℝ} (h : ∀ x ∈ I, p x = some (φ x)) : Kernel.Is (Kernel.onEmpty junk p) φ I := by
  intro k x _ hx
  rw [onEmpty_ok]
  exact congrArg Except.ok (funext fun j => by rw [h _ (hx j)]; rfl)

theorem orNaN_is {p : ℝ → Option ℝ} {φ : ℝ → ℝ} {I : Set ℝ} (h : ∀ x ∈ I, p x = some (φ x)) : Kernel.Is (Kernel.orNaN p) φ I := by
  intro k x _ hx
  unfold Kernel.orNaN
  exact (seqFin_ok _ _ _).2 fun j => by rw [h _ (hx j)]

/-- **C90** The filters of `Held`, `Papadakis`, `Simoncelli` and `Regular` are continuous on the nonnegative frequencies. -/
theorem C90_two_bands (junk : Junk) {lmax : ℝ} (hl : 0 < lmax) {a : ℝ} (ha : 0 < a) (degree : ℕ) :
    (held junk lmax a).ContOn (Set.Ici 0) ∧ (papadakis junk lmax a).ContOn (Set.Ici 0) ∧ (simoncelli junk lmax a).ContOn (Set.Ici 0) ∧
      (regular lmax degree).ContOn Set.univ := by
  have hsc := continuous_clamp
  refine ⟨?_, ?_, ?_, ?_⟩
  · refine contOn_withComplement (φ := fun x => sin (2 * π * (-1 + 24 * (clamp a (2 * a) (x * 2 / lmax) / 8 / a) - 144 * (clamp a (2 * a) (x * 2 / lmax) / 8 / a) ^ 2 +
      256 * (clamp a (2 * a) (x * 2 / lmax) / 8 / a) ^ 3))) ?_ (onEmpty_is junk fun x hx => held_clamp ha (scaled_nonneg hl hx)) fun x _ => sin_sq_le_one _
    have := (hsc a (2 * a)).comp (by fun_prop : Continuous fun x : ℝ => x * 2 / lmax)
    simp only [Function.comp_def] at this
    fun_prop
  · refine contOn_withComplement (φ := fun x => √((1 - sin (3 * π / (2 * a) * clamp a (a * 5 / 3) (x * 2 / lmax))) / 2)) ?_
      (onEmpty_is junk fun x hx => papadakis_clamp ha (scaled_nonneg hl hx)) fun x _ => ?_
    · have := (hsc a (a * 5 / 3)).comp (by fun_prop : Continuous fun x : ℝ => x * 2 / lmax)
      simp only [Function.comp_def] at this
      fun_prop
    · have h1 := neg_one_le_sin (3 * π / (2 * a) * clamp a (a * 5 / 3) (x * 2 / lmax))
      have h2 := sin_le_one (3 * π / (2 * a) * clamp a (a * 5 / 3) (x * 2 / lmax))
      rw [sq_sqrt (by linarith)]
      linarith
  · refine contOn_withComplement (φ := fun x => cos (π / 2 * log (clamp a (2 * a) (x * 2 / lmax) / a) / log 2)) ?_
      (onEmpty_is junk fun x hx => simoncelli_clamp ha (scaled_nonneg hl hx)) fun x _ => cos_sq_le_one _
    have h1 := (hsc a (2 * a)).comp (by fun_prop : Continuous fun x : ℝ => x * 2 / lmax)
    simp only [Function.comp_def] at h1
    have h2 : Continuous fun x => log (clamp a (2 * a) (x * 2 / lmax) / a) :=
      Continuous.log (h1.div_const a) fun x => (div_pos (lt_of_lt_of_le ha (clamp_ge _ _ _)) ha).ne'
    exact Continuous.continuousOn (by fun_prop)
  · refine contOn_withComplement (φ := fun x => regularKernel degree (x * 2 / lmax)) ?_ (pointwise_is _ _) fun x _ => by
      unfold regularKernel; split <;> exact sin_sq_le_one _
    unfold regularKernel
    split
    · fun_prop
    · have h1 : Continuous ((fun y : ℝ => sin (π * y / 2))^[degree - 2]) := Continuous.iterate (by fun_prop) _
      have h2 := h1.comp (by fun_prop : Continuous fun x : ℝ => sin (π * (x * 2 / lmax - 1) / 2))
      simp only [Function.comp_def] at h2
      fun_prop

/-! ## Meyer and SimpleTight -/

theorem meyerV_zero : meyerV 0 = 0 := by unfold meyerV; norm_num
theorem meyerV_one : meyerV 1 = 1 := by unfold meyerV; norm_num

theorem meyer_scaling_clamp (x : ℝ) : meyerKernel x .scaling = cos (π / 2 * meyerV (clamp 0 1 (x / (2 / 3) - 1))) := by
  unfold meyerKernel
  simp only
  by_cases h1 : x < 2 / 3
  · rw [if_neg (by intro h; linarith [h.1]), if_pos h1, clamp_low (by rw [sub_nonpos, div_le_one (by norm_num)]; exact h1.le), meyerV_zero]; simp
  · by_cases h2 : x < 4 / 3
    · rw [if_pos ⟨not_lt.1 h1, h2⟩, abs_of_nonneg (by linarith), clamp_mid (by push Not at h1; rw [sub_nonneg, le_div_iff₀ (by norm_num)]; linarith)
        (by rw [sub_le_iff_le_add, div_le_iff₀ (by norm_num)]; linarith)]
    · rw [if_neg (fun h => h2 h.2), if_neg h1, clamp_high (by norm_num) (by push Not at h2; rw [le_sub_iff_add_le, le_div_iff₀ (by norm_num)]; linarith),
        meyerV_one, mul_one, cos_pi_div_two]

theorem meyer_wavelet_clamp (x : ℝ) : meyerKernel x .wavelet =
    sin (π / 2 * meyerV (clamp 0 1 (x / (2 / 3) - 1))) * cos (π / 2 * meyerV (clamp 0 1 (x / (4 / 3) - 1))) := by
  unfold meyerKernel
  simp only
  by_cases h1 : x < 4 / 3
  · rw [if_neg (by intro h; linarith [h.1]), clamp_low (x := x / (4 / 3) - 1) (by rw [sub_nonpos, div_le_one (by norm_num)]; exact h1.le), meyerV_zero, mul_zero, cos_zero, mul_one]
    by_cases h2 : x < 2 / 3
    · rw [if_neg (by intro h; linarith [h.1]), clamp_low (by rw [sub_nonpos, div_le_one (by norm_num)]; exact h2.le), meyerV_zero]; simp
    · rw [if_pos ⟨not_lt.1 h2, h1⟩, abs_of_nonneg (by linarith), clamp_mid (by push Not at h2; rw [sub_nonneg, le_div_iff₀ (by norm_num)]; linarith)
        (by rw [sub_le_iff_le_add, div_le_iff₀ (by norm_num)]; linarith)]
  · push Not at h1
    rw [clamp_high (x := x / (2 / 3) - 1) (by norm_num) (by rw [le_sub_iff_add_le, le_div_iff₀ (by norm_num)]; linarith), meyerV_one, mul_one, sin_pi_div_two, one_mul]
    by_cases h2 : x < 8 / 3
    · rw [if_pos ⟨h1, h2⟩, abs_of_nonneg (by linarith), clamp_mid (by rw [sub_nonneg, le_div_iff₀ (by norm_num)]; linarith)
        (by rw [sub_le_iff_le_add, div_le_iff₀ (by norm_num)]; linarith)]
    · rw [if_neg (fun h => h2 h.2), if_neg (by intro h; linarith [h.2]), clamp_high (by norm_num) (by push Not at h2; rw [le_sub_iff_add_le, le_div_iff₀ (by norm_num)]; linarith),
        meyerV_one, mul_one, cos_pi_div_two]

theorem meyer_continuous (w : WKind) : Continuous fun x => meyerKernel x w := by
  have hv : Continuous meyerV := by unfold meyerV; fun_prop
  have h1 : Continuous fun x : ℝ => meyerV (clamp 0 1 (x / (2 / 3) - 1)) := hv.comp ((continuous_clamp 0 1).comp (by fun_prop))
  have h2 : Continuous fun x : ℝ => meyerV (clamp 0 1 (x / (4 / 3) - 1)) := hv.comp ((continuous_clamp 0 1).comp (by fun_prop))
  cases w
  · simp only [meyer_scaling_clamp]; fun_prop
  · simp only [meyer_wavelet_clamp]; fun_prop

theorem simpleTight_scaling_clamp (x : ℝ) : simpleTightKernel x .scaling = √(1 - (sin (π * clamp 0 1 (4 * x - 1) / 2) ^ 2) ^ 2) := by
  unfold simpleTightKernel
  simp only
  by_cases h1 : x < 1 / 4
  · rw [if_neg (by intro h; linarith [h.1]), if_pos h1, clamp_low (by linarith)]; simp
  · by_cases h2 : x < 1 / 2
    · rw [if_pos ⟨not_lt.1 h1, h2⟩, clamp_mid (by linarith) (by linarith)]
    · rw [if_neg (fun h => h2 h.2), if_neg h1, clamp_high (by norm_num) (by linarith), mul_one, sin_pi_div_two]; simp

theorem simpleTight_wavelet_clamp (x : ℝ) : simpleTightKernel x .wavelet =
    sin (π * clamp 0 1 (4 * x - 1) / 2) ^ 2 * √(1 - (sin (π * clamp 0 1 (2 * x - 1) / 2) ^ 2) ^ 2) := by
  unfold simpleTightKernel
  simp only
  by_cases h1 : x < 1 / 2
  · rw [if_neg (by intro h; linarith [h.1]), clamp_low (x := 2 * x - 1) (by linarith)]
    by_cases h2 : x < 1 / 4
    · rw [if_neg (by intro h; linarith [h.1]), clamp_low (by linarith)]; simp
    · rw [if_pos ⟨not_lt.1 h2, h1⟩, clamp_mid (by linarith) (by linarith), show 4 * (x - 1 / 4) = 4 * x - 1 by ring]; simp
  · rw [clamp_high (x := 4 * x - 1) (by norm_num) (by linarith), mul_one, sin_pi_div_two]
    by_cases h2 : x < 1
    · rw [if_pos ⟨not_lt.1 h1, h2⟩, clamp_mid (by linarith) (by linarith)]; simp
    · rw [if_neg (fun h => h2 h.2), if_neg (by intro h; linarith [h.2]), clamp_high (by norm_num) (by linarith), mul_one, sin_pi_div_two]; simp

theorem simpleTight_continuous (w : WKind) : Continuous fun x => simpleTightKernel x w := by
  have h1 : Continuous fun x : ℝ => clamp 0 1 (4 * x - 1) := (continuous_clamp 0 1).comp (by fun_prop)
  have h2 : Continuous fun x : ℝ => clamp 0 1 (2 * x - 1) := (continuous_clamp 0 1).comp (by fun_prop)
  cases w
  · simp only [simpleTight_scaling_clamp]; fun_prop
  · simp only [simpleTight_wavelet_clamp]; fun_prop

theorem waveletBank_contOn {ker : ℝ → WKind → ℝ} (hk : ∀ w, Continuous fun x => ker x w) {Nf : ℕ} {scales : List ℝ} {f : Bank}
    (hf : waveletBank ker Nf scales = .ok f) (hN : 2 ≤ Nf) : f.ContOn Set.univ := by
  unfold waveletBank at hf
  split at hf
  · cases hf
  · rename_i h
    push Not at h
    obtain rfl := Except.ok.inj hf
    rcases scales with _ | ⟨s0, l⟩
    · simp at h; omega
    · refine contOn_of_kernels fun g hg => ?_
      rcases List.mem_cons.1 hg with rfl | hg
      · exact ⟨fun x => ker (s0 * x) .scaling, ((hk .scaling).comp (by fun_prop : Continuous fun x : ℝ => s0 * x)).continuousOn, fun k x _ _ => rfl⟩
      · rw [List.mem_map] at hg
        obtain ⟨s, -, rfl⟩ := hg
        exact ⟨_, ((hk .wavelet).comp (by fun_prop : Continuous fun x : ℝ => s * x)).continuousOn, pointwise_is _ _⟩

/-- **C90** The filters of `Meyer` and `SimpleTight`, with the default scales or with any others, are continuous at all frequencies. -/
theorem C90_wavelets {lmax : ℝ} {Nf : ℕ} (hN : 2 ≤ Nf) (scales : Option (List ℝ)) {f : Bank}
    (hf : meyer lmax Nf scales = .ok f ∨ simpleTight lmax Nf scales = .ok f) : f.ContOn Set.univ := by
  rcases hf with hf | hf
  · exact waveletBank_contOn meyer_continuous hf hN
  · unfold simpleTight at hf
    exact waveletBank_contOn simpleTight_continuous hf hN

/-! ## Uniform translates -/

/-- **C90** The filters of `HalfCosine` and `Itersine` are continuous at all frequencies. -/
theorem C90_translates {lmax : ℝ} (hl : 0 < lmax) (Nf overlap : ℕ) {f : Bank} (hf : halfCosine lmax Nf = .ok f ∨ itersine lmax Nf overlap = f) : f.ContOn Set.univ := by
  rcases hf with hf | hf
  · unfold halfCosine at hf
    split at hf
    · cases hf
    · rename_i hN
      obtain rfl := Except.ok.inj hf
      have hd : 0 < lmax * 3 / (Nf - 2 : ℝ) := by
        have : (2 : ℝ) < Nf := by exact_mod_cast not_le.1 hN
        have : 0 < (Nf : ℝ) - 2 := by linarith
        positivity
      generalize lmax * 3 / (Nf - 2 : ℝ) = d at hd
      have hk : ∀ x : ℝ, (0.5 + 0.5 * cos (2 * π * (x / d - 0.5))) * (if x ≥ 0 then 1 else 0) * (if x ≤ d then 1 else 0) =
          0.5 + 0.5 * cos (2 * π * (clamp 0 1 (x / d) - 0.5)) := by
        intro x
        have h0 : cos (2 * π * (0 - 0.5)) = -1 := by rw [show 2 * π * (0 - 0.5) = -π by ring, cos_neg, cos_pi]
        have h1 : cos (2 * π * (1 - 0.5)) = -1 := by rw [show 2 * π * (1 - 0.5) = π by ring, cos_pi]
        rcases le_total x 0 with hx | hx
        · rw [clamp_low (div_nonpos_of_nonpos_of_nonneg hx hd.le), h0]
          rcases eq_or_lt_of_le hx with rfl | hx'
          · rw [zero_div, h0]; norm_num
          · rw [if_neg (by linarith : ¬ x ≥ 0)]; norm_num
        · rcases le_total x d with hx' | hx'
          · rw [if_pos hx, if_pos hx', clamp_mid (by positivity) ((div_le_one hd).2 hx')]; ring
          · rw [clamp_high (by norm_num) ((one_le_div hd).2 hx'), h1]
            rcases eq_or_lt_of_le hx' with h | h
            · rw [← h, div_self hd.ne', h1]; norm_num
            · rw [if_neg (by linarith : ¬ x ≤ d)]; norm_num
      refine contOn_of_kernels fun g hg => ?_
      obtain ⟨i, -, rfl⟩ := List.mem_map.1 hg
      refine ⟨_, ?_, pointwise_is _ _⟩
      simp only [hk]
      have := (continuous_clamp 0 1).comp (by fun_prop : Continuous fun x : ℝ => (x - d / 3 * ((i : ℝ) - 2)) / d)
      simp only [Function.comp_def] at this
      exact Continuous.continuousOn (by fun_prop)
  · subst hf
    have hk : ∀ x : ℝ, sin (0.5 * π * cos (x * π) ^ 2) * (if x ≥ -0.5 ∧ x ≤ 0.5 then 1 else 0) = sin (0.5 * π * cos (clamp (-0.5) 0.5 x * π) ^ 2) := by
      intro x
      have h0 : cos (-0.5 * π) = 0 := by rw [show -0.5 * π = -(π / 2) by ring, cos_neg, cos_pi_div_two]
      have h1 : cos (0.5 * π) = 0 := by rw [show 0.5 * π = π / 2 by ring, cos_pi_div_two]
      rcases le_total x (-0.5) with hx | hx
      · rw [clamp_low hx, h0]
        rcases eq_or_lt_of_le hx with rfl | hx'
        · rw [h0]; norm_num
        · rw [if_neg (by intro h; linarith [h.1])]; norm_num
      · rcases le_total x 0.5 with hx' | hx'
        · rw [if_pos ⟨hx, hx'⟩, clamp_mid hx hx', mul_one]
        · rw [clamp_high (by norm_num) hx', h1]
          rcases eq_or_lt_of_le hx' with rfl | h
          · rw [h1]; norm_num
          · rw [if_neg (by intro h'; linarith [h'.2])]; norm_num
    unfold itersine
    refine contOn_of_kernels fun g hg => ?_
    obtain ⟨i, -, rfl⟩ := List.mem_map.1 hg
    refine ⟨_, ?_, pointwise_is _ _⟩
    simp only [hk]
    have := (continuous_clamp (-0.5) 0.5).comp (by fun_prop : Continuous fun x : ℝ =>
      x / (lmax / (Nf - overlap + 1 : ℝ) * overlap) - ((i : ℝ) - overlap / 2) / overlap)
    simp only [Function.comp_def] at this
    exact Continuous.continuousOn (by fun_prop)

/-! ## Heat, wave, Mexican hat, spline -/

/-- **C90** The filters of `Heat`, normalized or not, and of `MexicanHat` are continuous at all frequencies, those of `Abspline` (with enough
scales) too; those of `Wave` are continuous on `[0, lmax]` for speeds in `[-2, 2)`. -/
theorem C90_others {lmax : ℝ} (hl : 0 < lmax) :
    (∀ scale normalize, (heat lmax scale normalize).ContOn Set.univ) ∧
    (∀ Nf lpfactor scales normalize f, mexicanHat lmax Nf lpfactor scales normalize = .ok f → f.ContOn Set.univ) ∧
    (∀ xstar Nf lpfactor scales, Nf ≤ scales.length + 1 → (abspline xstar lmax Nf lpfactor (some scales)).ContOn Set.univ) ∧
    ∀ time speed f, (∀ v ∈ speed, -2 ≤ v) → wave lmax time speed = .ok f → f.ContOn (Set.Icc 0 lmax) := by
  refine ⟨fun scale normalize => ?_, fun Nf lpfactor scales normalize f hf => ?_, fun xstar Nf lpfactor scales hN => ?_, fun time speed f hv hf => ?_⟩
  · refine contOn_of_kernels fun g hg => ?_
    obtain ⟨s, -, rfl⟩ := List.mem_map.1 hg
    refine ⟨_, ?_, pointwise_is _ _⟩
    unfold heatKernel
    fun_prop
  · unfold mexicanHat at hf
    simp only at hf
    split at hf
    · cases hf
    · obtain rfl := Except.ok.inj hf
      refine contOn_of_kernels fun g hg => ?_
      rcases List.mem_cons.1 hg with rfl | hg
      · exact ⟨_, by fun_prop, pointwise_is _ _⟩
      · obtain ⟨s, -, rfl⟩ := List.mem_map.1 hg
        exact ⟨_, by fun_prop, pointwise_is _ _⟩
  · have hc : Continuous absplineGb := C50_abspline_kernel.2.2.2.2.2.1
    refine contOn_of_kernels fun g hg => ?_
    rcases List.mem_cons.1 hg with rfl | hg
    · exact ⟨_, by fun_prop, pointwise_is _ _⟩
    · obtain ⟨i, hi, rfl⟩ := List.mem_map.1 hg
      have hi' : i < scales.length := by rw [List.mem_range] at hi; omega
      simp only [Option.getD_some, List.getElem?_eq_getElem hi']
      exact ⟨_, by fun_prop, pointwise_is _ _⟩
  · unfold wave at hf
    rcases hb : broadcast time speed with e | ⟨t, v⟩
    · rw [hb] at hf; cases hf
    · rw [hb] at hf
      simp only at hf
      split at hf
      · cases hf
      · rename_i h2
        obtain rfl := Except.ok.inj hf
        have hv' : ∀ s ∈ v, s ∈ speed := by
          unfold broadcast at hb
          split at hb
          · split at hb
            · obtain ⟨rfl, rfl⟩ := Prod.mk.inj (Except.ok.inj hb)
              intro s hs
              rw [List.eq_of_mem_replicate hs]; simp
            · obtain ⟨rfl, rfl⟩ := Prod.mk.inj (Except.ok.inj hb)
              exact fun _ h => h
            · cases hb
          · obtain ⟨rfl, rfl⟩ := Prod.mk.inj (Except.ok.inj hb)
            exact fun _ h => h
        refine contOn_of_kernels fun g hg => ?_
        obtain ⟨p, hp, rfl⟩ := List.mem_map.1 hg
        have hp2 := (List.of_mem_zip hp).2
        have a1 := hv _ (hv' _ hp2)
        have a2 : p.2 < 2 := by
          by_contra h
          exact h2 (List.any_eq_true.2 ⟨p.2, hp2, by simpa using not_lt.1 h⟩)
        refine ⟨fun x => cos (p.1 * arccos (1 - p.2 ^ 2 * x / lmax / 2)), ?_, orNaN_is fun x hx => ?_⟩
        · have := continuous_arccos.comp (by fun_prop : Continuous fun x : ℝ => 1 - p.2 ^ 2 * x / lmax / 2)
          simp only [Function.comp_def] at this
          fun_prop
        · unfold waveKernel
          simp only
          have h0 : 0 ≤ x / lmax := div_nonneg hx.1 hl.le
          have h1 : x / lmax ≤ 1 := (div_le_one hl).2 hx.2
          have hq : p.2 ^ 2 ≤ 4 := by nlinarith
          have e : p.2 ^ 2 * x / lmax / 2 = p.2 ^ 2 * (x / lmax) / 2 := by ring
          rw [if_pos]
          rw [e]
          constructor
          · nlinarith [mul_le_mul hq h1 h0 (by norm_num : (0 : ℝ) ≤ 4)]
          · nlinarith [mul_nonneg (sq_nonneg p.2) h0]

/-! ## Windows -/

theorem expwin_smooth {slope : ℝ} (hs : 0 < slope) : ContDiff ℝ ∞ (expwinH slope) := by
  have e : ∀ x, expwinExp slope x = expNegInvGlue (x / slope) := by
    intro x
    unfold expNegInvGlue
    by_cases h : x ≤ 0
    · rw [expwinExp_nonpos h, if_pos (div_nonpos_of_nonpos_of_nonneg h hs.le)]
    · push Not at h
      rw [expwinExp_pos h, if_neg (by push Not; positivity), inv_div]
  have h1 : ContDiff ℝ ∞ (expwinExp slope) := by
    have : expwinExp slope = fun x => expNegInvGlue (x / slope) := funext e
    rw [this]
    exact expNegInvGlue.contDiff.comp (contDiff_id.div_const _)
  unfold expwinH
  refine ContDiff.div h1 (h1.add (h1.comp (contDiff_const.sub contDiff_id))) fun x => (expwin_denom slope x).ne'

/-- **C90** The window of `Expwin` with a positive slope is infinitely differentiable; `Rectangular` is not continuous when a bound lies inside the
spectrum. -/
theorem C90_windows {lmax : ℝ} (hl : 0 < lmax) :
    (∀ lo hi slope, 0 < slope → ∃ φ : ℝ → ℝ, ContDiff ℝ ∞ φ ∧ ∀ k (x : Fin k → ℝ), (expwin lmax lo hi slope).evaluate x = .ok fun _ j => φ (x j)) ∧
    ∀ hi, 0 ≤ hi → hi < 1 → ¬ (rectangular lmax none (some hi)).ContOn (Set.Icc 0 lmax) := by
  constructor
  · intro lo hi slope hs
    have hsm := expwin_smooth hs
    refine ⟨bandKernel (fun hi x => expwinH slope (0.5 - x / lmax + hi)) (fun lo x => expwinH slope (0.5 + x / lmax - lo)) lo hi, ?_, fun k x => ?_⟩
    · have hlow : ∀ b, ContDiff ℝ ∞ fun x => expwinH slope (0.5 - x / lmax + b) := fun b =>
        hsm.comp ((contDiff_const.sub (contDiff_id.div_const _)).add contDiff_const)
      have hhigh : ∀ b, ContDiff ℝ ∞ fun x => expwinH slope (0.5 + x / lmax - b) := fun b =>
        hsm.comp ((contDiff_const.add (contDiff_id.div_const _)).sub contDiff_const)
      rcases lo with _ | lo <;> rcases hi with _ | hi
      · exact contDiff_const
      · exact hlow hi
      · exact hhigh lo
      · exact (hlow hi).mul (hhigh lo)
    · unfold Bank.evaluate
      refine (seqFin_ok _ _ _).2 fun i => ?_
      have hi : i.1 = 0 := by have := i.2; simp [expwin, Bank.ofArg, Bank.Nf] at this; omega
      have : i = ⟨0, by simp [expwin, Bank.ofArg, Bank.Nf]⟩ := Fin.ext hi
      subst this
      rfl
  · rintro hi h0 h1 ⟨φ, hc, he⟩
    let i : Fin (rectangular lmax none (some hi)).Nf := ⟨0, by simp [rectangular, Bank.ofArg, Bank.Nf]⟩
    have hv : ∀ x ∈ Set.Icc 0 lmax, φ i x = if x / lmax ≤ hi then 1 else 0 := by
      intro x hx
      have e1 := he 1 (fun _ => x) one_pos fun _ => hx
      have e2 : (rectangular lmax none (some hi)).evaluate (fun _ : Fin 1 => x) = .ok fun _ _ => if x / lmax ≤ hi then 1 else 0 := by
        unfold Bank.evaluate
        refine (seqFin_ok _ _ _).2 fun i => ?_
        have hi' : i.1 = 0 := by have := i.2; simp [rectangular, Bank.ofArg, Bank.Nf] at this; omega
        have : i = ⟨0, by simp [rectangular, Bank.ofArg, Bank.Nf]⟩ := Fin.ext hi'
        subst this
        rfl
      rw [e2] at e1
      exact (congrFun (congrFun (Except.ok.inj e1) i) 0).symm
    have hmem : hi * lmax ∈ Set.Icc 0 lmax := ⟨by positivity, by nlinarith⟩
    have hcv := hc i (hi * lmax) hmem
    rw [Metric.continuousWithinAt_iff] at hcv
    obtain ⟨δ, hδ, hd⟩ := hcv (1 / 2) (by norm_num)
    let x := hi * lmax + min (δ / 2) ((1 - hi) * lmax)
    have hpos : 0 < min (δ / 2) ((1 - hi) * lmax) := lt_min (by linarith) (by nlinarith)
    have hx : x ∈ Set.Icc 0 lmax := ⟨by change 0 ≤ hi * lmax + _; have := hmem.1; linarith, by
      change hi * lmax + _ ≤ lmax
      have := min_le_right (δ / 2) ((1 - hi) * lmax)
      nlinarith⟩
    have := hd hx (by
      rw [Real.dist_eq]
      change |hi * lmax + _ - hi * lmax| < δ
      rw [add_sub_cancel_left, abs_of_pos hpos]
      have := min_le_left (δ / 2) ((1 - hi) * lmax)
      linarith)
    have e1 : φ i x = 0 := by
      rw [hv x hx, if_neg]
      push Not
      rw [lt_div_iff₀ hl]
      change hi * lmax < hi * lmax + min (δ / 2) ((1 - hi) * lmax)
      linarith
    have e2 : φ i (hi * lmax) = 1 := by
      rw [hv _ hmem, if_pos (by rw [mul_div_assoc, div_self hl.ne', mul_one])]
    rw [e1, e2, Real.dist_eq] at this
    norm_num at this

/-- The hypotheses are met: `Meyer(G)` and `HalfCosine(G)` with six filters exist. -/
example : (∃ f, meyer 4 6 none = .ok f) ∧ ∃ f, halfCosine 4 6 = .ok f := by
  refine ⟨?_, ?_⟩
  · unfold meyer waveletBank dyadicScales
    simp
  · unfold halfCosine
    simp

end PyGSP
