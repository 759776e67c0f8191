import Verif.Props.Designs

/-!
# C42 - C45: Meyer, SimpleTight, HalfCosine, Itersine
-/

namespace PyGSP

open Real

namespace Design

/-- a filter bank made of pointwise kernels: the values -/
theorem evaluate_pointwise {f : Bank} (gs : List (ℝ → ℝ)) (hf : f.kernels = gs.map Kernel.pointwise) {k : ℕ}
    (x : Fin k → ℝ) :
    f.evaluate x = .ok fun (i : Fin f.Nf) (j : Fin k) =>
      (gs.get ⟨i.1, by have := i.2; simp only [Bank.Nf, hf, List.length_map] at this; exact this⟩) (x j) := by
  unfold Bank.evaluate
  rw [seqFin_ok]
  intro i
  have : f.kernels.get i = Kernel.pointwise
      (gs.get ⟨i.1, by have := i.2; simp only [Bank.Nf, hf, List.length_map] at this; exact this⟩) := by
    simp only [List.get_eq_getElem, hf, List.getElem_map]
  rw [this]
  rfl

theorem tightOn_pointwise {f : Bank} (gs : List (ℝ → ℝ)) (hf : f.kernels = gs.map Kernel.pointwise) {c : ℝ} {I : Set ℝ}
    (h : ∀ x ∈ I, (gs.map fun g => g x ^ 2).sum = c) : f.TightOn c I := by
  intro k x _ hx
  refine ⟨_, evaluate_pointwise gs hf x, fun j => ?_⟩
  rw [← h _ (hx j), ← Fin.sum_univ_fun_getElem]
  have hl : f.Nf = gs.length := by rw [Bank.Nf, hf, List.length_map]
  exact Fintype.sum_equiv (finCongr hl) _ _ fun i => rfl

theorem sum_map_range {α : Type} [AddCommMonoid α] (f : ℕ → α) (m : ℕ) :
    ((List.range m).map f).sum = ∑ i ∈ Finset.range m, f i := by
  rw [Finset.sum_range, ← Fin.sum_univ_fun_getElem]
  have hl : (List.range m).length = m := List.length_range
  exact Fintype.sum_equiv (finCongr hl) _ _ fun i => by simp

/-! ### Dyadic wavelets -/

/-- the squared sum of a scaling function and the wavelets at the scales `1, 2, ..., 2 ^ m` -/
noncomputable def dyadicSum (ker : ℝ → WKind → ℝ) (m : ℕ) (t : ℝ) : ℝ :=
  ker (2 ^ m * t) .scaling ^ 2 + ∑ j ∈ Finset.range (m + 1), ker (2 ^ j * t) .wavelet ^ 2

theorem dyadicSum_succ (ker : ℝ → WKind → ℝ) (m : ℕ) (t : ℝ) :
    dyadicSum ker (m + 1) t = dyadicSum ker m (2 * t) + ker t .wavelet ^ 2 := by
  unfold dyadicSum
  rw [Finset.sum_range_succ']
  simp only [pow_succ, mul_assoc, pow_zero, one_mul]
  ring

/-- what makes the two kinds of windows complementary -/
structure Window (ker : ℝ → WKind → ℝ) (l : ℝ) (C S : ℝ → ℝ) : Prop where
  pos : 0 < l
  low : ∀ t, t < l → ker t .scaling = 1 ∧ ker t .wavelet = 0
  mid : ∀ t, l ≤ t → t < 2 * l → ker t .scaling = C t ∧ ker t .wavelet = S t
  high : ∀ t, 2 * l ≤ t → t < 4 * l → ker t .scaling = 0 ∧ ker t .wavelet = C (t / 2)
  out : ∀ t, 4 * l ≤ t → ker t .scaling = 0 ∧ ker t .wavelet = 0
  sq : ∀ t, l ≤ t → t < 2 * l → C t ^ 2 + S t ^ 2 = 1
  left : C l = 1

theorem dyadicSum_eq {ker : ℝ → WKind → ℝ} {l : ℝ} {C S : ℝ → ℝ} (h : Window ker l C S) (m : ℕ) :
    ∀ t, dyadicSum ker m t = if t < 2 * l then 1 else if t < 4 * l then C (t / 2) ^ 2 else 0 := by
  have hl := h.pos
  induction m with
  | zero =>
    intro t
    have e : dyadicSum ker 0 t = ker t .scaling ^ 2 + ker t .wavelet ^ 2 := by
      unfold dyadicSum; simp
    rw [e]
    rcases lt_or_ge t l with h1 | h1
    · rw [(h.low t h1).1, (h.low t h1).2, if_pos (by linarith)]; norm_num
    rcases lt_or_ge t (2 * l) with h2 | h2
    · rw [(h.mid t h1 h2).1, (h.mid t h1 h2).2, if_pos h2, h.sq t h1 h2]
    rcases lt_or_ge t (4 * l) with h3 | h3
    · rw [(h.high t h2 h3).1, (h.high t h2 h3).2, if_neg (by linarith), if_pos h3]; ring
    · rw [(h.out t h3).1, (h.out t h3).2, if_neg (by linarith), if_neg (by linarith)]; norm_num
  | succ m ih =>
    intro t
    rw [dyadicSum_succ, ih]
    rcases lt_or_ge t l with h1 | h1
    · rw [(h.low t h1).2, if_pos (by linarith), if_pos (by linarith)]; norm_num
    rcases lt_or_ge t (2 * l) with h2 | h2
    · rw [(h.mid t h1 h2).2, if_neg (by linarith), if_pos (by linarith), if_pos h2,
        show 2 * t / 2 = t by ring, h.sq t h1 h2]
    rcases lt_or_ge t (4 * l) with h3 | h3
    · rw [(h.high t h2 h3).2, if_neg (by linarith), if_neg (by linarith), if_neg (by linarith), if_pos h3]; ring
    · rw [(h.out t h3).2, if_neg (by linarith), if_neg (by linarith), if_neg (by linarith), if_neg (by linarith)]
      norm_num

/-- the functions of a wavelet bank with dyadic scales -/
noncomputable def dyadicFuns (ker : ℝ → WKind → ℝ) (c : ℝ) (m : ℕ) : List (ℝ → ℝ) :=
  (fun x => ker (c * 2 ^ m * x) .scaling) ::
    (List.range (m + 1)).map fun i => fun x => ker (c * 2 ^ (m - i) * x) .wavelet

theorem waveletBank_dyadic (ker : ℝ → WKind → ℝ) (c : ℝ) (m : ℕ) :
    waveletBank ker (m + 2) (dyadicScales c (m + 2)) =
      .ok (Bank.ofArg (.many ((dyadicFuns ker c m).map Kernel.pointwise))) := by
  have e : dyadicScales c (m + 2) = c * 2 ^ m :: (List.range m).map fun i => c * 2 ^ (m - (i + 1)) := by
    unfold dyadicScales
    show (List.range (m + 1)).map _ = _
    rw [List.range_succ_eq_map]
    simp only [List.map_cons, List.map_map, Nat.sub_zero]
    congr 1
  unfold waveletBank dyadicFuns
  rw [e]
  rw [if_neg (by simp)]
  refine congrArg Except.ok ?_
  rw [List.range_succ_eq_map]
  simp only [List.map_cons, List.map_map, Nat.sub_zero]
  rfl

theorem dyadicFuns_sum (ker : ℝ → WKind → ℝ) (c : ℝ) (m : ℕ) (x : ℝ) :
    ((dyadicFuns ker c m).map fun g => g x ^ 2).sum = dyadicSum ker m (c * x) := by
  unfold dyadicFuns dyadicSum
  simp only [List.map_cons, List.map_map, List.sum_cons, Function.comp_def]
  rw [sum_map_range, ← Finset.sum_range_reflect]
  congr 1
  · congr 2; ring
  · refine Finset.sum_congr rfl fun i hi => ?_
    have := Finset.mem_range.1 hi
    congr 2
    have : m - (m + 1 - 1 - i) = i := by omega
    rw [this]; ring

theorem window_bank {ker : ℝ → WKind → ℝ} {l : ℝ} {C S : ℝ → ℝ} (h : Window ker l C S) {lmax : ℝ} (hl : 0 < lmax)
    {c : ℝ} (hc : c = 2 * l / lmax) (m : ℕ) :
    ∃ f, waveletBank ker (m + 2) (dyadicScales c (m + 2)) = .ok f ∧ f.Nf = m + 2 ∧ f.TightOn 1 (Set.Iic lmax) ∧
      f.TightOn 0 (Set.Ici (2 * lmax)) := by
  have hlp := h.pos
  refine ⟨_, waveletBank_dyadic ker c m, by simp [Bank.ofArg, Bank.Nf, dyadicFuns],
    tightOn_pointwise (dyadicFuns ker c m) rfl fun x hx => ?_, tightOn_pointwise (dyadicFuns ker c m) rfl fun x hx => ?_⟩
  · have hx : x ≤ lmax := hx
    rw [dyadicFuns_sum, dyadicSum_eq h, hc]
    have e : 2 * l / lmax * x = 2 * l * (x / lmax) := by ring
    rcases lt_or_eq_of_le hx with h1 | h1
    · have h2 : x / lmax < 1 := by rw [div_lt_one hl]; exact h1
      rw [if_pos (by rw [e]; nlinarith)]
    · have : 2 * l / lmax * x = 2 * l := by rw [h1]; field_simp
      rw [this, if_neg (lt_irrefl _), if_pos (by linarith), show 2 * l / 2 = l by ring, h.left]
      norm_num
  · have hx : 2 * lmax ≤ x := hx
    rw [dyadicFuns_sum, dyadicSum_eq h, hc]
    have e : 2 * l / lmax * x = 2 * l * (x / lmax) := by ring
    have h2 : 2 ≤ x / lmax := by rw [le_div_iff₀ hl]; exact hx
    rw [if_neg (by rw [e]; nlinarith), if_neg (by rw [e]; nlinarith)]

theorem meyer_window : Window meyerKernel (2 / 3) (fun t => cos (π / 2 * meyerV (|t| / (2 / 3) - 1)))
    (fun t => sin (π / 2 * meyerV (|t| / (2 / 3) - 1))) := by
  refine ⟨by norm_num, fun t h => ⟨?_, ?_⟩, fun t h1 h2 => ⟨?_, ?_⟩, fun t h1 h2 => ⟨?_, ?_⟩, fun t h => ⟨?_, ?_⟩,
    fun t _ _ => cos_sq_add_sin_sq _, ?_⟩
  all_goals try unfold meyerKernel; simp only
  · rw [if_neg (by intro h'; linarith [h'.1]), if_pos h]
  · rw [if_neg (by intro h'; linarith [h'.1]), if_neg (by intro h'; linarith [h'.1])]
  · rw [if_pos ⟨h1, by linarith⟩]
  · rw [if_neg (by intro h'; linarith [h'.1]), if_pos ⟨h1, by linarith⟩]
  · rw [if_neg (by intro h'; linarith [h'.2]), if_neg (by linarith)]
  · rw [if_pos ⟨by linarith, by linarith⟩, abs_div]
    congr 4
    rw [abs_of_pos (by norm_num : (0 : ℝ) < 2)]; ring
  · rw [if_neg (by intro h'; linarith [h'.2]), if_neg (by linarith)]
  · rw [if_neg (by intro h'; linarith [h'.2]), if_neg (by intro h'; linarith [h'.2])]
  · rw [abs_of_pos (by norm_num : (0 : ℝ) < 2 / 3)]
    norm_num [meyerV]

theorem h4_le_one (y : ℝ) : (sin y ^ 2) ^ 2 ≤ 1 := by
  have h1 := sin_sq_le_one y
  have h2 := sq_nonneg (sin y)
  nlinarith

theorem simpleTight_window : Window simpleTightKernel (1 / 4)
    (fun t => √(1 - (sin (π * (4 * t - 1) / 2) ^ 2) ^ 2)) (fun t => sin (π * (4 * (t - 1 / 4)) / 2) ^ 2) := by
  refine ⟨by norm_num, fun t h => ⟨?_, ?_⟩, fun t h1 h2 => ⟨?_, ?_⟩, fun t h1 h2 => ⟨?_, ?_⟩, fun t h => ⟨?_, ?_⟩,
    fun t _ _ => ?_, ?_⟩
  · unfold simpleTightKernel; simp only
    rw [if_neg (by intro h'; linarith [h'.1]), if_pos h]
  · unfold simpleTightKernel; simp only
    rw [if_neg (by intro h'; linarith [h'.1]), if_neg (by intro h'; linarith [h'.1])]
  · unfold simpleTightKernel; simp only
    rw [if_pos ⟨h1, by linarith⟩]
  · unfold simpleTightKernel; simp only
    rw [if_neg (by intro h'; linarith [h'.1]), if_pos ⟨h1, by linarith⟩]
  · unfold simpleTightKernel; simp only
    rw [if_neg (by intro h'; linarith [h'.2]), if_neg (by linarith)]
  · unfold simpleTightKernel; simp only
    rw [if_pos ⟨by linarith, by linarith⟩]
    congr 6; ring
  · unfold simpleTightKernel; simp only
    rw [if_neg (by intro h'; linarith [h'.2]), if_neg (by linarith)]
  · unfold simpleTightKernel; simp only
    rw [if_neg (by intro h'; linarith [h'.2]), if_neg (by intro h'; linarith [h'.2])]
  · have := h4_le_one (π * (4 * t - 1) / 2)
    rw [sq_sqrt (by linarith), show 4 * (t - 1 / 4) = 4 * t - 1 by ring]
    ring
  · norm_num

/-! ### Uniform translates -/

/-- a sum where only `w` consecutive terms do not vanish -/
theorem sum_window (F : ℕ → ℝ) {N k w : ℕ} (h : k + w ≤ N) (h1 : ∀ i < k, F i = 0) (h2 : ∀ i, k + w ≤ i → F i = 0) :
    ∑ i ∈ Finset.range N, F i = ∑ r ∈ Finset.range w, F (k + r) := by
  have := Finset.sum_Ico_eq_sum_range F k (k + w)
  rw [Nat.add_sub_cancel_left] at this
  rw [← this]
  refine (Finset.sum_subset (fun i hi => ?_) fun i _ hi => ?_).symm
  · rw [Finset.mem_Ico] at hi
    rw [Finset.mem_range]; omega
  · rw [Finset.mem_Ico, not_and_or, not_le, not_lt] at hi
    rcases hi with hi | hi
    · exact h1 i hi
    · exact h2 i hi

/-- the position of a number of `[0, M]` in the unit intervals -/
theorem exists_cell {M : ℕ} (hM : 1 ≤ M) {u : ℝ} (h0 : 0 ≤ u) (h1 : u ≤ M) : ∃ k : ℕ, k + 1 ≤ M ∧ (k : ℝ) ≤ u ∧ u ≤ k + 1 := by
  rcases lt_or_eq_of_le h1 with h | h
  · refine ⟨⌊u⌋₊, ?_, Nat.floor_le h0, (Nat.lt_floor_add_one u).le⟩
    exact (Nat.floor_lt h0).2 h
  · obtain ⟨k, rfl⟩ : ∃ k, M = k + 1 := ⟨M - 1, by omega⟩
    refine ⟨k, le_refl _, ?_, ?_⟩ <;> rw [h] <;> push_cast <;> linarith

/-- the bump of HalfCosine -/
noncomputable def hc (v : ℝ) : ℝ :=
  (0.5 + 0.5 * cos (2 * π * (v / 3 - 0.5))) * (if v ≥ 0 then 1 else 0) * (if v ≤ 3 then 1 else 0)

theorem hc_left {v : ℝ} (h : v ≤ 0) : hc v = 0 := by
  unfold hc
  rcases lt_or_eq_of_le h with h | h
  · rw [if_neg (by linarith)]; ring
  · have : cos (2 * π * (v / 3 - 0.5)) = -1 := by
      rw [h, show 2 * π * (0 / 3 - 0.5) = -π by ring, cos_neg, cos_pi]
    rw [this]; norm_num

theorem hc_right {v : ℝ} (h : 3 ≤ v) : hc v = 0 := by
  unfold hc
  rcases lt_or_eq_of_le h with h | h
  · rw [if_neg (by linarith : ¬ v ≤ 3)]; ring
  · have : cos (2 * π * (v / 3 - 0.5)) = -1 := by
      rw [← h, show 2 * π * (3 / 3 - 0.5) = π by ring, cos_pi]
    rw [this]; norm_num

theorem hc_mid {v : ℝ} (h0 : 0 ≤ v) (h3 : v ≤ 3) : hc v = 1 / 2 - 1 / 2 * cos (2 * π * v / 3) := by
  unfold hc
  rw [if_pos h0, if_pos h3, show 2 * π * (v / 3 - 0.5) = 2 * π * v / 3 - π by ring, cos_sub_pi]
  norm_num; ring

theorem cos_three (θ : ℝ) :
    (1 / 2 - 1 / 2 * cos θ) ^ 2 + (1 / 2 - 1 / 2 * cos (θ + 2 * π / 3)) ^ 2 + (1 / 2 - 1 / 2 * cos (θ + 4 * π / 3)) ^ 2 =
      9 / 8 := by
  have c1 : cos (2 * π / 3) = -1 / 2 := by
    rw [show 2 * π / 3 = π - π / 3 by ring, cos_pi_sub, cos_pi_div_three]; ring
  have s1 : sin (2 * π / 3) = √3 / 2 := by
    rw [show 2 * π / 3 = π - π / 3 by ring, sin_pi_sub, sin_pi_div_three]
  have c2 : cos (4 * π / 3) = -1 / 2 := by
    rw [show 4 * π / 3 = π / 3 + π by ring, cos_add_pi, cos_pi_div_three]; ring
  have s2 : sin (4 * π / 3) = -(√3 / 2) := by
    rw [show 4 * π / 3 = π / 3 + π by ring, sin_add_pi, sin_pi_div_three]
  rw [cos_add, cos_add, c1, s1, c2, s2]
  have h3 : √3 ^ 2 = 3 := sq_sqrt (by norm_num)
  have := sin_sq_add_cos_sq θ
  generalize sin θ = a at *
  generalize cos θ = b at *
  generalize √3 = r at *
  have : (1 / 2 - 1 / 2 * b) ^ 2 + (1 / 2 - 1 / 2 * (b * (-1 / 2) - a * (r / 2))) ^ 2 +
    (1 / 2 - 1 / 2 * (b * (-1 / 2) - a * -(r / 2))) ^ 2 = 3 / 4 + b ^ 2 / 4 + b ^ 2 / 8 + a ^ 2 * r ^ 2 / 8 := by ring
  rw [this, h3]
  linarith

theorem hc_sum {M : ℕ} (hM : 1 ≤ M) {u : ℝ} (h0 : 0 ≤ u) (h1 : u ≤ M) :
    ∑ i ∈ Finset.range (M + 2), hc (u - ((i : ℝ) - 2)) ^ 2 = 9 / 8 := by
  obtain ⟨k, hk, hk0, hk1⟩ := exists_cell hM h0 h1
  rw [sum_window (k := k) (w := 3) _ (by omega)]
  · rw [Finset.sum_range_succ, Finset.sum_range_succ, Finset.sum_range_one]
    rw [hc_mid (by push_cast; linarith) (by push_cast; linarith), hc_mid (by push_cast; linarith) (by push_cast; linarith),
      hc_mid (by push_cast; linarith) (by push_cast; linarith)]
    rw [← cos_three (2 * π * (u - k) / 3)]
    push_cast
    have e1 : 2 * π * (u - (k + 0 - 2)) / 3 = 2 * π * (u - k) / 3 + 4 * π / 3 := by ring
    have e2 : 2 * π * (u - (k + 1 - 2)) / 3 = 2 * π * (u - k) / 3 + 2 * π / 3 := by ring
    have e3 : 2 * π * (u - (k + 2 - 2)) / 3 = 2 * π * (u - k) / 3 := by ring
    rw [e1, e2, e3]
    ring
  · intro i hi
    have : (i : ℝ) + 1 ≤ k := by exact_mod_cast hi
    rw [hc_right (by linarith)]; norm_num
  · intro i hi
    have : (k : ℝ) + 3 ≤ i := by exact_mod_cast hi
    rw [hc_left (by linarith)]; norm_num

/-- the bump of Itersine -/
noncomputable def its (v : ℝ) : ℝ := sin (0.5 * π * cos (v * π) ^ 2) * (if v ≥ -0.5 ∧ v ≤ 0.5 then 1 else 0)

theorem its_out {v : ℝ} (h : v ≤ -0.5 ∨ 0.5 ≤ v) : its v = 0 := by
  have c0 : ∀ v : ℝ, (v = -0.5 ∨ v = 0.5) → its v = 0 := by
    rintro v (rfl | rfl)
    · unfold its
      rw [show (-0.5 : ℝ) * π = -(π / 2) by ring, cos_neg, cos_pi_div_two]; simp
    · unfold its
      rw [show (0.5 : ℝ) * π = π / 2 by ring, cos_pi_div_two]; simp
  rcases h with h | h
  · rcases lt_or_eq_of_le h with h | h
    · unfold its; rw [if_neg (by intro h'; linarith [h'.1])]; ring
    · exact c0 v (.inl h)
  · rcases lt_or_eq_of_le h with h | h
    · unfold its; rw [if_neg (by intro h'; linarith [h'.2])]; ring
    · exact c0 v (.inr h.symm)

theorem its_pair {v : ℝ} (h0 : 0 ≤ v) (h1 : v ≤ 0.5) : its v ^ 2 + its (v - 0.5) ^ 2 = 1 := by
  unfold its
  rw [if_pos ⟨by linarith, h1⟩, if_pos ⟨by linarith, by linarith⟩,
    show (v - 0.5) * π = v * π - π / 2 by ring, cos_sub_pi_div_two]
  have : (0.5 : ℝ) * π * sin (v * π) ^ 2 = π / 2 - 0.5 * π * cos (v * π) ^ 2 := by
    rw [sin_sq]; ring
  rw [this, sin_pi_div_two_sub]
  have := sin_sq_add_cos_sq (0.5 * π * cos (v * π) ^ 2)
  linarith

theorem its_sum {N h : ℕ} (hh : 1 ≤ h) (hN : 2 * h ≤ N) {u : ℝ} (h0 : 0 ≤ u) (h1 : u ≤ (N : ℝ) - 2 * h + 1) :
    ∑ i ∈ Finset.range N, its ((u - ((1 + i : ℕ) : ℝ) + h) / (2 * h)) ^ 2 = h := by
  have hp : (0 : ℝ) < 2 * h := by
    have : (1 : ℝ) ≤ h := by exact_mod_cast hh
    linarith
  obtain ⟨k, hk, hk0, hk1⟩ := exists_cell (M := N - 2 * h + 1) (by omega) h0
    (by push_cast [Nat.cast_sub hN]; exact h1)
  rw [sum_window (k := k) (w := h + h) _ (by omega)]
  · rw [Finset.sum_range_add, ← Finset.sum_add_distrib]
    have : ∀ i ∈ Finset.range h, its ((u - ((1 + (k + i) : ℕ) : ℝ) + h) / (2 * h)) ^ 2 +
        its ((u - ((1 + (k + (h + i)) : ℕ) : ℝ) + h) / (2 * h)) ^ 2 = 1 := by
      intro i hi
      have hi : (i : ℝ) + 1 ≤ h := by exact_mod_cast Finset.mem_range.1 hi
      have hi0 : (0 : ℝ) ≤ i := Nat.cast_nonneg i
      have e : (u - ((1 + (k + (h + i)) : ℕ) : ℝ) + h) / (2 * h) = (u - ((1 + (k + i) : ℕ) : ℝ) + h) / (2 * h) - 0.5 := by
        push_cast
        field_simp
        ring
      rw [e]
      refine its_pair ?_ ?_
      · refine div_nonneg ?_ hp.le
        push_cast; linarith
      · rw [div_le_iff₀ hp]
        push_cast; linarith
    rw [Finset.sum_congr rfl this]
    simp
  · intro i hi
    have : (i : ℝ) + 1 ≤ k := by exact_mod_cast hi
    rw [its_out (.inr ?_)]
    · norm_num
    · rw [le_div_iff₀ hp]; push_cast; linarith
  · intro i hi
    have : (k : ℝ) + (h + h) ≤ i := by exact_mod_cast hi
    rw [its_out (.inl ?_)]
    · norm_num
    · rw [div_le_iff₀ hp]; push_cast; linarith

end Design

open Design

/-! ## C42, C43 -/

/-- **Meyer** with its default scales, for every number of filters `Nf ≥ 2`: a Parseval frame up to `lmax`
included (and the filters all vanish from `2 lmax` on). -/
theorem C42_meyer {lmax : ℝ} (hl : 0 < lmax) {Nf : ℕ} (hN : 2 ≤ Nf) :
    ∃ f, meyer lmax Nf none = .ok f ∧ f.Nf = Nf ∧ f.TightOn 1 (Set.Iic lmax) ∧ f.TightOn 0 (Set.Ici (2 * lmax)) := by
  obtain ⟨m, rfl⟩ : ∃ m, Nf = m + 2 := ⟨Nf - 2, by omega⟩
  refine window_bank meyer_window hl ?_ m
  field_simp; ring

/-- With explicit scales, their number has to be `Nf - 1` (ValueError otherwise); with `Nf = 1` the filter bank is built
but evaluating it raises IndexError. -/
theorem C42_meyer_errors (lmax : ℝ) :
    (∀ Nf scales, scales.length + 1 ≠ Nf → meyer lmax Nf (some scales) = .error .valueError) ∧
    (∀ Nf scales, scales.length + 1 = Nf → ∃ f, meyer lmax Nf (some scales) = .ok f ∧ f.Nf = Nf) ∧
    (∃ f, meyer lmax 1 none = .ok f ∧ ∀ k (x : Fin k → ℝ), f.evaluate x = .error .indexError) := by
  refine ⟨fun Nf scales h => if_pos h, fun Nf scales h => ⟨_, if_neg (not_not.2 h), by simp [Bank.ofArg, Bank.Nf, h]⟩,
    _, rfl, fun k x => ?_⟩
  rfl

/-- **SimpleTight** with its default scales (`scales=None` or the empty list): likewise. -/
theorem C43_simpleTight {lmax : ℝ} (hl : 0 < lmax) {Nf : ℕ} (hN : 2 ≤ Nf) (scales : Option (List ℝ))
    (hs : scales = none ∨ scales = some []) :
    ∃ f, simpleTight lmax Nf scales = .ok f ∧ f.Nf = Nf ∧ f.TightOn 1 (Set.Iic lmax) ∧
      f.TightOn 0 (Set.Ici (2 * lmax)) := by
  obtain ⟨m, rfl⟩ : ∃ m, Nf = m + 2 := ⟨Nf - 2, by omega⟩
  have e : simpleTight lmax (m + 2) scales =
      waveletBank simpleTightKernel (m + 2) (dyadicScales (1 / (2 * lmax)) (m + 2)) := by
    rcases hs with rfl | rfl <;> rfl
  rw [e]
  refine window_bank simpleTight_window hl ?_ m
  field_simp; ring

theorem C43_simpleTight_errors (lmax : ℝ) :
    (∀ Nf s scales, (s :: scales).length + 1 ≠ Nf → simpleTight lmax Nf (some (s :: scales)) = .error .valueError) ∧
    (∀ Nf s scales, (s :: scales).length + 1 = Nf → ∃ f, simpleTight lmax Nf (some (s :: scales)) = .ok f ∧ f.Nf = Nf) ∧
    (∃ f, simpleTight lmax 1 none = .ok f ∧ ∀ k (x : Fin k → ℝ), f.evaluate x = .error .indexError) := by
  refine ⟨fun Nf s scales h => if_pos h,
    fun Nf s scales h => ⟨_, if_neg (not_not.2 h), by simp [Bank.ofArg, Bank.Nf, ← h]⟩, _, rfl, fun k x => ?_⟩
  rfl

/-! ## C44 -/

/-- **HalfCosine**: at least three filters are required, and then the frame is tight on `[0, lmax]`, with bound 9/8. -/
theorem C44_halfCosine {lmax : ℝ} (hl : 0 < lmax) (Nf : ℕ) :
    (Nf ≤ 2 → halfCosine lmax Nf = .error .valueError) ∧
    (3 ≤ Nf → ∃ f, halfCosine lmax Nf = .ok f ∧ f.Nf = Nf ∧ f.TightOn (9 / 8) (Set.Icc 0 lmax)) := by
  refine ⟨fun h => if_pos h, fun h => ?_⟩
  obtain ⟨M, rfl⟩ : ∃ M, Nf = M + 2 := ⟨Nf - 2, by omega⟩
  have hM : 1 ≤ M := by omega
  refine ⟨_, if_neg (by omega), by simp [Bank.ofArg, Bank.Nf], ?_⟩
  refine tightOn_pointwise ((List.range (M + 2)).map fun i : ℕ => fun x => hc (x * M / lmax - ((i : ℝ) - 2))) ?_ fun x hx => ?_
  · show List.map _ _ = _
    rw [List.map_map]
    refine List.map_congr_left fun i _ => ?_
    show Kernel.pointwise _ = Kernel.pointwise _
    congr 1
    funext x
    have hMp : (0 : ℝ) < M := by exact_mod_cast hM
    set d : ℝ := lmax * 3 / (((M + 2 : ℕ) : ℝ) - 2) with hd
    have hd1 : d = 3 * (lmax / M) := by rw [hd]; push_cast; rw [add_sub_cancel_right]; ring
    have hdp : 0 < d := by rw [hd1]; positivity
    have e : x - d / 3 * ((i : ℝ) - 2) = d / 3 * (x * M / lmax - ((i : ℝ) - 2)) := by
      have : d / 3 * (x * M / lmax) = x := by rw [hd1]; field_simp
      rw [mul_sub (d / 3) (x * M / lmax), this]
    simp only [e]
    generalize x * M / lmax - ((i : ℝ) - 2) = v
    unfold hc
    have e1 : d / 3 * v / d = v / 3 := by field_simp
    have e2 : (d / 3 * v ≥ 0) = (v ≥ 0) := by
      apply propext
      constructor
      · intro h; by_contra hc; nlinarith
      · intro h; exact mul_nonneg (by positivity) h
    have e3 : (d / 3 * v ≤ d) = (v ≤ 3) := by
      apply propext
      constructor
      · intro h; by_contra hc; nlinarith
      · intro h; nlinarith
    simp only [e1, e2, e3]
  · rw [List.map_map, Function.comp_def]
    simp only
    rw [sum_map_range]
    have hMp : (0 : ℝ) < M := by exact_mod_cast hM
    refine hc_sum hM ?_ ?_
    · have := hx.1; positivity
    · rw [div_le_iff₀ hl]; nlinarith [hx.2]

/-! ## C45 -/

/-- **Itersine**, for an even overlap not larger than the number of filters: a Parseval frame on `[0, lmax]`. -/
theorem C45_itersine {lmax : ℝ} (hl : 0 < lmax) {Nf overlap : ℕ} (he : Even overlap) (h0 : overlap ≠ 0)
    (h1 : overlap ≤ Nf) : (itersine lmax Nf overlap).Nf = Nf ∧ (itersine lmax Nf overlap).TightOn 1 (Set.Icc 0 lmax) := by
  refine ⟨by simp [itersine, Bank.ofArg, Bank.Nf], ?_⟩
  obtain ⟨h, rfl⟩ := he
  have hh : 1 ≤ h := by omega
  have hp : (1 : ℝ) ≤ h := by exact_mod_cast hh
  have hN : (h : ℝ) + h ≤ Nf := by exact_mod_cast h1
  refine tightOn_pointwise ((List.range Nf).map fun i : ℕ => fun x =>
    its ((x * (Nf - 2 * h + 1) / lmax - ((1 + i : ℕ) : ℝ) + h) / (2 * h)) * √(1 / h)) ?_ fun x hx => ?_
  · show List.map _ _ = _
    rw [List.map_map, List.range'_eq_map_range, List.map_map]
    refine List.map_congr_left fun i _ => ?_
    simp only [Function.comp_apply]
    congr 1
    funext x
    have e1 : √(2 / ((h + h : ℕ) : ℝ)) = √(1 / h) := by
      congr 1; push_cast; field_simp; ring
    have e2 : x / (lmax / (Nf - ((h + h : ℕ) : ℝ) + 1) * ((h + h : ℕ) : ℝ)) -
        (((1 + i : ℕ) : ℝ) - ((h + h : ℕ) : ℝ) / 2) / ((h + h : ℕ) : ℝ) =
        (x * (Nf - 2 * h + 1) / lmax - ((1 + i : ℕ) : ℝ) + h) / (2 * h) := by
      have : (Nf : ℝ) - 2 * h + 1 ≠ 0 := by linarith
      have h2 : (Nf : ℝ) - (h + h) + 1 ≠ 0 := by linarith
      push_cast
      field_simp
      ring
    simp only [e1, e2]
    rfl
  · rw [List.map_map, Function.comp_def]
    simp only [mul_pow]
    rw [sum_map_range, ← Finset.sum_mul, its_sum hh (by omega), sq_sqrt (by positivity)]
    · field_simp
    · have := hx.1
      have : (0 : ℝ) ≤ Nf - 2 * h + 1 := by linarith
      positivity
    · rw [div_le_iff₀ hl]
      have : (0 : ℝ) ≤ Nf - 2 * h + 1 := by linarith
      nlinarith [hx.2]

end PyGSP
