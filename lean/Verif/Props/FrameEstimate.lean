import Verif.Props.Frequency
import Verif.Props.PlotFilter

/-!
# C116: what `estimate_frame_bounds()` says about the frame when it is not given the eigenvalues

`s` is a graph object on which `compute_fourier_basis()` has been called, `l` its `lmax`, `gs` any list of pointwise kernels.
-/

namespace PyGSP

open Matrix Spec GState Real

variable {n : ℕ} {S : Solvers n} {g : Graph n ℝ} {s : GState n} {e : Fin n → ℝ} {U : Matrix (Fin n) (Fin n) ℝ}

/-- The squared response of a filter bank at the frequency `t`. -/
noncomputable def Spec.power (gs : List (ℝ → ℝ)) (t : ℝ) : ℝ := (gs.map fun g => g t ^ 2).sum

theorem power_sum (gs : List (ℝ → ℝ)) (t : ℝ) :
    ∑ i : Fin (⟨gs.map Kernel.pointwise⟩ : Bank).Nf, gs.get (i.cast (List.length_map ..)) t ^ 2 = power gs t := by
  unfold power
  rw [← List.sum_ofFn]
  congr 1
  apply List.ext_getElem
  · simp [Bank.Nf]
  · intro i h1 h2; simp

theorem evaluate_pointwise (gs : List (ℝ → ℝ)) {k : ℕ} (x : Fin k → ℝ) :
    (⟨gs.map Kernel.pointwise⟩ : Bank).evaluate x = .ok fun i j => gs.get (i.cast (List.length_map ..)) (x j) := by
  unfold Bank.evaluate
  rw [← seqFin_pure]
  congr 1
  funext i
  show (gs.map Kernel.pointwise).get i k x = _
  rw [List.get_eq_getElem, List.getElem_map]
  rfl

/-- **C116** `estimate_frame_bounds()` returns the least and the greatest value of the squared response at the thousand equally spaced frequencies
`0, lmax/999, …, lmax`, both ends included. -/
theorem C116_grid (S : Solvers n) (s : GState n) (gs : List (ℝ → ℝ)) {l : ℝ} (hl : (s.getLmax S).1 = .ok (some (.fin l))) :
    ∃ A B, ((⟨gs.map Kernel.pointwise⟩ : Bank).estimateFrameBounds S none s).1 = .ok (A, B) ∧
      IsLeast {t | ∃ j : ℕ, j < 1000 ∧ t = power gs (j * l / 999)} A ∧ IsGreatest {t | ∃ j : ℕ, j < 1000 ∧ t = power gs (j * l / 999)} B := by
  have hne : ((⟨gs.map Kernel.pointwise⟩ : Bank).estimateFrameBounds S none s).1 =
      (⟨gs.map Kernel.pointwise⟩ : Bank).boundsAt (Bank.linspace1000 l) := by
    unfold Bank.estimateFrameBounds
    dsimp only
    rw [show Bank.lmaxNum S s = (.ok l, (Bank.lmaxNum S s).2) from Prod.ext (by rw [lmaxNum_of hl]) rfl]
  obtain ⟨A, B, hAB⟩ : ∃ A B, (⟨gs.map Kernel.pointwise⟩ : Bank).boundsAt (Bank.linspace1000 l) = .ok (A, B) := by
    unfold Bank.boundsAt Bank.sumSquares
    rw [evaluate_pointwise]
    dsimp only
    unfold arrMin arrMax
    simp
  obtain ⟨y, hy, hle, ⟨a, ha⟩, ⟨b, hb⟩⟩ := boundsAt_spec hAB
  rw [evaluate_pointwise] at hy
  obtain rfl := Except.ok.inj hy
  have hp : ∀ j : Fin 1000, ∑ i : Fin (⟨gs.map Kernel.pointwise⟩ : Bank).Nf, gs.get (i.cast (List.length_map ..)) (Bank.linspace1000 l j) ^ 2 =
      power gs ((j : ℕ) * l / 999) := by
    intro j
    rw [power_sum]
    unfold Bank.linspace1000
    rw [mul_div_assoc]
  refine ⟨A, B, by rw [hne, hAB], ⟨⟨a, a.2, ?_⟩, ?_⟩, ⟨⟨b, b.2, ?_⟩, ?_⟩⟩
  · rw [← hp, ← ha]
  · rintro t ⟨j, hj, rfl⟩
    have := (hle ⟨j, hj⟩).1
    rwa [hp] at this
  · rw [← hp, ← hb]
  · rintro t ⟨j, hj, rfl⟩
    have := (hle ⟨j, hj⟩).2
    rwa [hp] at this

/-- every frequency is within half a step of the grid -/
theorem grid_near {l t : ℝ} (h0 : 0 ≤ t) (h1 : t ≤ l) : ∃ j : ℕ, j < 1000 ∧ |t - j * l / 999| ≤ l / 1998 := by
  rcases eq_or_lt_of_le (h0.trans h1) with h | h
  · refine ⟨0, by norm_num, ?_⟩
    have : t = 0 := by linarith
    rw [this, ← h]
    simp
  · obtain ⟨hj1, hj2⟩ : ((⌊t * 999 / l + 1 / 2⌋₊ : ℕ) : ℝ) ≤ t * 999 / l + 1 / 2 ∧ t * 999 / l + 1 / 2 < (⌊t * 999 / l + 1 / 2⌋₊ : ℕ) + 1 :=
      ⟨Nat.floor_le (by positivity), Nat.lt_floor_add_one _⟩
    have hu : t * 999 / l ≤ 999 := by
      rw [div_le_iff₀ h]
      linarith
    refine ⟨⌊t * 999 / l + 1 / 2⌋₊, ?_, ?_⟩
    · have : ((⌊t * 999 / l + 1 / 2⌋₊ : ℕ) : ℝ) < 1000 := by linarith
      exact_mod_cast this
    · generalize ((⌊t * 999 / l + 1 / 2⌋₊ : ℕ) : ℝ) = j at hj1 hj2
      have e1 : t - j * l / 999 = (t * 999 / l - j) * (l / 999) := by field_simp
      rw [e1, abs_mul, abs_of_pos (by positivity : 0 < l / 999)]
      have : |t * 999 / l - j| ≤ 1 / 2 := abs_le.2 ⟨by linarith, by linarith⟩
      calc |t * 999 / l - j| * (l / 999) ≤ 1 / 2 * (l / 999) := mul_le_mul_of_nonneg_right this (by positivity)
        _ = l / 1998 := by ring

/-- the energy of the coefficients, in the coordinates of the stored basis -/
theorem analysis_energy (h : Ready S g s) (hb : s.basis = some ⟨n, e, U⟩) (gs : List (ℝ → ℝ)) (order : ℕ) (x : Fin n → ℝ) :
    ∃ a : Fin n → Fin 1 → Fin (⟨gs.map Kernel.pointwise⟩ : Bank).Nf → ℝ,
      ((⟨gs.map Kernel.pointwise⟩ : Bank).analyze S (Arr.of1 x) .exact order s).1 = .ok (Arr.of3 a).squeeze ∧
      ∑ v, ∑ i, a v 0 i ^ 2 = ∑ k, power gs (e k) * (Uᵀ *ᵥ x) k ^ 2 := by
  obtain ⟨hp, -⟩ := h.pairs hb
  have hg : (s.getBasis S).1 = .ok (some ⟨n, e, U⟩) := by rw [getBasis_of hb]
  have : (⟨gs.map Kernel.pointwise⟩ : Bank).analyze S (Arr.of1 x) .exact order s =
      (⟨gs.map Kernel.pointwise⟩ : Bank).filter S (Arr.of1 x) .exact order s := by
    unfold Bank.analyze; rw [if_neg (by simp [Arr.of1, Arr.ndim])]
  refine ⟨_, by rw [this]; exact C28_one_signal S _ s ⟨n, e, U⟩ hg rfl _ (evaluate_pointwise gs e) order x, ?_⟩
  rw [Finset.sum_comm]
  simp only [energy_spectralOp hp.orthonormal]
  rw [Finset.sum_comm]
  refine Finset.sum_congr rfl fun k _ => ?_
  rw [← Finset.sum_mul, power_sum]

theorem gft_energy (h : Ready S g s) (hb : s.basis = some ⟨n, e, U⟩) (x : Fin n → ℝ) : ∑ k, (Uᵀ *ᵥ x) k ^ 2 = ∑ v, x v ^ 2 :=
  energy_gft (h.pairs hb).1.orthonormal x

/-- **C116** If the squared response varies by at most `K |t - t'|` between the frequencies `t` and `t'` of `[0, lmax]`, the bounds estimated without
the eigenvalues are those of the frame up to `K lmax / 1998`: no signal's coefficients have less than `A - K lmax/1998` or more than
`B + K lmax/1998` times its energy. -/
theorem C116_accuracy (h : Ready S g s) (hb : s.basis = some ⟨n, e, U⟩) {l : ℝ} (hl : (s.getLmax S).1 = .ok (some (.fin l)))
    (hup : ∀ v, IsEigenvalue s.L v → v ≤ l) (gs : List (ℝ → ℝ)) {K : ℝ} (hK : 0 ≤ K)
    (hlip : ∀ t t', 0 ≤ t → t ≤ l → 0 ≤ t' → t' ≤ l → |power gs t - power gs t'| ≤ K * |t - t'|) {A B : ℝ}
    (hAB : ((⟨gs.map Kernel.pointwise⟩ : Bank).estimateFrameBounds S none s).1 = .ok (A, B)) (order : ℕ) (x : Fin n → ℝ) :
    ∃ a : Fin n → Fin 1 → Fin (⟨gs.map Kernel.pointwise⟩ : Bank).Nf → ℝ,
      ((⟨gs.map Kernel.pointwise⟩ : Bank).analyze S (Arr.of1 x) .exact order s).1 = .ok (Arr.of3 a).squeeze ∧
      (A - K * l / 1998) * ∑ v, x v ^ 2 ≤ ∑ v, ∑ i, a v 0 i ^ 2 ∧ ∑ v, ∑ i, a v 0 i ^ 2 ≤ (B + K * l / 1998) * ∑ v, x v ^ 2 := by
  obtain ⟨hp, -⟩ := h.pairs hb
  obtain ⟨A', B', hAB', hA, hB⟩ := C116_grid S s gs hl
  rw [hAB] at hAB'
  simp only [Except.ok.injEq, Prod.mk.injEq] at hAB'
  obtain ⟨rfl, rfl⟩ := hAB'
  obtain ⟨a, ha, hen⟩ := analysis_energy h hb gs order x
  have hbd : ∀ k, A - K * l / 1998 ≤ power gs (e k) ∧ power gs (e k) ≤ B + K * l / 1998 := by
    intro k
    have he := hp.isEigenvalue k
    have h0 := h.eig_nonneg he
    have h1 := hup _ he
    obtain ⟨j, hj, hnear⟩ := grid_near h0 h1
    have hl0 : 0 ≤ l := h0.trans h1
    have hj' : (j : ℝ) ≤ 999 := by exact_mod_cast (by omega : j ≤ 999)
    have h2 := hlip (e k) (j * l / 999) h0 h1 (by positivity) (by rw [div_le_iff₀ (by norm_num)]; nlinarith)
    have h3 : K * |e k - j * l / 999| ≤ K * l / 1998 := by
      calc K * |e k - j * l / 999| ≤ K * (l / 1998) := mul_le_mul_of_nonneg_left hnear hK
        _ = _ := by ring
    have h4 := abs_le.1 (h2.trans h3)
    have h5 := hA.2 ⟨j, hj, rfl⟩
    have h6 := hB.2 ⟨j, hj, rfl⟩
    exact ⟨by linarith, by linarith⟩
  refine ⟨a, ha, ?_, ?_⟩
  · rw [hen, ← gft_energy h hb x, Finset.mul_sum]
    exact Finset.sum_le_sum fun k _ => mul_le_mul_of_nonneg_right (hbd k).1 (sq_nonneg _)
  · rw [hen, ← gft_energy h hb x, Finset.mul_sum]
    exact Finset.sum_le_sum fun k _ => mul_le_mul_of_nonneg_right (hbd k).2 (sq_nonneg _)

/-- **C116** When the squared response decreases over `[0, lmax]` (Heat, for instance), the estimate is `(power(lmax), power(0))` and it holds for every signal, with no
tolerance; likewise for an increasing one. -/
theorem C116_monotone (h : Ready S g s) (hb : s.basis = some ⟨n, e, U⟩) {l : ℝ} (hl : (s.getLmax S).1 = .ok (some (.fin l)))
    (hup : ∀ v, IsEigenvalue s.L v → v ≤ l) (gs : List (ℝ → ℝ)) (order : ℕ) (x : Fin n → ℝ) :
    ∃ a : Fin n → Fin 1 → Fin (⟨gs.map Kernel.pointwise⟩ : Bank).Nf → ℝ,
      ((⟨gs.map Kernel.pointwise⟩ : Bank).analyze S (Arr.of1 x) .exact order s).1 = .ok (Arr.of3 a).squeeze ∧
      (AntitoneOn (power gs) (Set.Icc 0 l) →
        ((⟨gs.map Kernel.pointwise⟩ : Bank).estimateFrameBounds S none s).1 = .ok (power gs l, power gs 0) ∧
        power gs l * ∑ v, x v ^ 2 ≤ ∑ v, ∑ i, a v 0 i ^ 2 ∧ ∑ v, ∑ i, a v 0 i ^ 2 ≤ power gs 0 * ∑ v, x v ^ 2) ∧
      (MonotoneOn (power gs) (Set.Icc 0 l) →
        ((⟨gs.map Kernel.pointwise⟩ : Bank).estimateFrameBounds S none s).1 = .ok (power gs 0, power gs l) ∧
        power gs 0 * ∑ v, x v ^ 2 ≤ ∑ v, ∑ i, a v 0 i ^ 2 ∧ ∑ v, ∑ i, a v 0 i ^ 2 ≤ power gs l * ∑ v, x v ^ 2) := by
  obtain ⟨hp, -⟩ := h.pairs hb
  obtain ⟨A, B, hAB, hA, hB⟩ := C116_grid S s gs hl
  obtain ⟨a, ha, hen⟩ := analysis_energy h hb gs order x
  have hl0 : 0 ≤ l := by
    have he := hp.isEigenvalue ⟨0, h.pos⟩
    exact (h.eig_nonneg he).trans (hup _ he)
  have hin : ∀ j : ℕ, j < 1000 → (j : ℝ) * l / 999 ∈ Set.Icc 0 l := by
    intro j hj
    have hj' : (j : ℝ) ≤ 999 := by exact_mod_cast (by omega : j ≤ 999)
    exact ⟨by positivity, by rw [div_le_iff₀ (by norm_num)]; nlinarith⟩
  have hek : ∀ k, e k ∈ Set.Icc 0 l := fun k => ⟨h.eig_nonneg (hp.isEigenvalue k), hup _ (hp.isEigenvalue k)⟩
  have m0 : (0 : ℝ) ∈ Set.Icc 0 l := ⟨le_rfl, hl0⟩
  have ml : l ∈ Set.Icc 0 l := ⟨hl0, le_rfl⟩
  have g0 : power gs 0 ∈ {t | ∃ j : ℕ, j < 1000 ∧ t = power gs (j * l / 999)} := ⟨0, by norm_num, by norm_num⟩
  have gl : power gs l ∈ {t | ∃ j : ℕ, j < 1000 ∧ t = power gs (j * l / 999)} := ⟨999, by norm_num, by norm_num⟩
  refine ⟨a, ha, fun hm => ?_, fun hm => ?_⟩
  · have eA : A = power gs l := hA.unique ⟨gl, by rintro t ⟨j, hj, rfl⟩; exact hm (hin j hj) ml (hin j hj).2⟩
    have eB : B = power gs 0 := hB.unique ⟨g0, by rintro t ⟨j, hj, rfl⟩; exact hm m0 (hin j hj) (hin j hj).1⟩
    refine ⟨by rw [hAB, eA, eB], ?_, ?_⟩
    · rw [hen, ← gft_energy h hb x, Finset.mul_sum]
      exact Finset.sum_le_sum fun k _ => mul_le_mul_of_nonneg_right (hm (hek k) ml (hek k).2) (sq_nonneg _)
    · rw [hen, ← gft_energy h hb x, Finset.mul_sum]
      exact Finset.sum_le_sum fun k _ => mul_le_mul_of_nonneg_right (hm m0 (hek k) (hek k).1) (sq_nonneg _)
  · have eA : A = power gs 0 := hA.unique ⟨g0, by rintro t ⟨j, hj, rfl⟩; exact hm m0 (hin j hj) (hin j hj).1⟩
    have eB : B = power gs l := hB.unique ⟨gl, by rintro t ⟨j, hj, rfl⟩; exact hm (hin j hj) ml (hin j hj).2⟩
    refine ⟨by rw [hAB, eA, eB], ?_, ?_⟩
    · rw [hen, ← gft_energy h hb x, Finset.mul_sum]
      exact Finset.sum_le_sum fun k _ => mul_le_mul_of_nonneg_right (hm m0 (hek k) (hek k).1) (sq_nonneg _)
    · rw [hen, ← gft_energy h hb x, Finset.mul_sum]
      exact Finset.sum_le_sum fun k _ => mul_le_mul_of_nonneg_right (hm (hek k) ml (hek k).2) (sq_nonneg _)

/-- the hat function of width `d` at `c`, above 1 -/
noncomputable def Spec.bump (c d t : ℝ) : ℝ := 1 + max 0 (1 - |t - c| / d)

/-- **C116** In general the estimate proves nothing: for every graph one of whose eigenvalues is not one of the thousand frequencies there is a continuous kernel for which
`estimate_frame_bounds()` says `(1, 1)`, a tight frame, although some signal's energy is multiplied by four. -/
theorem C116_estimate_violated (h : Ready S g s) (hb : s.basis = some ⟨n, e, U⟩) {l : ℝ} (hl : (s.getLmax S).1 = .ok (some (.fin l)))
    (k : Fin n) (hoff : ∀ j : ℕ, j < 1000 → e k ≠ j * l / 999) (order : ℕ) :
    ∃ ψ : ℝ → ℝ, Continuous ψ ∧ ((⟨[ψ].map Kernel.pointwise⟩ : Bank).estimateFrameBounds S none s).1 = .ok (1, 1) ∧
      ∃ (x : Fin n → ℝ) (a : Fin n → Fin 1 → Fin (⟨[ψ].map Kernel.pointwise⟩ : Bank).Nf → ℝ), x ≠ 0 ∧
        ((⟨[ψ].map Kernel.pointwise⟩ : Bank).analyze S (Arr.of1 x) .exact order s).1 = .ok (Arr.of3 a).squeeze ∧
        ∑ v, ∑ i, a v 0 i ^ 2 = 4 * ∑ v, x v ^ 2 := by
  obtain ⟨hp, -⟩ := h.pairs hb
  obtain ⟨d, hd, hfar⟩ : ∃ d : ℝ, 0 < d ∧ ∀ j : ℕ, j < 1000 → d ≤ |j * l / 999 - e k| := by
    refine ⟨(Finset.range 1000).inf' ⟨0, by simp⟩ fun j : ℕ => |(j : ℝ) * l / 999 - e k|, ?_, fun j hj => Finset.inf'_le _ (Finset.mem_range.2 hj)⟩
    refine (Finset.lt_inf'_iff _).2 ?_
    intro j hj
    exact abs_pos.2 (sub_ne_zero.2 (hoff j (Finset.mem_range.1 hj)).symm)
  have hpow : ∀ t, power [bump (e k) d] t = bump (e k) d t ^ 2 := by intro t; simp [power]
  have hgrid : ∀ j : ℕ, j < 1000 → power [bump (e k) d] (j * l / 999) = 1 := by
    intro j hj
    rw [hpow]
    unfold bump
    rw [max_eq_left]
    · norm_num
    · have : 1 ≤ |(j : ℝ) * l / 999 - e k| / d := (one_le_div hd).2 (hfar j hj)
      linarith
  have hat : power [bump (e k) d] (e k) = 4 := by
    rw [hpow]
    unfold bump
    norm_num
  obtain ⟨A, B, hAB, hA, hB⟩ := C116_grid S s [bump (e k) d] hl
  obtain ⟨ja, hja, rfl⟩ := hA.1
  obtain ⟨jb, hjb, rfl⟩ := hB.1
  rw [hgrid ja hja, hgrid jb hjb] at hAB
  obtain ⟨a, ha, hen⟩ := analysis_energy h hb [bump (e k) d] order fun v => U v k
  have hc : ∀ i, (Uᵀ *ᵥ fun v => U v k) i = if i = k then 1 else 0 := by
    intro i
    have := congrFun (congrFun hp.orthonormal i) k
    rw [Matrix.mul_apply, Matrix.one_apply] at this
    exact this
  have h1 : ∑ v, U v k ^ 2 = 1 := by
    rw [← gft_energy h hb fun v => U v k]
    simp [hc]
  refine ⟨bump (e k) d, ?_, hAB, fun v => U v k, a, ?_, ha, ?_⟩
  · unfold bump
    fun_prop
  · intro h0
    have : ∀ v, U v k = 0 := fun v => congrFun h0 v
    simp [this] at h1
  · rw [hen, h1]
    simp [hc, hat]

/-! ### A graph that meets the hypotheses -/

/-- two edges that do not touch, of weights 1/2 and 2 -/
noncomputable def Spec.edges4 : Matrix (Fin 4) (Fin 4) ℝ := !![0, 1/2, 0, 0; 1/2, 0, 0, 0; 0, 0, 0, 2; 0, 0, 2, 0]

/-- The hypotheses of the theorems above are met: the eigenvalues of two edges of weights 1/2 and 2 are 0, 0, 1 and 4, and 1 is not a multiple of 4/999. -/
example : ∃ (S : Solvers 4) (g : Graph 4 ℝ) (s : GState 4) (e : Fin 4 → ℝ) (U : Matrix (Fin 4) (Fin 4) ℝ) (k : Fin 4),
    g.W.dense = edges4 ∧ Ready S g s ∧ s.basis = some ⟨4, e, U⟩ ∧ (s.getLmax S).1 = .ok (some (.fin 4)) ∧ (∀ v, IsEigenvalue s.L v → v ≤ 4) ∧
    (∀ j : ℕ, j < 1000 → e k ≠ j * 4 / 999) ∧ AntitoneOn (power [fun t => exp (-t)]) (Set.Icc 0 4) := by
  have hM : NonnegW edges4 := by intro i j; fin_cases i <;> fin_cases j <;> simp [edges4]
  obtain ⟨S, g, s, hd, hr, hlt, hnb⟩ := exists_ready edges4 hM (by norm_num)
  obtain ⟨hist, hs⟩ := hr.reached
  obtain ⟨e, U, h1, h2, h3, hL, -, hp, -⟩ := C113_computed hr
  obtain ⟨-, b, h0, hb, -, hl, hev, hmax⟩ := C20_lmax_exact hr.sound hr.built hr.nonneg (by norm_num) hist hs hr.known (by rw [hnb]; simp)
  have hLc : s.L = combLap edges4 := by
    rw [hr.comb hlt, hd]
  have hw : ∀ i, wdeg edges4 i ≤ 2 := by
    intro i
    rw [← sum_wsym]
    fin_cases i <;> simp [Fin.sum_univ_four, wsym, edges4] <;> norm_num
  have h4 : ∀ v, IsEigenvalue s.L v → v ≤ 4 := by
    intro v hv
    rw [hLc] at hv
    obtain ⟨i, hi⟩ := eig_le_gershgorin hM hv
    have := hw i
    linarith
  have hv1 : IsEigenvalue s.L 1 := by
    rw [hLc]
    refine ⟨![1, -1, 0, 0], fun h => one_ne_zero (congrFun h 0), ?_⟩
    funext i
    rw [combLap_mulVec]
    fin_cases i <;> simp [Fin.sum_univ_four, wsym, edges4] <;> norm_num
  have hv4 : IsEigenvalue s.L 4 := by
    rw [hLc]
    refine ⟨![0, 0, 1, -1], fun h => one_ne_zero (congrFun h 2), ?_⟩
    funext i
    rw [combLap_mulVec]
    fin_cases i <;> simp [Fin.sum_univ_four, wsym, edges4] <;> norm_num
  obtain ⟨k, hk⟩ := hp.mem_of_complete rfl hv1
  have e4 : b.e ⟨b.k - 1, by omega⟩ = 4 := le_antisymm (h4 _ hev) (hmax 4 hv4)
  refine ⟨S, g, _, e, U, k, hd, h2, h3, by rw [hl, e4], by rw [hL]; exact h4, fun j _ hj => ?_, ?_⟩
  · rw [hk] at hj
    have : (999 : ℝ) = j * 4 := by linarith
    have : (999 : ℕ) = j * 4 := by exact_mod_cast this
    omega
  · intro t _ t' _ htt
    simp only [power, List.map_cons, List.map_nil, List.sum_cons, List.sum_nil, add_zero]
    have := exp_le_exp.2 (neg_le_neg htt)
    exact pow_le_pow_left₀ (exp_pos _).le this 2

end PyGSP
