import Verif.Lemmas.Single

/-!
# C46, C47: heat and wave filters
-/

namespace PyGSP

open Matrix Spec GState Real Design

variable {n : ℕ}

theorem heatKernel_eq {lmax s x : ℝ} (h : 0 ≤ s * x / lmax) : heatKernel lmax s x = exp (-(s * x / lmax)) := by
  unfold heatKernel
  rw [show -s * x / lmax = -(s * x / lmax) by ring, min_eq_left]
  rw [exp_le_one_iff]; linarith

theorem heat_kernels (lmax : ℝ) (scale : List ℝ) :
    (heat lmax scale none).kernels = (scale.map fun s => heatKernel lmax s).map Kernel.pointwise := by
  unfold heat Bank.ofArg
  simp only [List.map_map]
  refine List.map_congr_left fun s _ => ?_
  simp only [div_one, Function.comp_apply]

theorem heat_one (lmax s : ℝ) : heat lmax [s] none = Bank.ofArg (.one (Kernel.pointwise (heatKernel lmax s))) := by
  have := heat_kernels lmax [s]
  exact congrArg Bank.mk this

/-! ## C46 -/

/-- **The heat kernels**: for non-negative scales and frequencies, `exp(-scale x / lmax)`, in `(0, 1]`, equal to 1 at
frequency 0 and decreasing.  One filter per scale; evaluation never raises. -/
theorem C46_values {lmax : ℝ} (hl : 0 < lmax) (scale : List ℝ) (hs : ∀ s ∈ scale, 0 ≤ s) {k : ℕ} (x : Fin k → ℝ)
    (hx : ∀ j, 0 ≤ x j) :
    ∃ z, (heat lmax scale none).evaluate x = .ok z ∧ (heat lmax scale none).Nf = scale.length ∧
      ∀ (i : Fin (heat lmax scale none).Nf) (hi : i.1 < scale.length) j, z i j = exp (-(scale[i.1] * x j / lmax)) ∧
        0 < z i j ∧ z i j ≤ 1 ∧ (x j = 0 → z i j = 1) ∧ ∀ j', x j ≤ x j' → z i j' ≤ z i j := by
  refine ⟨_, evaluate_pointwise _ (heat_kernels lmax scale) x, by simp [heat, Bank.ofArg, Bank.Nf], fun i hi j => ?_⟩
  have h0 : 0 ≤ scale[i.1] := hs _ (List.getElem_mem hi)
  have hv : ∀ j, heatKernel lmax scale[i.1] (x j) = exp (-(scale[i.1] * x j / lmax)) := fun j =>
    heatKernel_eq (div_nonneg (mul_nonneg h0 (hx j)) hl.le)
  simp only [List.get_eq_getElem, List.getElem_map, hv]
  refine ⟨trivial, exp_pos _, ?_, ?_, fun j' hjj => ?_⟩
  · rw [exp_le_one_iff]
    have := div_nonneg (mul_nonneg h0 (hx j)) hl.le
    linarith
  · intro h; rw [h]; simp
  · rw [exp_le_exp, neg_le_neg_iff]
    have := mul_le_mul_of_nonneg_left hjj h0
    gcongr

/-- Frequencies that come out slightly negative are treated as 0. -/
theorem C46_clip {lmax s x : ℝ} (hl : 0 < lmax) (hs : 0 ≤ s) (hx : x ≤ 0) :
    heatKernel lmax s x = 1 := by
  unfold heatKernel
  rw [min_eq_right]
  rw [show -s * x / lmax = s * (-x) / lmax by ring, one_le_exp_iff]
  have := mul_nonneg hs (neg_nonneg.2 hx)
  positivity

/-- `normalize=True`: every filter has unit norm on the spectrum, and is a positive multiple of the unnormalised one. -/
theorem C46_normalize (lmax : ℝ) (scale : List ℝ) {k : ℕ} (hk : 0 < k) (e : Fin k → ℝ) :
    ∃ z, (heat lmax scale (some ⟨k, e⟩)).evaluate e = .ok z ∧ (heat lmax scale (some ⟨k, e⟩)).Nf = scale.length ∧
      ∀ (i : Fin (heat lmax scale (some ⟨k, e⟩)).Nf) (hi : i.1 < scale.length), ∑ j, z i j ^ 2 = 1 ∧
        ∃ c, 0 < c ∧ ∀ j, c * z i j = heatKernel lmax scale[i.1] (e j) := by
  have hker : (heat lmax scale (some ⟨k, e⟩)).kernels = (scale.map fun s => fun x =>
      heatKernel lmax s x / √(∑ j, heatKernel lmax s (e j) ^ 2)).map Kernel.pointwise := by
    unfold heat Bank.ofArg
    simp only [List.map_map]
    rfl
  refine ⟨_, evaluate_pointwise _ hker e, by simp [heat, Bank.ofArg, Bank.Nf], fun i hi => ?_⟩
  simp only [List.get_eq_getElem, List.getElem_map]
  have hpos : 0 < ∑ j, heatKernel lmax scale[i.1] (e j) ^ 2 := by
    refine Finset.sum_pos (fun j _ => ?_) ⟨⟨0, hk⟩, Finset.mem_univ _⟩
    have : 0 < heatKernel lmax scale[i.1] (e j) := lt_min (exp_pos _) one_pos
    positivity
  refine ⟨?_, √(∑ j, heatKernel lmax scale[i.1] (e j) ^ 2), sqrt_pos.2 hpos, fun j => ?_⟩
  · simp only [div_pow]
    rw [← Finset.sum_div, sq_sqrt hpos.le, div_self hpos.ne']
  · field_simp

section Diffusion

variable {S : Solvers n} (hS : Sound S) {g : Graph n ℝ} (hg : g.Built) (hist : List (Op n)) {s : GState n}
  (hs : s = runAll S hist (GState.ofGraph g)) (hW : NonnegW g.W.dense) (hn : 2 ≤ n) (hk : Known s.lapType)
  (hcomplete : ∀ b, s.basis = some b → b.k = n) {lmax : ℝ} (hl : 0 < lmax)

include hS hg hs hW hn hk hcomplete hl

/-- **Semigroup**: diffusing during `a` and then during `b` is diffusing during `a + b`. -/
theorem C46_semigroup {a b : ℝ} (ha : 0 ≤ a) (hb : 0 ≤ b) (order : ℕ) (x : Fin n → ℝ) :
    ∃ (y z : Fin n → ℝ) (s' : GState n), (heat lmax [a] none).filter S (Arr.of1 x) .exact order s = (.ok (Arr.of1 y), s') ∧
      ((heat lmax [b] none).filter S (Arr.of1 y) .exact order s').1 = .ok (Arr.of1 z) ∧
      ((heat lmax [a + b] none).filter S (Arr.of1 x) .exact order s).1 = .ok (Arr.of1 z) := by
  obtain ⟨e, U, he, h0, hbas, hf⟩ := single_setup hS hg hist hs hW hn hk hcomplete
  rw [heat_one, heat_one, heat_one]
  refine ⟨_, _, _, hf _ _ rfl order x s (.inl rfl), congrArg Prod.fst (hf _ _ rfl order _ _ (.inr rfl)), ?_⟩
  rw [hf _ _ rfl order x s (.inl rfl)]
  refine congrArg (fun t => Except.ok (Arr.of1 t)) ?_
  rw [Matrix.mulVec_mulVec, spectralOp_mul he.orthonormal]
  congr 2
  funext j
  have hj := h0 j
  rw [heatKernel_eq (by positivity), heatKernel_eq (by positivity), heatKernel_eq (by positivity), ← exp_add]
  congr 1
  ring

/-- **Diffusion never increases the energy**, and scale 0 is the identity. -/
theorem C46_contraction {a : ℝ} (ha : 0 ≤ a) (order : ℕ) (x : Fin n → ℝ) :
    ∃ y : Fin n → ℝ, ((heat lmax [a] none).filter S (Arr.of1 x) .exact order s).1 = .ok (Arr.of1 y) ∧
      ∑ v, y v ^ 2 ≤ ∑ v, x v ^ 2 ∧ (a = 0 → y = x) := by
  obtain ⟨e, U, he, h0, hbas, hf⟩ := single_setup hS hg hist hs hW hn hk hcomplete
  rw [heat_one]
  refine ⟨_, congrArg Prod.fst (hf _ _ rfl order x s (.inl rfl)), ?_, ?_⟩
  · rw [energy_spectralOp he.orthonormal, ← energy_gft he.orthonormal x]
    refine Finset.sum_le_sum fun j _ => ?_
    have h1 : 0 ≤ heatKernel lmax a (e j) := (lt_min (exp_pos _) one_pos).le
    have h2 : heatKernel lmax a (e j) ≤ 1 := min_le_right _ _
    have h3 : heatKernel lmax a (e j) ^ 2 ≤ 1 := by nlinarith
    have h4 := sq_nonneg ((Uᵀ *ᵥ x) j)
    nlinarith
  · intro h
    have : (fun j => heatKernel lmax a (e j)) = fun _ => 1 := by
      funext j; rw [h]; unfold heatKernel; simp
    rw [this, spectralOp_one he.orthonormal, Matrix.one_mulVec]

/-- **Mass is conserved** by diffusion with the combinatorial Laplacian. -/
theorem C46_mass (hc : s.lapType = .combinatorial) {a : ℝ} (order : ℕ) (x : Fin n → ℝ) :
    ∃ y : Fin n → ℝ, ((heat lmax [a] none).filter S (Arr.of1 x) .exact order s).1 = .ok (Arr.of1 y) ∧ ∑ v, y v = ∑ v, x v := by
  obtain ⟨e, U, he, h0, hbas, hf⟩ := single_setup hS hg hist hs hW hn hk hcomplete
  rw [heat_one]
  refine ⟨_, congrArg Prod.fst (hf _ _ rfl order x s (.inl rfl)), ?_⟩
  rw [L_combinatorial hS hg hist hs hc] at he
  rw [spectralOp_mass he (heatKernel lmax a) x]
  unfold heatKernel
  simp

/-- **Positivity and maximum principle**: the diffusion of a signal with values in `[m, M]` has values in `[m, M]`. -/
theorem C46_maximum_principle (hc : s.lapType = .combinatorial) {a : ℝ} (ha : 0 ≤ a) (order : ℕ) (x : Fin n → ℝ) (m M : ℝ)
    (hm : ∀ v, m ≤ x v) (hM : ∀ v, x v ≤ M) :
    ∃ y : Fin n → ℝ, ((heat lmax [a] none).filter S (Arr.of1 x) .exact order s).1 = .ok (Arr.of1 y) ∧ ∀ v, m ≤ y v ∧ y v ≤ M := by
  obtain ⟨e, U, he, h0, hbas, hf⟩ := single_setup hS hg hist hs hW hn hk hcomplete
  rw [heat_one]
  refine ⟨_, congrArg Prod.fst (hf _ _ rfl order x s (.inl rfl)), ?_⟩
  have heq : (fun j => heatKernel lmax a (e j)) = fun j => exp (-(a / lmax * e j)) := by
    funext j
    have hj := h0 j
    rw [heatKernel_eq (by positivity)]
    congr 1; ring
  rw [L_combinatorial hS hg hist hs hc] at he
  have hpos : ∀ v w, 0 ≤ spectralOp U (fun j => heatKernel lmax a (e j)) v w := by
    intro v w
    rw [heq]
    refine heat_nonneg he (fun i j hij => ?_) (by positivity) v w
    have := wsym_nonneg hW i j
    simp only [combLap, Matrix.of_apply, if_neg hij]
    linarith
  -- the rows sum to one
  have hrow : ∀ v, ∑ w, spectralOp U (fun j => heatKernel lmax a (e j)) v w = 1 := by
    intro v
    have h1 := spectralOp_mass he (heatKernel lmax a) (Pi.single v 1)
    have h2 : heatKernel lmax a 0 = 1 := by unfold heatKernel; simp
    rw [h2] at h1
    simp only [Matrix.mulVec_single_one, Matrix.col_apply, Finset.sum_pi_single', Finset.mem_univ, if_true, mul_one] at h1
    rw [← h1]
    refine Finset.sum_congr rfl fun w _ => ?_
    have := congrFun (congrFun (spectralOp_symm U fun j => heatKernel lmax a (e j)) v) w
    rw [Matrix.transpose_apply] at this
    exact this.symm
  intro v
  simp only [Matrix.mulVec, dotProduct]
  constructor
  · calc m = ∑ w, spectralOp U (fun j => heatKernel lmax a (e j)) v w * m := by rw [← Finset.sum_mul, hrow, one_mul]
      _ ≤ _ := Finset.sum_le_sum fun w _ => mul_le_mul_of_nonneg_left (hm w) (hpos v w)
  · calc _ ≤ ∑ w, spectralOp U (fun j => heatKernel lmax a (e j)) v w * M :=
          Finset.sum_le_sum fun w _ => mul_le_mul_of_nonneg_left (hM w) (hpos v w)
      _ = M := by rw [← Finset.sum_mul, hrow, one_mul]

end Diffusion

/-! ## C47 -/

theorem waveKernel_ok {lmax : ℝ} (hl : 0 < lmax) (t : ℝ) {c x : ℝ} (hc : |c| ≤ 2) (h0 : 0 ≤ x) (h1 : x ≤ lmax) :
    waveKernel lmax t c x = some (cos (t * arccos (1 - c ^ 2 * x / lmax / 2))) ∧
      -1 ≤ 1 - c ^ 2 * x / lmax / 2 ∧ 1 - c ^ 2 * x / lmax / 2 ≤ 1 := by
  have hc2 : c ^ 2 ≤ 4 := by
    have := abs_le.1 hc
    nlinarith
  have hx : x / lmax ≤ 1 := by rw [div_le_one hl]; exact h1
  have hx0 : 0 ≤ x / lmax := by positivity
  have e : c ^ 2 * x / lmax / 2 = c ^ 2 * (x / lmax) / 2 := by ring
  have hy : -1 ≤ 1 - c ^ 2 * x / lmax / 2 ∧ 1 - c ^ 2 * x / lmax / 2 ≤ 1 := by
    rw [e]
    constructor <;> nlinarith [sq_nonneg c]
  refine ⟨?_, hy⟩
  unfold waveKernel
  simp only
  rw [if_pos hy]

theorem orNaN_ok {p : ℝ → Option ℝ} {k : ℕ} {x : Fin k → ℝ} {y : Fin k → ℝ} (h : ∀ j, p (x j) = some (y j)) :
    Kernel.orNaN p k x = .ok y := by
  unfold Kernel.orNaN
  rw [seqFin_ok]
  intro j
  rw [h j]

/-- **What is accepted**: two lists of the same length, or one of length 1; all speeds (of the filters built) below 2.
One filter per pair. -/
theorem C47_accepted (lmax : ℝ) (time speed : List ℝ) :
    (time.length ≠ speed.length → time.length ≠ 1 → speed.length ≠ 1 → wave lmax time speed = .error .valueError) ∧
    (time.length = speed.length → (∃ c ∈ speed, 2 ≤ c) → wave lmax time speed = .error .valueError) ∧
    (time.length = speed.length → (∀ c ∈ speed, c < 2) → ∃ f, wave lmax time speed = .ok f ∧ f.Nf = time.length) ∧
    (∀ c, c < 2 → ∃ f, wave lmax time [c] = .ok f ∧ f.Nf = time.length) ∧
    (∀ c, 2 ≤ c → time ≠ [] → wave lmax time [c] = .error .valueError) ∧
    (∀ t, (∀ c ∈ speed, c < 2) → ∃ f, wave lmax [t] speed = .ok f ∧ f.Nf = speed.length) := by
  have hany : ∀ l : List ℝ, (∀ c ∈ l, c < 2) → (l.any fun s => decide (s ≥ 2)) = false := by
    intro l h
    rw [List.any_eq_false]
    intro c hc
    simpa using h c hc
  have hany2 : ∀ l : List ℝ, (∃ c ∈ l, 2 ≤ c) → (l.any fun s => decide (s ≥ 2)) = true := by
    rintro l ⟨c, hc, h2⟩
    rw [List.any_eq_true]
    exact ⟨c, hc, by simpa using h2⟩
  have hok : ∀ (t c : List ℝ), broadcast time speed = .ok (t, c) → (∀ s ∈ c, s < 2) → t.length = c.length →
      ∃ f, wave lmax time speed = .ok f ∧ f.Nf = c.length := by
    intro t c h hc hlen
    unfold wave
    simp only [h, hany c hc]
    exact ⟨_, rfl, by simp [Bank.ofArg, Bank.Nf, hlen]⟩
  have hone : ∀ c, broadcast time [c] = .ok (time, List.replicate time.length c) := by
    intro c
    unfold broadcast
    by_cases h : time.length ≠ [c].length
    · rw [if_pos h]
    · rw [if_neg h]
      simp only [List.length_singleton, not_not] at h
      simp [h]
  refine ⟨fun h h1 h2 => ?_, fun h h1 => ?_, fun h h1 => ?_, fun c hc => ?_, fun c hc ht => ?_, fun t h1 => ?_⟩
  · unfold wave broadcast
    rw [if_pos h]
    rcases speed with _ | ⟨a, _ | ⟨b, l⟩⟩
    · rcases time with _ | ⟨a, _ | ⟨b, l⟩⟩
      · exact absurd rfl h
      · exact absurd rfl h1
      · rfl
    · exact absurd rfl h2
    · rcases time with _ | ⟨a', _ | ⟨b', l'⟩⟩
      · rfl
      · exact absurd rfl h1
      · rfl
  · unfold wave broadcast
    rw [if_neg (not_not.2 h)]
    simp only [hany2 speed h1, if_true]
  · obtain ⟨f, hf, hN⟩ := hok time speed (if_neg (not_not.2 h)) h1 h
    exact ⟨f, hf, by rw [hN, h]⟩
  · have hc' : ∀ s ∈ List.replicate time.length c, s < 2 := fun s hs => by rw [List.eq_of_mem_replicate hs]; exact hc
    unfold wave
    simp only [hone c, hany _ hc']
    exact ⟨_, rfl, by simp [Bank.ofArg, Bank.Nf]⟩
  · unfold wave
    have hc' : ∃ s ∈ List.replicate time.length c, 2 ≤ s :=
      ⟨c, List.mem_replicate.2 ⟨by simpa using ht, rfl⟩, hc⟩
    simp only [hone c, hany2 _ hc', if_true]
  · by_cases h : [t].length ≠ speed.length
    · have hb : broadcast [t] speed = .ok (List.replicate speed.length t, speed) := by
        unfold broadcast
        rw [if_pos h]
        rcases speed with _ | ⟨a, _ | ⟨b, l⟩⟩
        · rfl
        · exact absurd rfl h
        · rfl
      unfold wave
      simp only [hb, hany speed h1]
      exact ⟨_, rfl, by simp [Bank.ofArg, Bank.Nf]⟩
    · unfold wave broadcast
      rw [if_neg h]
      simp only [hany speed h1]
      exact ⟨_, rfl, by simp [Bank.ofArg, Bank.Nf, not_not.1 h]⟩

/-- **Values** on `[0, lmax]`, for one speed `|c| < 2`: bounded by 1, equal to 1 at time 0 and at frequency 0, and three
consecutive times satisfy the discretised wave equation `g(t+1) - 2 g(t) + g(t-1) = - c² x / lmax g(t)`. -/
theorem C47_values {lmax : ℝ} (hl : 0 < lmax) (time : List ℝ) {c : ℝ} (hc : |c| < 2) {k : ℕ} (x : Fin k → ℝ)
    (hx : ∀ j, 0 ≤ x j ∧ x j ≤ lmax) :
    ∃ f z, wave lmax time [c] = .ok f ∧ f.Nf = time.length ∧ f.evaluate x = .ok z ∧
      ∀ (i : Fin f.Nf) (hi : i.1 < time.length) j, |z i j| ≤ 1 ∧ (time[i.1] = 0 → z i j = 1) ∧ (x j = 0 → z i j = 1) ∧
        ∀ (p q : Fin f.Nf) (hp : p.1 < time.length) (hq : q.1 < time.length), time[p.1] = time[i.1] - 1 → time[q.1] = time[i.1] + 1 →
          z q j - 2 * z i j + z p j = - (c ^ 2 * x j / lmax) * z i j := by
  have hb : broadcast time [c] = .ok (time, List.replicate time.length c) := by
    unfold broadcast
    by_cases h : time.length ≠ [c].length
    · rw [if_pos h]
    · rw [if_neg h]
      simp only [List.length_singleton, not_not] at h
      simp [h]
  have hany : ((List.replicate time.length c).any fun s => decide (s ≥ 2)) = false := by
    rw [List.any_eq_false]
    intro s hs
    rw [List.eq_of_mem_replicate hs]
    have := (abs_lt.1 hc).2
    simpa using this
  have hw : wave lmax time [c] = .ok (Bank.ofArg (.many (time.map fun t => Kernel.orNaN (waveKernel lmax t c)))) := by
    unfold wave
    simp only [hb, hany]
    refine congrArg (fun l => Except.ok (Bank.ofArg (.many l))) ?_
    refine List.ext_getElem (by simp) fun i h1 h2 => ?_
    simp
  have hN : (Bank.ofArg (.many (time.map fun t => Kernel.orNaN (waveKernel lmax t c)))).Nf = time.length := by
    simp [Bank.ofArg, Bank.Nf]
  refine ⟨_, fun i j => cos (time[i.1]'(i.2.trans_eq hN) *
    arccos (1 - c ^ 2 * x j / lmax / 2)), hw, hN, ?_, ?_⟩
  · unfold Bank.evaluate
    rw [seqFin_ok]
    intro i
    have hi : i.1 < time.length := i.2.trans_eq hN
    have : (Bank.ofArg (.many (time.map fun t => Kernel.orNaN (waveKernel lmax t c)))).kernels.get i =
        Kernel.orNaN (waveKernel lmax (time[i.1]'hi) c) := by
      exact List.getElem_map _ (h := i.2)
    rw [this]
    exact orNaN_ok fun j => (waveKernel_ok hl _ hc.le (hx j).1 (hx j).2).1
  · intro i hi j
    obtain ⟨-, hy1, hy2⟩ := waveKernel_ok hl 0 hc.le (hx j).1 (hx j).2
    refine ⟨abs_cos_le_one _, fun h => by simp only [h]; simp, fun h => by simp only [h]; simp, ?_⟩
    intro p q hp hq h1 h2
    simp only [h1, h2]
    have hcos : cos (arccos (1 - c ^ 2 * x j / lmax / 2)) = 1 - c ^ 2 * x j / lmax / 2 := cos_arccos hy1 hy2
    generalize arccos (1 - c ^ 2 * x j / lmax / 2) = θ at hcos ⊢
    rw [show (time[i.1] + 1) * θ = time[i.1] * θ + θ by ring, show (time[i.1] - 1) * θ = time[i.1] * θ - θ by ring,
      cos_add, cos_sub, hcos]
    ring

section Wave

variable {S : Solvers n} (hS : Sound S) {g : Graph n ℝ} (hg : g.Built) (hist : List (Op n)) {s : GState n}
  (hs : s = runAll S hist (GState.ofGraph g)) (hW : NonnegW g.W.dense) (hn : 2 ≤ n) (hk : Known s.lapType)
  (hcomplete : ∀ b, s.basis = some b → b.k = n) {lmax : ℝ} (hl : 0 < lmax)
  (hmax : ∀ l, IsEigenvalue s.L l → l ≤ lmax)

include hS hg hs hW hn hk hcomplete hl hmax

/-- **The wave equation in the vertex domain**: the signals at three consecutive times satisfy
`y(t+1) - 2 y(t) + y(t-1) = - c² / lmax L y(t)`, and at time 0 the signal is the initial one. -/
theorem C47_wave_equation {c : ℝ} (hc : |c| < 2) (t : ℝ) (order : ℕ) (x : Fin n → ℝ) :
    ∃ (fm f0 fp : Bank) (ym y0 yp : Fin n → ℝ), wave lmax [t - 1] [c] = .ok fm ∧ wave lmax [t] [c] = .ok f0 ∧ wave lmax [t + 1] [c] = .ok fp ∧
      (fm.filter S (Arr.of1 x) .exact order s).1 = .ok (Arr.of1 ym) ∧
      (f0.filter S (Arr.of1 x) .exact order s).1 = .ok (Arr.of1 y0) ∧
      (fp.filter S (Arr.of1 x) .exact order s).1 = .ok (Arr.of1 yp) ∧
      (∀ v, yp v - 2 * y0 v + ym v = - (c ^ 2 / lmax) * (s.L *ᵥ y0) v) ∧ (t = 0 → y0 = x) := by
  obtain ⟨e, U, he, h0, hbas, hf⟩ := single_setup hS hg hist hs hW hn hk hcomplete
  have hw : ∀ t, wave lmax [t] [c] = .ok (Bank.ofArg (.one (Kernel.orNaN (waveKernel lmax t c)))) := by
    intro t
    have : ¬ (2 ≤ c) := not_le.2 (abs_lt.1 hc).2
    unfold wave broadcast
    simp [this]
    rfl
  have hv : ∀ t, Kernel.orNaN (waveKernel lmax t c) n e =
      .ok fun j => cos (t * arccos (1 - c ^ 2 * e j / lmax / 2)) := fun t =>
    orNaN_ok fun j => (waveKernel_ok hl t hc.le (h0 j) (hmax _ (he.isEigenvalue j))).1
  have hf1 := fun t => congrArg Prod.fst (hf _ _ (hv t) order x s (.inl rfl))
  refine ⟨_, _, _, _, _, _, hw _, hw _, hw _, hf1 _, hf1 _, hf1 _, ?_, ?_⟩
  · intro v
    have hLU : s.L = spectralOp U e := by
      have hUU : U * Uᵀ = 1 := mul_eq_one_comm.1 he.orthonormal
      unfold spectralOp
      rw [← he.eig, mul_assoc, hUU, mul_one]
    rw [hLU, Matrix.mulVec_mulVec, spectralOp_mul he.orthonormal]
    simp only [Matrix.mulVec, dotProduct, spectralOp_apply, Finset.sum_mul, Finset.mul_sum]
    rw [← Finset.sum_sub_distrib, ← Finset.sum_add_distrib]
    refine Finset.sum_congr rfl fun w _ => ?_
    rw [← Finset.sum_sub_distrib, ← Finset.sum_add_distrib]
    refine Finset.sum_congr rfl fun j _ => ?_
    obtain ⟨-, hy1, hy2⟩ := waveKernel_ok hl 0 hc.le (h0 j) (hmax _ (he.isEigenvalue j))
    have hcos : cos (arccos (1 - c ^ 2 * e j / lmax / 2)) = 1 - c ^ 2 * e j / lmax / 2 := cos_arccos hy1 hy2
    generalize arccos (1 - c ^ 2 * e j / lmax / 2) = θ at hcos ⊢
    rw [show (t + 1) * θ = t * θ + θ by ring, show (t - 1) * θ = t * θ - θ by ring, cos_add, cos_sub, hcos]
    ring
  · intro h
    subst h
    simp only [zero_mul, cos_zero]
    rw [spectralOp_one he.orthonormal, Matrix.one_mulVec]

end Wave

/-- A negative speed is not rejected although the documented range is `[0, 2[`: with `-3` the filter is built, and its
value at `lmax` is `arccos` of a number below `-1` (NaN; not a number of the model). -/
theorem C47_negative_speed_violated (t : ℝ) {lmax : ℝ} (hl : 0 < lmax) :
    ∃ f, wave lmax [t] [-3] = .ok f ∧ f.evaluate (fun _ : Fin 1 => lmax) = .error .unmodelled := by
  refine ⟨Bank.ofArg (.one (Kernel.orNaN (waveKernel lmax t (-3)))), ?_, ?_⟩
  · unfold wave broadcast
    have : ¬ ((2 : ℝ) ≤ -3) := by norm_num
    simp [this]
    rfl
  · have h : waveKernel lmax t (-3) lmax = none := by
      unfold waveKernel
      simp only
      rw [if_neg]
      intro h
      have h1 := h.1
      have : (-3 : ℝ) ^ 2 * lmax / lmax / 2 = 9 / 2 := by field_simp; norm_num
      rw [this] at h1
      linarith
    have h2 : Kernel.orNaN (waveKernel lmax t (-3)) 1 (fun _ => lmax) = .error .unmodelled := by
      unfold Kernel.orNaN
      simp only [h, seqFin]
    exact (seqFin_error 1 _ .unmodelled).2 ⟨0, h2, fun j hj => absurd hj (Fin.not_lt_zero j)⟩

end PyGSP
