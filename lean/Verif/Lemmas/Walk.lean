import Verif.Spec.Walk
import Verif.Lemmas.Potential
import Mathlib.Topology.Algebra.InfiniteSum.Real
import Mathlib.Topology.Order.MonotoneConvergence
import Mathlib.Analysis.Normed.Group.InfiniteSum
import Mathlib.LinearAlgebra.Matrix.ToLin
import Mathlib.LinearAlgebra.Matrix.Nondegenerate

/-!
# The random walk that stops with a probability depending on the vertex
-/

namespace PyGSP.RandomWalk

open Matrix Spec Filter Topology

variable {n : ℕ} {M : Matrix (Fin n) (Fin n) ℝ} {κ : Fin n → ℝ}

theorem step_nonneg (hM : NonnegW M) (v w : Fin n) : 0 ≤ step M v w := div_nonneg (wsym_nonneg hM v w) (wdeg_nonneg hM v)

theorem step_sum {v : Fin n} (h : wdeg M v ≠ 0) : ∑ w, step M v w = 1 := by
  unfold step
  rw [← Finset.sum_div, sum_wsym, div_self h]

theorem step_sum_le (v : Fin n) : ∑ w, step M v w ≤ 1 := by
  unfold step
  rw [← Finset.sum_div, sum_wsym]
  exact div_self_le_one _

theorem deg_step (hM : NonnegW M) (v w : Fin n) : wdeg M v * step M v w = wsym M v w := by
  unfold step
  by_cases h : wdeg M v = 0
  · rw [h, wsym_eq_zero_of_wdeg hM h, zero_mul]
  · field_simp

theorem deg_step_sum (hM : NonnegW M) (v : Fin n) (x : Fin n → ℝ) : wdeg M v * ∑ w, step M v w * x w = ∑ w, wsym M v w * x w := by
  rw [Finset.mul_sum]
  exact Finset.sum_congr rfl fun w _ => by rw [← mul_assoc, deg_step hM]

/-- the rules of stopping: probabilities, and every vertex is linked to one where the walk may stop -/
structure Rule (M : Matrix (Fin n) (Fin n) ℝ) (κ : Fin n → ℝ) : Prop where
  nonneg : ∀ v, 0 ≤ κ v
  le_one : ∀ v, κ v ≤ 1
  linked : ∀ v, ∃ b, 0 < κ b ∧ Linked M v b

theorem goOn_nonneg (hM : NonnegW M) (h : Rule M κ) (v w : Fin n) : 0 ≤ goOn M κ v w :=
  mul_nonneg (sub_nonneg.2 (h.le_one v)) (step_nonneg hM v w)

theorem pow_nonneg (hM : NonnegW M) (h : Rule M κ) (t : ℕ) (v w : Fin n) : 0 ≤ (goOn M κ ^ t) v w := by
  induction t generalizing v w with
  | zero => rw [pow_zero, Matrix.one_apply]; split <;> norm_num
  | succ t ih =>
    rw [pow_succ, Matrix.mul_apply]
    exact Finset.sum_nonneg fun u _ => mul_nonneg (ih v u) (goOn_nonneg hM h u w)

theorem goOn_mulVec (v : Fin n) (x : Fin n → ℝ) : (goOn M κ *ᵥ x) v = (1 - κ v) * ∑ w, step M v w * x w := by
  simp only [Matrix.mulVec, dotProduct, goOn, Matrix.of_apply, Finset.mul_sum]
  exact Finset.sum_congr rfl fun w _ => by ring

theorem mulVec_nonneg (hM : NonnegW M) (h : Rule M κ) (t : ℕ) {f : Fin n → ℝ} (hf : ∀ w, 0 ≤ f w) (v : Fin n) : 0 ≤ ((goOn M κ ^ t) *ᵥ f) v := by
  simp only [Matrix.mulVec, dotProduct]
  exact Finset.sum_nonneg fun w _ => mul_nonneg (pow_nonneg hM h t v w) (hf w)

theorem mulVec_mono (hM : NonnegW M) (h : Rule M κ) (t : ℕ) {f f' : Fin n → ℝ} (hf : ∀ w, f w ≤ f' w) (v : Fin n) :
    ((goOn M κ ^ t) *ᵥ f) v ≤ ((goOn M κ ^ t) *ᵥ f') v := by
  simp only [Matrix.mulVec, dotProduct]
  exact Finset.sum_le_sum fun w _ => mul_le_mul_of_nonneg_left (hf w) (pow_nonneg hM h t v w)

/-- the probability of being still on the way -/
noncomputable def alive (M : Matrix (Fin n) (Fin n) ℝ) (κ : Fin n → ℝ) (t : ℕ) : Fin n → ℝ := (goOn M κ ^ t) *ᵥ fun _ => 1

theorem alive_nonneg (hM : NonnegW M) (h : Rule M κ) (t : ℕ) (v : Fin n) : 0 ≤ alive M κ t v :=
  mulVec_nonneg hM h t (fun _ => zero_le_one) v

theorem alive_succ (t : ℕ) : alive M κ (t + 1) = goOn M κ *ᵥ alive M κ t := by
  unfold alive
  rw [pow_succ', Matrix.mulVec_mulVec]

theorem alive_anti (hM : NonnegW M) (h : Rule M κ) (v : Fin n) : Antitone fun t => alive M κ t v := by
  refine antitone_nat_of_succ_le fun t => ?_
  have e : alive M κ (t + 1) = (goOn M κ ^ t) *ᵥ (goOn M κ *ᵥ fun _ => 1) := by
    unfold alive
    rw [pow_succ, Matrix.mulVec_mulVec]
  show alive M κ (t + 1) v ≤ alive M κ t v
  rw [e]
  refine mulVec_mono hM h t (fun w => ?_) v
  rw [goOn_mulVec]
  simp only [mul_one]
  have h1 := step_sum_le (M := M) w
  have h2 : 0 ≤ ∑ u, step M w u := Finset.sum_nonneg fun u _ => step_nonneg hM w u
  have h3 := h.nonneg w
  nlinarith

/-- a non-negative signal that the walk keeps unchanged is zero -/
theorem fixed_zero (hM : NonnegW M) (h : Rule M κ) {s : Fin n → ℝ} (h0 : ∀ v, 0 ≤ s v) (hs : goOn M κ *ᵥ s = s) (v : Fin n) : s v = 0 := by
  have hfix : ∀ v, s v = (1 - κ v) * ∑ w, step M v w * s w := fun v => by rw [← goOn_mulVec, hs]
  have hpos : ∀ v, 0 ≤ ∑ w, step M v w * s w := fun v => Finset.sum_nonneg fun w _ => mul_nonneg (step_nonneg hM v w) (h0 w)
  obtain ⟨a, -, ha⟩ := Finset.exists_max_image Finset.univ s ⟨v, Finset.mem_univ _⟩
  obtain ⟨b, hb, hab⟩ := max_principle hM (fun v => 0 < κ v) h.linked s (fun x hx => by
    have hk : κ x = 0 := le_antisymm (not_lt.1 hx) (h.nonneg x)
    have h1 := hfix x
    rw [hk, sub_zero, one_mul] at h1
    rw [combLap_mulVec]
    simp only [mul_sub, Finset.sum_sub_distrib]
    rw [← Finset.sum_mul, sum_wsym, ← deg_step_sum hM, ← h1, sub_self]) a
  have hmax : ∀ w, s w ≤ s b := fun w => (ha w (Finset.mem_univ w)).trans hab
  have h2 : ∑ w, step M b w * s w ≤ s b := by
    calc ∑ w, step M b w * s w ≤ ∑ w, step M b w * s b := Finset.sum_le_sum fun w _ => mul_le_mul_of_nonneg_left (hmax w) (step_nonneg hM b w)
      _ = (∑ w, step M b w) * s b := by rw [Finset.sum_mul]
      _ ≤ s b := mul_le_of_le_one_left (h0 b) (step_sum_le b)
  have h3 := hfix b
  have h4 : s b ≤ (1 - κ b) * s b := by
    calc s b = _ := h3
      _ ≤ _ := mul_le_mul_of_nonneg_left h2 (sub_nonneg.2 (h.le_one b))
  have h5 : s b ≤ 0 := by nlinarith [h0 b]
  exact le_antisymm ((hmax v).trans h5) (h0 v)

/-- the walk stops almost surely -/
theorem alive_tendsto (hM : NonnegW M) (h : Rule M κ) (v : Fin n) : Tendsto (fun t => alive M κ t v) atTop (𝓝 0) := by
  have hl : ∀ v, Tendsto (fun t => alive M κ t v) atTop (𝓝 (⨅ t, alive M κ t v)) := fun v =>
    tendsto_atTop_ciInf (alive_anti hM h v) ⟨0, by rintro _ ⟨t, rfl⟩; exact alive_nonneg hM h t v⟩
  set s : Fin n → ℝ := fun v => ⨅ t, alive M κ t v with hsdef
  have h0 : ∀ v, 0 ≤ s v := fun v => ge_of_tendsto' (hl v) fun t => alive_nonneg hM h t v
  have hfix : goOn M κ *ᵥ s = s := by
    funext v
    have h1 : Tendsto (fun t => (goOn M κ *ᵥ alive M κ t) v) atTop (𝓝 ((goOn M κ *ᵥ s) v)) := by
      simp only [Matrix.mulVec, dotProduct]
      exact tendsto_finsetSum _ fun w _ => (hl w).const_mul _
    have h2 : Tendsto (fun t => alive M κ (t + 1) v) atTop (𝓝 (s v)) := (hl v).comp (tendsto_add_atTop_nat 1)
    simp only [alive_succ] at h2
    exact tendsto_nhds_unique h1 h2
  have h2 := fixed_zero hM h h0 hfix v
  have := hl v
  rw [show (⨅ t, alive M κ t v) = s v from rfl, h2] at this
  exact this

theorem pow_tendsto (hM : NonnegW M) (h : Rule M κ) (v : Fin n) (x : Fin n → ℝ) :
    Tendsto (fun t => ((goOn M κ ^ t) *ᵥ x) v) atTop (𝓝 0) := by
  have hent : ∀ w, Tendsto (fun t => (goOn M κ ^ t) v w) atTop (𝓝 0) := fun w =>
    squeeze_zero (fun t => pow_nonneg hM h t v w) (fun t => by
      unfold alive
      simp only [Matrix.mulVec, dotProduct]
      have := Finset.single_le_sum (f := fun u => (goOn M κ ^ t) v u * 1) (fun u _ => mul_nonneg (pow_nonneg hM h t v u) zero_le_one) (Finset.mem_univ w)
      simpa using this) (alive_tendsto hM h v)
  have : Tendsto (fun t => ∑ w, (goOn M κ ^ t) v w * x w) atTop (𝓝 (∑ w, 0 * x w)) :=
    tendsto_finsetSum _ fun w _ => (hent w).mul_const _
  simpa [Matrix.mulVec, dotProduct] using this

theorem partial_sum {x f : Fin n → ℝ} (hx : ∀ v, x v = f v + (goOn M κ *ᵥ x) v) (v : Fin n) (T : ℕ) :
    ∑ t ∈ Finset.range T, ((goOn M κ ^ t) *ᵥ f) v = x v - ((goOn M κ ^ T) *ᵥ x) v := by
  induction T with
  | zero => simp
  | succ T ih =>
    rw [Finset.sum_range_succ, ih]
    have e : x = f + goOn M κ *ᵥ x := funext hx
    have h1 : (goOn M κ ^ T) *ᵥ x = (goOn M κ ^ T) *ᵥ f + (goOn M κ ^ (T + 1)) *ᵥ x := by
      conv_lhs => rw [e]
      rw [Matrix.mulVec_add, Matrix.mulVec_mulVec, ← pow_succ]
    have h2 := congrFun h1 v
    rw [Pi.add_apply] at h2
    linarith

theorem tends {x f : Fin n → ℝ} (hM : NonnegW M) (h : Rule M κ) (hx : ∀ v, x v = f v + (goOn M κ *ᵥ x) v) (v : Fin n) :
    Tendsto (fun T => ∑ t ∈ Finset.range T, ((goOn M κ ^ t) *ᵥ f) v) atTop (𝓝 (x v)) := by
  simp only [partial_sum hx]
  simpa using (pow_tendsto hM h v x).const_sub (x v)

/-- every equation of the walk has a solution -/
theorem exists_solution (hM : NonnegW M) (h : Rule M κ) (f : Fin n → ℝ) : ∃ x : Fin n → ℝ, ∀ v, x v = f v + (goOn M κ *ᵥ x) v := by
  have hinj : Function.Injective (1 - goOn M κ).mulVecLin := by
    rw [← LinearMap.ker_eq_bot, LinearMap.ker_eq_bot']
    intro x hx
    have hx' : goOn M κ *ᵥ x = x := by
      have : (1 - goOn M κ) *ᵥ x = 0 := hx
      rw [Matrix.sub_mulVec, Matrix.one_mulVec, sub_eq_zero] at this
      exact this.symm
    have hp : ∀ t, (goOn M κ ^ t) *ᵥ x = x := fun t => by
      induction t with
      | zero => simp
      | succ t ih => rw [pow_succ, ← Matrix.mulVec_mulVec, hx', ih]
    funext v
    have := pow_tendsto hM h v x
    simp only [hp] at this
    exact tendsto_nhds_unique tendsto_const_nhds this
  obtain ⟨x, hx⟩ := LinearMap.injective_iff_surjective.1 hinj f
  refine ⟨x, fun v => ?_⟩
  have : (1 - goOn M κ) *ᵥ x = f := hx
  rw [← this, Matrix.sub_mulVec, Matrix.one_mulVec]
  simp

/-- **first-step analysis**: the solution of `x = f + K x` is the sum over the moves of the expected `f` -/
theorem hasSum {x f : Fin n → ℝ} (hM : NonnegW M) (h : Rule M κ) (hx : ∀ v, x v = f v + (goOn M κ *ᵥ x) v) (v : Fin n) :
    HasSum (fun t => ((goOn M κ ^ t) *ᵥ f) v) (x v) := by
  obtain ⟨z, hz⟩ := exists_solution hM h fun w => |f w|
  have hz1 : HasSum (fun t => ((goOn M κ ^ t) *ᵥ fun w => |f w|) v) (z v) :=
    (hasSum_iff_tendsto_nat_of_nonneg (fun t => mulVec_nonneg hM h t (fun w => abs_nonneg (f w)) v) _).2 (tends hM h hz v)
  have hs : Summable (fun t => ((goOn M κ ^ t) *ᵥ f) v) := Summable.of_norm_bounded hz1.summable fun t => by
    rw [Real.norm_eq_abs]
    simp only [Matrix.mulVec, dotProduct]
    refine (Finset.abs_sum_le_sum_abs _ _).trans (le_of_eq (Finset.sum_congr rfl fun w _ => ?_))
    rw [abs_mul, abs_of_nonneg (pow_nonneg hM h t v w)]
  have := hs.hasSum.tendsto_sum_nat
  rw [tendsto_nhds_unique (tends hM h hx v) this]
  exact hs.hasSum

end PyGSP.RandomWalk
