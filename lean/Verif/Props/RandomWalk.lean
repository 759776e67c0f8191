import Verif.Lemmas.Walk
import Verif.Props.Regularisation
import Verif.Props.Kron
import Verif.Props.Simplex

/-!
# C134: regression, classification, resistances and Kron reduction as random walks
-/

namespace PyGSP

open Matrix Spec GState Learning Reduction Filter Topology

variable {n : ℕ}

/-- When the walk that visits the graph stops: never at an unmeasured vertex; at a measured one with probability `1 / (1 + tau d)`, where `d` is
the degree of the vertex (so always if `tau` is zero). -/
noncomputable def Spec.atLabels (M : Matrix (Fin n) (Fin n) ℝ) (m : Fin n → Bool) (tau : ℝ) (v : Fin n) : ℝ :=
  if m v then 1 / (1 + max tau 0 * wdeg M v) else 0

namespace RandomWalk

variable {M : Matrix (Fin n) (Fin n) ℝ} {κ : Fin n → ℝ}

theorem stops_sum (v : Fin n) (y : Fin n → ℝ) (t : ℕ) : ∑ b, stopsAt M κ v b t * y b = ((goOn M κ ^ t) *ᵥ fun b => κ b * y b) v := by
  simp only [stopsAt, Matrix.mulVec, dotProduct, mul_assoc]

theorem keeps_eq (v : Fin n) (t : ℕ) : keepsOn M κ v t = ((goOn M κ ^ t) *ᵥ fun w => 1 - κ w) v := by
  simp only [keepsOn, Matrix.mulVec, dotProduct]

theorem rule_arrival {B : Fin n → Prop} (hB : ∀ v, ∃ b, B b ∧ Linked M v b) : Rule M (onArrival B) where
  nonneg v := by unfold onArrival; split <;> norm_num
  le_one v := by unfold onArrival; split <;> norm_num
  linked v := by
    obtain ⟨b, hb, h⟩ := hB v
    exact ⟨b, by unfold onArrival; rw [if_pos hb]; norm_num, h⟩

theorem labels_den (hM : NonnegW M) (tau : ℝ) (v : Fin n) : 1 ≤ 1 + max tau 0 * wdeg M v := by
  have := mul_nonneg (le_max_right tau 0) (wdeg_nonneg hM v)
  linarith

theorem rule_labels (hM : NonnegW M) {m : Fin n → Bool} (ha : Anchored M m) (tau : ℝ) : Rule M (atLabels M m tau) where
  nonneg v := by
    unfold atLabels
    have := labels_den hM tau v
    split
    · positivity
    · norm_num
  le_one v := by
    unfold atLabels
    have := labels_den hM tau v
    split
    · rw [div_le_one (by linarith)]; exact this
    · norm_num
  linked v := by
    obtain ⟨b, hb, h⟩ := ha v
    have := labels_den hM tau b
    exact ⟨b, by unfold atLabels; rw [if_pos hb]; positivity, h⟩

/-- harmonic outside of the set -/
theorem harmonic_step (hM : NonnegW M) {x : Fin n → ℝ} {v : Fin n} (hd : wdeg M v ≠ 0) (h : (combLap M *ᵥ x) v = 0) : x v = ∑ w, step M v w * x w := by
  rw [combLap_mulVec] at h
  simp only [mul_sub, Finset.sum_sub_distrib] at h
  rw [← Finset.sum_mul, sum_wsym, ← deg_step_sum hM, ← mul_sub] at h
  have := (mul_eq_zero.1 h).resolve_left hd
  linarith

/-- a vertex outside of a set to which it is linked has neighbours -/
theorem deg_ne (hM : NonnegW M) {B : Fin n → Prop} {v : Fin n} (hB : ∃ b, B b ∧ Linked M v b) (hv : ¬ B v) : wdeg M v ≠ 0 := by
  intro hd
  obtain ⟨b, hb, hl⟩ := hB
  rcases Relation.ReflTransGen.cases_head hl with h | ⟨c, hc, -⟩
  · subst h; exact hv hb
  · have h1 := (wsym_pos_iff hM v c).2 hc
    have h2 := wsym_eq_zero_of_wdeg hM hd c
    linarith

theorem hit (hM : NonnegW M) {B : Fin n → Prop} (hB : ∀ v, ∃ b, B b ∧ Linked M v b) {x : Fin n → ℝ}
    (hx : ∀ v, ¬ B v → (combLap M *ᵥ x) v = 0) (v : Fin n) : HasSum (fun t => ∑ b, stopsAt M (onArrival B) v b t * x b) (x v) := by
  simp only [stops_sum]
  refine hasSum hM (rule_arrival hB) (fun v => ?_) v
  rw [goOn_mulVec]
  unfold onArrival
  split
  · ring
  · rename_i hv
    rw [← harmonic_step hM (deg_ne hM (hB v) hv) (hx v hv)]
    ring

/-- the equation solved by the regression is that of the walk -/
theorem labels_eq (hM : NonnegW M) {m : Fin n → Bool} (ha : Anchored M m) {tau : ℝ} {x y : Fin n → ℝ}
    (h0 : ∀ v, m v = false → (combLap M *ᵥ x) v = 0) (h1 : ∀ v, m v = true → x v + max tau 0 * (combLap M *ᵥ x) v = y v) (v : Fin n) :
    HasSum (fun t => ∑ b, stopsAt M (atLabels M m tau) v b t * y b) (x v) := by
  simp only [stops_sum]
  refine hasSum hM (rule_labels hM ha tau) (fun v => ?_) v
  rw [goOn_mulVec]
  unfold atLabels
  split
  · rename_i hv
    have hd := labels_den hM tau v
    have h2 := h1 v hv
    rw [combLap_mulVec] at h2
    simp only [mul_sub, Finset.sum_sub_distrib] at h2
    rw [← Finset.sum_mul, sum_wsym, ← deg_step_sum hM] at h2
    generalize ∑ w, step M v w * x w = q at h2 ⊢
    have hne : 1 + max tau 0 * wdeg M v ≠ 0 := by linarith
    field_simp
    linarith
  · rename_i hv
    rw [← harmonic_step hM (deg_ne (B := fun v => m v = true) hM (ha v) hv) (h0 v (by simpa using hv))]
    ring

end RandomWalk

open RandomWalk

variable {S : Solvers n} {g : Graph n ℝ} {s : GState n} {cg : Matrix (Fin n) (Fin n) ℝ → (Fin n → ℝ) → Fin n → ℝ} {m : Fin n → Bool} {tau : ℝ}

/-- **C134** The walk stops: the probabilities of stopping after `t` moves at `b` are non-negative and sum to one. -/
theorem C134_walk_stops {M : Matrix (Fin n) (Fin n) ℝ} (hM : NonnegW M) (ha : Anchored M m) (v : Fin n) :
    (∀ b t, 0 ≤ stopsAt M (atLabels M m tau) v b t) ∧ HasSum (fun t => ∑ b, stopsAt M (atLabels M m tau) v b t) 1 := by
  refine ⟨fun b t => mul_nonneg (pow_nonneg hM (rule_labels hM ha tau) t v b) ((rule_labels hM ha tau).nonneg b), ?_⟩
  have := labels_eq (tau := tau) hM ha (x := fun _ => 1) (y := fun _ => 1) (fun v _ => by rw [combLap_mulVec]; simp)
    (fun v _ => by rw [combLap_mulVec]; simp) v
  simpa using this

/-- **C134** `regression_tikhonov` returns the expected measurement at the vertex where the random walk started at `v` stops. -/
theorem C134_regression (h : Ready S g s) (hl : s.lapType = .combinatorial) (ha : Anchored g.W.dense m) (hcg : ExactCG cg) {y x : Fin n → ℝ}
    (hx : regression1 cg false s.L y m tau = .ok x) (v : Fin n) :
    HasSum (fun t => ∑ b, stopsAt g.W.dense (atLabels g.W.dense m tau) v b t * y b) (x v) := by
  have hL : s.L = combLap g.W.dense := by
    obtain ⟨hist, hs⟩ := h.reached
    exact L_combinatorial h.sound h.built hist hs hl
  by_cases ht : 0 < tau
  · have hn := normal_eq h hcg ht hx
    rw [hL] at hn
    have heq : ∀ v, (if m v then x v else 0) + tau * (combLap g.W.dense *ᵥ x) v = if m v then y v else 0 := fun v => by
      rw [← penalised_mulVec, hn]; rfl
    refine labels_eq h.nonneg ha (fun v hv => ?_) (fun v hv => ?_) v
    · have := heq v
      simp only [hv, Bool.false_eq_true, if_false, zero_add] at this
      exact (mul_eq_zero.1 this).resolve_left ht.ne'
    · have := heq v
      rw [if_pos hv, if_pos hv] at this
      rw [max_eq_left ht.le]
      exact this
  · have ht' := not_lt.1 ht
    obtain ⟨h1, h2⟩ := interpolation_spec ht' hx
    rw [hL] at h2
    exact labels_eq h.nonneg ha h2 (fun v hv => by rw [max_eq_right ht', zero_mul, add_zero]; exact h1 v hv) v

/-- **C134** `classification_tikhonov` returns the probabilities of the classes of the vertex where the walk stops. -/
theorem C134_classification (h : Ready S g s) (hl : s.lapType = .combinatorial) (ha : Anchored g.W.dense m) (hcg : ExactCG cg)
    (y : Fin n → ℕ) (hu : ∃ v, m v = false) (hcl : ∃ v, m v = true ∧ y v ≠ 0) :
    ∃ (k : ℕ) (X : Fin n → Fin k → ℝ), classification cg s.L (fun v => (y v : ℤ)) m tau = .ok ⟨k, X⟩ ∧
      ∀ v j, HasSum (fun t => ∑ b, if y b = j.1 then stopsAt g.W.dense (atLabels g.W.dense m tau) v b t else 0) (X v j) := by
  have hW := h.nonneg
  have hL : s.L = combLap g.W.dense := by
    obtain ⟨hist, hs⟩ := h.reached
    exact L_combinatorial h.sound h.built hist hs hl
  obtain ⟨k, Y, hY, hk, -, hval⟩ := C60_logits h.pos fun v => if m v then y v else 0
  obtain ⟨v1, hv1, hy1⟩ := hcl
  have hk1 : 2 ≤ k := by have := hk v1; rw [if_pos hv1] at this; omega
  have hterm : ∀ v t (j : Fin k), (∑ b, if y b = j.1 then stopsAt g.W.dense (atLabels g.W.dense m tau) v b t else 0) =
      ∑ b, stopsAt g.W.dense (atLabels g.W.dense m tau) v b t * Y b j := fun v t j => by
    refine Finset.sum_congr rfl fun b _ => ?_
    by_cases hb : m b = true
    · rw [hval, if_pos hb]
      by_cases hj : y b = j.1
      · rw [if_pos hj, if_pos hj.symm, mul_one]
      · rw [if_neg hj, if_neg (Ne.symm hj), mul_zero]
    · have : stopsAt g.W.dense (atLabels g.W.dense m tau) v b t = 0 := by
        unfold stopsAt atLabels
        rw [if_neg hb, mul_zero]
      rw [this]
      simp
  have hreg : ∃ X, regression2 cg s.L Y m tau = .ok X ∧ ∀ j, regression1 cg false s.L (fun v => Y v j) m tau = .ok fun v => X v j := by
    by_cases ht : tau ≤ 0
    · rw [hL]
      have hpart : ∀ j, ∃ part, solveUnlabelled (combLap g.W.dense) m (fun v => Y v j) = .ok part := fun j =>
        solveUnlabelled_comb hW ha hu _
      choose part hpart using hpart
      have hseq : seqFin k (fun j => solveUnlabelled (combLap g.W.dense) m fun v => Y v j) = .ok part := by
        rw [seqFin_ok]; exact hpart
      refine ⟨fun v j => fill false m (fun v => Y v j) (part j) v, ?_, fun j => ?_⟩
      · unfold regression2
        rw [if_neg (not_lt.2 ht), dif_pos rfl]
        simp only [Fin.cast_eq_self]
        rw [if_neg (by omega), hseq]
        simp only
        rw [if_neg (by omega)]
      · rw [regression1_nonpos _ _ _ _ _ ht, hpart j]
    · push Not at ht
      refine ⟨fun v j => cg (penalised s.L m tau) (mask m fun v => Y v j) v, ?_, fun j => ?_⟩
      · unfold regression2
        rw [if_pos ht, dif_pos rfl]
        rfl
      · unfold regression1
        rw [if_pos ht, dif_pos rfl]
        rfl
  obtain ⟨X, h1, h2⟩ := hreg
  refine ⟨k, X, classification_eq cg _ y m tau hY h1, fun v j => ?_⟩
  simp only [hterm]
  exact C134_regression h hl ha hcg (h2 j) v

/-- **C134** The commute time: the walk from `a` to `b` and back takes on average the resistance between `a` and `b` times the sum of the degrees. -/
theorem C134_commute (h : Ready S g s) (hl : s.lapType = .combinatorial) (hcon : Connected g.W.dense)
    {pinv : Matrix (Fin n) (Fin n) ℝ → Matrix (Fin n) (Fin n) ℝ} (hp : ∀ A, Aᵀ = A → IsPinv A (pinv A)) {R : Matrix (Fin n) (Fin n) ℝ}
    (hR : resistanceDistance pinv s = .ok R) (a b : Fin n) :
    ∃ t t', MeanTime g.W.dense a b t ∧ MeanTime g.W.dense b a t' ∧ t + t' = (∑ v, wdeg g.W.dense v) * R a b := by
  classical
  have hM := h.nonneg
  obtain ⟨hist, hs⟩ := h.reached
  obtain ⟨R', hR', hres⟩ := C55_effective_resistance h.sound h.built hist hs hl hM hcon hp
  obtain rfl : R = R' := Except.ok.inj (hR.symm.trans hR')
  set M := g.W.dense
  have hrule : ∀ b : Fin n, Rule M (onArrival (· = b)) := fun b => rule_arrival fun v => ⟨b, rfl, hcon v b⟩
  have key : ∀ b : Fin n, ∃ x : Fin n → ℝ, (∀ v, MeanTime M v b (x v)) ∧ x b = 0 ∧
      ∀ v, (combLap M *ᵥ x) v = wdeg M v - (if v = b then ∑ u, wdeg M u else 0) := by
    intro b
    obtain ⟨x, hx⟩ := exists_solution hM (hrule b) fun w => 1 - onArrival (· = b) w
    have hxb : x b = 0 := by
      have := hx b
      rw [goOn_mulVec] at this
      simpa [onArrival] using this
    have hout : ∀ v, v ≠ b → (combLap M *ᵥ x) v = wdeg M v := fun v hv => by
      have h1 := hx v
      rw [goOn_mulVec] at h1
      simp only [onArrival, if_neg hv, sub_zero, one_mul] at h1
      rw [combLap_mulVec]
      simp only [mul_sub, Finset.sum_sub_distrib]
      rw [← Finset.sum_mul, sum_wsym, ← deg_step_sum hM, ← mul_sub, h1]
      ring
    refine ⟨x, fun v => ?_, hxb, fun v => ?_⟩
    · have := hasSum hM (hrule b) hx v
      unfold MeanTime
      convert this using 1
      funext t
      exact keeps_eq v t
    · by_cases hv : v = b
      · subst hv
        have h1 := sum_combLap_mulVec M x
        rw [← Finset.add_sum_erase _ _ (Finset.mem_univ v)] at h1
        rw [if_pos rfl, ← Finset.add_sum_erase _ (fun u => wdeg M u) (Finset.mem_univ v)]
        rw [Finset.sum_congr rfl fun u hu => hout u (Finset.ne_of_mem_erase hu)] at h1
        linarith
      · rw [if_neg hv, sub_zero, hout v hv]
  obtain ⟨x, hx, hx0, hxL⟩ := key b
  obtain ⟨z, hz, hz0, hzL⟩ := key a
  refine ⟨x a, z b, hx a, hz b, ?_⟩
  obtain ⟨⟨u, hu⟩, hall⟩ := hres a b
  have hr := hall u hu
  have hker : combLap M *ᵥ (x - z - (∑ v, wdeg M v) • u) = 0 := by
    funext v
    rw [Matrix.mulVec_sub, Matrix.mulVec_sub, Matrix.mulVec_smul, Pi.sub_apply, Pi.sub_apply, Pi.smul_apply, hxL, hzL, smul_eq_mul,
      combLap_mulVec M u, hu v, Pi.zero_apply]
    split <;> split <;> ring
  have h1 := combLap_ker hM hcon hker a b
  simp only [Pi.sub_apply, Pi.smul_apply, smul_eq_mul, hx0, hz0] at h1
  rw [← hr]
  linarith

/-- **C134** The escape probability: the walk that leaves `a` reaches `b` before it comes back to `a` with probability `1 / (d_a R_ab)`. -/
theorem C134_escape (h : Ready S g s) (hl : s.lapType = .combinatorial) (hcon : Connected g.W.dense)
    {pinv : Matrix (Fin n) (Fin n) ℝ → Matrix (Fin n) (Fin n) ℝ} (hp : ∀ A, Aᵀ = A → IsPinv A (pinv A)) {R : Matrix (Fin n) (Fin n) ℝ}
    (hR : resistanceDistance pinv s = .ok R) {a b : Fin n} (hab : a ≠ b) :
    HasSum (fun t => ∑ w, step g.W.dense a w * stopsAt g.W.dense (onArrival fun v => v = a ∨ v = b) w b t) (1 / (wdeg g.W.dense a * R a b)) := by
  classical
  have hM := h.nonneg
  obtain ⟨hist, hs⟩ := h.reached
  obtain ⟨R', hR', hres⟩ := C55_effective_resistance h.sound h.built hist hs hl hM hcon hp
  obtain rfl : R = R' := Except.ok.inj (hR.symm.trans hR')
  have hpos : 0 < R a b := (C55_metric hM hcon R hres a b a).2.2.1 hab
  set M := g.W.dense
  obtain ⟨⟨u, hu⟩, hall⟩ := hres a b
  have hr := hall u hu
  set B : Fin n → Prop := fun v => v = a ∨ v = b with hBdef
  have hB : ∀ v, ∃ c, B c ∧ Linked M v c := fun v => ⟨b, .inr rfl, hcon v b⟩
  set x : Fin n → ℝ := fun v => (u a - u v) / R a b with hxdef
  have hxL : ∀ v, (combLap M *ᵥ x) v = ((if v = b then 1 else 0) - if v = a then 1 else 0) / R a b := fun v => by
    rw [combLap_mulVec]
    have e : ∑ j, wsym M v j * (x v - x j) = - (∑ j, wsym M v j * (u v - u j)) / R a b := by
      rw [← Finset.sum_neg_distrib, Finset.sum_div]
      exact Finset.sum_congr rfl fun j _ => by simp only [hxdef]; ring
    rw [e, hu v]
    ring
  have hhit := hit hM hB (x := x) fun v hv => by
    have : v ≠ a ∧ v ≠ b := not_or.1 hv
    rw [hxL, if_neg this.1, if_neg this.2]
    simp
  have hxa : x a = 0 := by simp [hxdef]
  have hxb : x b = 1 := by simp only [hxdef]; rw [hr, div_self hpos.ne']
  have hone : ∀ w t, ∑ c, stopsAt M (onArrival B) w c t * x c = stopsAt M (onArrival B) w b t := fun w t => by
    rw [Finset.sum_eq_single b]
    · rw [hxb, mul_one]
    · intro c _ hc
      by_cases hca : c = a
      · rw [hca, hxa, mul_zero]
      · have : ¬ B c := not_or.2 ⟨hca, hc⟩
        simp [stopsAt, onArrival, this]
    · simp
  simp only [hone] at hhit
  have hda := deg_ne (B := (· = b)) hM ⟨b, rfl, hcon a b⟩ hab
  have hval : ∑ w, step M a w * x w = 1 / (wdeg M a * R a b) := by
    have h1 := hxL a
    rw [combLap_mulVec, hxa, if_pos rfl, if_neg hab] at h1
    simp only [zero_sub, mul_neg, Finset.sum_neg_distrib] at h1
    rw [← deg_step_sum hM] at h1
    have h2 : wdeg M a * ∑ w, step M a w * x w = 1 / R a b := by
      rw [neg_div, neg_inj] at h1
      exact h1
    rw [mul_comm (wdeg M a) (R a b), ← div_div, eq_div_iff hda, mul_comm, h2]
  rw [← hval]
  exact hasSum_sum fun w _ => (hhit w).mul_left _

section Kron

variable {k : ℕ} {ind : Fin k → Fin n}

/-- **C134** The weights of the Kron reduction: the degree of the first vertex times the probability that the next kept vertex
visited by the walk is the second one. -/
theorem C134_kron (h : Ready S g s) (hl : s.lapType = .combinatorial) (hu : Undirected g.W.dense) (hi : Function.Injective ind)
    (hk : 2 ≤ k) (he : ∃ v, ∀ a, ind a ≠ v) (ha : ∀ v, ∃ a, Linked g.W.dense v (ind a)) {R : Type} (c : Coords n R) (hcm : c ≠ .missing) :
    ∃ (g' : Graph k ℝ) (c' : Coords k R), kronGraph s c ind = .ok (g', c') ∧ ∀ a b, a ≠ b → ∃ p,
      HasSum (fun t => ∑ w, step g.W.dense (ind a) w * stopsAt g.W.dense (onArrival fun v => ∃ c, ind c = v) w (ind b) t) p ∧
        g'.W.dense a b = wdeg g.W.dense (ind a) * p := by
  classical
  have hM := h.nonneg
  obtain ⟨hist, hs⟩ := h.reached
  obtain ⟨hsch, g', ⟨c', hg', -⟩, hb', -, hu', -, -, hL'⟩ := kronGraph_core h.sound h.built hist hs hl hu hM hi hk he ha c hcm
  refine ⟨g', c', hg', fun a b hab => ?_⟩
  set M := g.W.dense
  obtain ⟨x, hx, hx0⟩ := hsch.extend (Pi.single b 1)
  have hhit := hit hM (B := fun v => ∃ c, ind c = v) (fun v => by obtain ⟨a, h⟩ := ha v; exact ⟨ind a, ⟨a, rfl⟩, h⟩) (x := x)
    fun v hv => hx0 v ((kept_false_iff ind v).2 fun c hc => hv ⟨c, hc⟩)
  have hone : ∀ w t, ∑ c, stopsAt M (onArrival fun v => ∃ c, ind c = v) w c t * x c = stopsAt M (onArrival fun v => ∃ c, ind c = v) w (ind b) t := fun w t => by
    rw [Finset.sum_eq_single (ind b)]
    · rw [hx, Pi.single_eq_same, mul_one]
    · intro c _ hc
      by_cases hca : ∃ d, ind d = c
      · obtain ⟨d, rfl⟩ := hca
        rw [hx, Pi.single_eq_of_ne (fun h => hc (by rw [h])), mul_zero]
      · simp [stopsAt, onArrival, hca]
    · simp
  simp only [hone] at hhit
  refine ⟨∑ w, step M (ind a) w * x w, hasSum_sum fun w _ => (hhit w).mul_left _, ?_⟩
  have h1 := hsch.restrict x hx0 a
  have e : (fun a => x (ind a)) = Pi.single b 1 := funext hx
  have hxa : x (ind a) = 0 := by rw [hx, Pi.single_eq_of_ne hab]
  rw [e, Matrix.mulVec_single_one, combLap_mulVec, hxa, ← hL'] at h1
  simp only [zero_sub, mul_neg, Finset.sum_neg_distrib] at h1
  rw [← deg_step_sum hM] at h1
  have h2 : (combLap g'.W.dense).col b a = - g'.W.dense a b := by
    show combLap g'.W.dense a b = _
    simp only [combLap, Matrix.of_apply, if_neg hab, wsym, hu' b a]
    ring
  rw [h2] at h1
  linarith

end Kron

/-- On the path with four vertices whose ends carry the labels 0 and 1: the walk from the second vertex stops at either end, the regression with any
`tau` is its expected label, the classification its law, and the commute time between the ends is 6 times the resistance. -/
example (tau : ℝ) : ∃ (S : Solvers 4) (g : Graph 4 ℝ) (s : GState 4) (cg : Matrix (Fin 4) (Fin 4) ℝ → (Fin 4 → ℝ) → Fin 4 → ℝ)
    (pinv : Matrix (Fin 4) (Fin 4) ℝ → Matrix (Fin 4) (Fin 4) ℝ) (R : Matrix (Fin 4) (Fin 4) ℝ) (x : Fin 4 → ℝ) (k : ℕ) (X : Fin 4 → Fin k → ℝ) (t t' : ℝ),
    g.W.dense = path4 ∧ resistanceDistance pinv s = .ok R ∧ regression1 cg false s.L ![0, 0, 0, 1] ends tau = .ok x ∧
    HasSum (fun t => ∑ b, stopsAt path4 (atLabels path4 ends tau) 1 b t) 1 ∧
    HasSum (fun t => ∑ b, stopsAt path4 (atLabels path4 ends tau) 1 b t * ![0, 0, 0, 1] b) (x 1) ∧
    classification cg s.L (fun v => ((![0, 0, 0, 1] : Fin 4 → ℕ) v : ℤ)) ends tau = .ok ⟨k, X⟩ ∧
    MeanTime path4 0 3 t ∧ MeanTime path4 3 0 t' ∧ t + t' = 6 * R 0 3 := by
  obtain ⟨S, g, s, hd, hr, hl, -⟩ := exists_ready path4 path4_nonneg (by norm_num)
  obtain ⟨cg, hcg⟩ := exists_cg 4
  obtain ⟨pinv, hp⟩ := exists_pinv 4
  obtain ⟨hist, hs⟩ := hr.reached
  have ha : Anchored g.W.dense ends := by rw [hd]; exact path4_anchored
  have hcon : Connected g.W.dense := by rw [hd]; exact path4_connected
  obtain ⟨R, hR, -⟩ := C55_effective_resistance hr.sound hr.built hist hs hl hr.nonneg hcon hp
  obtain ⟨x, hx⟩ : ∃ x, regression1 cg false s.L ![0, 0, 0, 1] ends tau = .ok x := by
    by_cases ht : tau ≤ 0
    · obtain ⟨x, hx, -⟩ := C58_interpolation hr.sound hr.built hist hs hr.nonneg hl cg ![0, 0, 0, 1] ends ha ⟨1, rfl⟩ ht
      exact ⟨x, hx⟩
    · obtain ⟨x, hx, -⟩ := C59_minimises hr.sound hr.built hist hs hr.nonneg hcg false ![0, 0, 0, 1] ends (not_le.1 ht)
      exact ⟨x, hx⟩
  obtain ⟨k, X, hX, -⟩ := C134_classification (tau := tau) hr hl ha hcg ![0, 0, 0, 1] ⟨1, rfl⟩ ⟨3, rfl, by simp⟩
  obtain ⟨t, t', h1, h2, h3⟩ := C134_commute hr hl hcon hp hR 0 3
  have h4 := C134_regression hr hl ha hcg hx 1
  rw [hd] at h1 h2 h3 h4
  refine ⟨S, g, s, cg, pinv, R, x, k, X, t, t', hd, hR, hx, (C134_walk_stops path4_nonneg path4_anchored 1).2, h4, hX, h1, h2, ?_⟩
  rw [h3]
  congr 1
  simp [wdeg, path4, Fin.sum_univ_four]
  norm_num

/-- Keeping the ends of the path and the second vertex: the new weight between the second vertex and the last one is its degree, 2, times the
probability to reach the last vertex before coming back. -/
example : ∃ (S : Solvers 4) (g : Graph 4 ℝ) (s : GState 4) (g' : Graph 3 ℝ) (c' : Coords 3 ℝ) (p : ℝ), g.W.dense = path4 ∧
    kronGraph s (.rows fun _ => (0 : ℝ)) ![0, 1, 3] = .ok (g', c') ∧
    HasSum (fun t => ∑ w, step path4 1 w * stopsAt path4 (onArrival fun v => ∃ c, (![0, 1, 3] : Fin 3 → Fin 4) c = v) w 3 t) p ∧
    g'.W.dense 1 2 = 2 * p := by
  obtain ⟨S, g, s, hd, hr, hl, -⟩ := exists_ready path4 path4_nonneg (by norm_num)
  obtain ⟨g', c', h1, h2⟩ := C134_kron (ind := ![0, 1, 3]) hr hl (by
      rw [hd]; intro i j; fin_cases i <;> fin_cases j <;> simp [path4]) (by decide) (by norm_num) ⟨2, by decide⟩
    (fun v => ⟨0, by rw [hd]; exact path4_connected _ _⟩) (.rows fun _ => (0 : ℝ)) (by simp)
  obtain ⟨p, h3, h4⟩ := h2 1 2 (by decide)
  rw [hd] at h3 h4
  refine ⟨S, g, s, g', c', p, hd, h1, h3, ?_⟩
  rw [h4]
  congr 1
  simp [wdeg, path4, Fin.sum_univ_four]
  norm_num

end PyGSP
