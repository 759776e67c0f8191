import Verif.Lemmas.Lip
import Verif.Props.Continuity
import Verif.Props.ChebError

/-!
# C101: with every built-in design but Rectangular, Chebyshev filtering converges to exact filtering

All the designs are Lipschitz functions of the frequency on `[0, lmax]`, also those that are defined piecewise, and the complements
`√(1 - g²)`; so the error of the Chebyshev method is `O(1 / √order)`.
-/

namespace PyGSP

open Matrix Spec GState Polynomial Real Design

open scoped ContDiff

variable {n : ℕ}

/-- On `[0, l]`, the bank evaluates each of its filters as a Lipschitz function of the frequency. -/
def Bank.LipOn (f : Bank) (l : ℝ) : Prop :=
  ∃ φ : Fin f.Nf → ℝ → ℝ, (∀ i, LipB l (φ i)) ∧
    ∀ (k : ℕ) (x : Fin k → ℝ), 0 < k → (∀ j, x j ∈ Set.Icc 0 l) → f.evaluate x = .ok fun i j => φ i (x j)

/-! ### from Lipschitz to convergence -/

section

variable {S : Solvers n} (hS : Sound S) {g : Graph n ℝ} (hg : g.Built) (hist : List (Op n)) {s : GState n}
  (hs : s = runAll S hist (GState.ofGraph g)) (hW : NonnegW g.W.dense) (hn : 0 < n) (hk : Known s.lapType)
  (hcomplete : ∀ b, s.basis = some b → b.k = n) {l : ℝ} (h : (s.getLmax S).1 = .ok (some (.fin l))) (hl : 0 < l)
  (hbound : ∀ v, IsEigenvalue s.L v → v ≤ l)

include hS hg hist hs hW hn hk hcomplete h hl hbound

theorem chebWithin_of_evaluate (f : Bank) (hf : f.Nf ≠ 0) (k : Fin f.Nf → ℝ → ℝ)
    (hp : ∀ (m : ℕ) (x : Fin m → ℝ), 0 < m → (∀ j, x j ∈ Set.Icc 0 l) → f.evaluate x = .ok fun i j => k i (x j)) {order : ℕ} (ho : order ≠ 0) {ε : ℝ}
    (hε : ∀ i (q : ℝ[X]), q.natDegree ≤ order → (∀ j, q.eval (chebNode l (order + 1) j) = k i (chebNode l (order + 1) j)) →
      ∀ x ∈ Set.Icc 0 l, |q.eval x - k i x| ≤ ε) (x : Fin n → ℝ) : ChebWithin S f order s x ε := by
  obtain ⟨B, hb, hbk, he⟩ := GState.complete_basis hS hg hist hs hW hn hk hcomplete
  obtain ⟨hi', hWs, -⟩ := reach_inv hS hg hist
  rw [← hs] at hi' hWs
  have hpsd := hi'.psd (show NonnegW s.W.dense by rw [hWs]; exact hW)
  have hq : ∃ q : Fin f.Nf → ℝ[X], (∀ i, (q i).natDegree ≤ order) ∧ ∀ i (j : Fin (order + 1)),
      (q i).eval (chebNode l (order + 1) j) = k i (chebNode l (order + 1) j) := by
    refine ⟨fun i => Lagrange.interpolate Finset.univ (chebNode l (order + 1)) (fun j => k i (chebNode l (order + 1) j)), fun i => ?_, fun i j => ?_⟩
    · have := Lagrange.degree_interpolate_lt (s := Finset.univ) (v := chebNode l (order + 1))
        (fun j => k i (chebNode l (order + 1) j)) (Function.Injective.injOn (chebNode_injective hl.ne' _))
      rw [Finset.card_univ, Fintype.card_fin] at this
      exact Polynomial.natDegree_le_of_degree_le (Order.le_of_lt_succ (by exact_mod_cast this))
    · exact Lagrange.eval_interpolate_at_node (v := chebNode l (order + 1)) (fun j => k i (chebNode l (order + 1) j))
        (Function.Injective.injOn (chebNode_injective hl.ne' _)) (Finset.mem_univ j)
  obtain ⟨q, hq, hv⟩ := hq
  have h1 : (f.filter S (Arr.of1 x) .chebyshev order s).1 = .ok (Arr.of3 fun v (_ : Fin 1) i => (aeval s.L (q i) *ᵥ x) v).squeeze := by
    rw [Bank.filter_eq, parse_of1]
    simp only [ops_cheb_poly h hl.ne' hf ho (hp _ _ (by omega) fun j => node_mem hl _ j) q hq hv]
    rfl
  have hmain := fun hx => C28_one_signal S f s B hb hbk _ (hp _ B.e (by omega) hx) order x
  obtain ⟨kk, e, U⟩ := B
  simp only at hbk he hmain
  subst hbk
  have hmem : ∀ j, e j ∈ Set.Icc 0 l := fun j => ⟨eig_nonneg hpsd (he.isEigenvalue j), hbound _ (he.isEigenvalue j)⟩
  refine ⟨_, _, h1, hmain hmem, fun i => ?_⟩
  have hd : ∀ j, |(q i).eval (e j) - k i (e j)| ≤ ε := fun j => hε i (q i) (hq i) (fun j => hv i j) _ (hmem j)
  have hε0 : 0 ≤ ε := (abs_nonneg _).trans (hd ⟨0, hn⟩)
  have e1 : ∀ v, (aeval s.L (q i) *ᵥ x) v - (spectralOp U (fun j => k i (e j)) *ᵥ x) v =
      (spectralOp U (fun j => (q i).eval (e j) - k i (e j)) *ᵥ x) v := fun v => by
    rw [aeval_spectral he, ← Pi.sub_apply, ← Matrix.sub_mulVec]
    congr 2
    unfold spectralOp
    rw [← Matrix.sub_mul, ← Matrix.mul_sub, Matrix.diagonal_sub]
  simp only [e1]
  rw [energy_spectralOp he.orthonormal, ← energy_gft he.orthonormal x, ← sqrt_sq hε0, ← sqrt_mul (sq_nonneg _), Finset.mul_sum]
  refine sqrt_le_sqrt (Finset.sum_le_sum fun j _ => mul_le_mul_of_nonneg_right ?_ (sq_nonneg _))
  rw [← sq_abs]
  exact pow_le_pow_left₀ (abs_nonneg _) (hd j) 2

/-- A bank of Lipschitz filters: the error is at most `C / √order`. -/
theorem chebWithin_of_lip (f : Bank) (hf : f.Nf ≠ 0) (hlip : f.LipOn l) :
    ∃ C, ∀ order, 2 ≤ order → ∀ x : Fin n → ℝ, ChebWithin S f order s x (C / √order) := by
  obtain ⟨φ, hφ, hev⟩ := hlip
  choose K hK0 hK using hφ
  have hKs : ∀ i x y, 0 ≤ x → x ≤ l → 0 ≤ y → y ≤ l → |φ i x - φ i y| ≤ (∑ i, K i) * |x - y| := fun i x y a b c d =>
    (hK i x y a b c d).trans (mul_le_mul_of_nonneg_right (Finset.single_le_sum (fun i _ => hK0 i) (Finset.mem_univ i)) (abs_nonneg _))
  generalize ∑ i, K i = M at hKs
  have hM : 0 ≤ M := by
    have := hKs ⟨0, Nat.pos_of_ne_zero hf⟩ l 0 hl.le le_rfl le_rfl hl.le
    rw [sub_zero, abs_of_pos hl] at this
    exact nonneg_of_mul_nonneg_left ((abs_nonneg _).trans this) hl
  have hpi := pi_pos
  refine ⟨9 * π * M * l / 4, fun order ho x => ?_⟩
  have h1 : ChebWithin S f order s x ((1 + √(2 * (order + 1))) * (3 * π * M * l / (4 * (order + 2)))) := by
    refine chebWithin_of_evaluate hS hg hist hs hW hn hk hcomplete h hl hbound f hf φ hev (by omega) (fun i q hq hv y hy => ?_) x
    obtain ⟨r, hr, hE⟩ := jackson_lipschitz hl (f := φ i) (K := M) (fun a ha b hb => hKs i a b ha.1 ha.2 hb.1 hb.2) ho
    exact interp_best hl hq hr hv hE hy
  obtain ⟨y, z, e1, e2, e3⟩ := h1
  refine ⟨y, z, e1, e2, fun i => (e3 i).trans (mul_le_mul_of_nonneg_right ?_ (sqrt_nonneg _))⟩
  have hm : (2 : ℝ) ≤ order := by exact_mod_cast ho
  have hs0 : 0 < √(order : ℝ) := sqrt_pos.2 (by linarith)
  have hs2 : √(order : ℝ) * √(order : ℝ) = order := mul_self_sqrt (by linarith)
  have hs1 : 1 ≤ √(order : ℝ) := by rw [one_le_sqrt]; linarith
  have hs3 : √(2 * ((order : ℝ) + 1)) ≤ 2 * √(order : ℝ) := by
    rw [show (2 : ℝ) * √(order : ℝ) = √(2 ^ 2 * (order : ℝ)) by rw [sqrt_mul (by norm_num), sqrt_sq (by norm_num)]]
    exact sqrt_le_sqrt (by linarith)
  calc (1 + √(2 * ((order : ℝ) + 1))) * (3 * π * M * l / (4 * (order + 2))) ≤ (3 * √(order : ℝ)) * (3 * π * M * l / (4 * order)) := by
        refine mul_le_mul (by linarith) ?_ (by positivity) (by positivity)
        exact div_le_div_of_nonneg_left (by positivity) (by positivity) (by linarith)
    _ = (3 * √(order : ℝ)) * (3 * π * M * l / (4 * (√(order : ℝ) * √(order : ℝ)))) := by rw [hs2]
    _ = _ := by field_simp; ring

end

/-! ### the designs -/

theorem lipOn_of_kernels {f : Bank} {l : ℝ} (h : ∀ g ∈ f.kernels, ∃ φ, LipB l φ ∧ Kernel.Is g φ (Set.Icc 0 l)) : f.LipOn l := by
  choose φ h1 h2 using h
  refine ⟨fun i => φ (f.kernels.get i) (List.get_mem _ _), fun i => h1 _ _, fun k x hk hx => ?_⟩
  unfold Bank.evaluate
  exact (seqFin_ok _ _ _).2 fun i => h2 _ _ k x hk hx

theorem lipOn_withComplement {g : Kernel} {φ : ℝ → ℝ} {l : ℝ} (h1 : LipB l φ) (h2 : LipB l fun x => √(1 - φ x ^ 2)) (hg : Kernel.Is g φ (Set.Icc 0 l))
    (hb : ∀ x, φ x ^ 2 ≤ 1) : (withComplement g).LipOn l := by
  refine ⟨fun i x => if i.1 = 0 then φ x else √(1 - φ x ^ 2), fun i => ?_, fun k x hk hx => ?_⟩
  · by_cases h : i.1 = 0
    · simpa only [h, if_true] using h1
    · simpa only [h, if_false] using h2
  · obtain ⟨z, hz, h2⟩ := withComplement_tight g hk x _ (hg k x hk hx) fun j => hb _
    rw [hz]
    refine congrArg Except.ok (funext fun i => funext fun j => ?_)
    have hi : i.1 = 0 ∨ i.1 = 1 := by have := i.2; simp [withComplement, Bank.ofArg, Bank.Nf, Bank.complement] at this; omega
    rcases hi with hi | hi
    · have : i = ⟨0, hi ▸ i.2⟩ := Fin.ext hi
      rw [this]
      simpa using (h2 j).1
    · have : i = ⟨1, hi ▸ i.2⟩ := Fin.ext hi
      rw [this]
      simpa using (h2 j).2.1

theorem lip_clamp {l : ℝ} {φ : ℝ → ℝ} (h : LipB l φ) (lo hi : ℝ) : LipB l fun x => clamp lo hi (φ x) := (h.min hi).max lo

theorem lip_scaled (l c : ℝ) : LipB l fun x => x * 2 / c := (LipB.affine (l := l) (2 / c) 0).congr fun x _ _ => by ring

theorem held_lip (junk : Junk) {l : ℝ} (hl : 0 < l) {a : ℝ} (ha : 0 < a) : (held junk l a).LipOn l := by
  have hθ : LipB l fun x => 2 * π * (-1 + 24 * (clamp a (2 * a) (x * 2 / l) / 8 / a) - 144 * (clamp a (2 * a) (x * 2 / l) / 8 / a) ^ 2 +
      256 * (clamp a (2 * a) (x * 2 / l) / 8 / a) ^ 3) :=
    LipB.smooth (g := fun c => 2 * π * (-1 + 24 * (c / 8 / a) - 144 * (c / 8 / a) ^ 2 + 256 * (c / 8 / a) ^ 3)) (by fun_prop) (lip_clamp (lip_scaled l l) a (2 * a))
  exact lipOn_withComplement (hθ.smooth contDiff_sin) hθ.sqrt_sin (onEmpty_is junk fun x hx => held_clamp ha (scaled_nonneg hl hx.1)) fun x => sin_sq_le_one _

theorem papadakis_lip (junk : Junk) {l : ℝ} (hl : 0 < l) {a : ℝ} (ha : 0 < a) : (papadakis junk l a).LipOn l := by
  have e : ∀ t : ℝ, (1 - sin t) / 2 = sin (π / 4 - t / 2) ^ 2 := fun t => by
    rw [sin_sq_eq_half_sub, show 2 * (π / 4 - t / 2) = π / 2 - t by ring, cos_pi_div_two_sub]; ring
  have hθ : LipB l fun x => π / 4 - 3 * π / (2 * a) * clamp a (a * 5 / 3) (x * 2 / l) / 2 :=
    LipB.smooth (g := fun c => π / 4 - 3 * π / (2 * a) * c / 2) (by fun_prop) (lip_clamp (lip_scaled l l) a (a * 5 / 3))
  have hφ : ∀ x, √((1 - sin (3 * π / (2 * a) * clamp a (a * 5 / 3) (x * 2 / l))) / 2) = |sin (π / 4 - 3 * π / (2 * a) * clamp a (a * 5 / 3) (x * 2 / l) / 2)| :=
    fun x => by rw [e, sqrt_sq_eq_abs]
  refine lipOn_withComplement (φ := fun x => √((1 - sin (3 * π / (2 * a) * clamp a (a * 5 / 3) (x * 2 / l))) / 2)) ?_ ?_
    (onEmpty_is junk fun x hx => papadakis_clamp ha (scaled_nonneg hl hx.1)) fun x => ?_
  · exact (hθ.smooth contDiff_sin).abs.congr fun x _ _ => hφ x
  · exact hθ.sqrt_sin.congr fun x _ _ => by rw [hφ, sq_abs]
  · simp only [hφ, sq_abs]
    exact sin_sq_le_one _

theorem simoncelli_lip (junk : Junk) {l : ℝ} (hl : 0 < l) {a : ℝ} (ha : 0 < a) : (simoncelli junk l a).LipOn l := by
  have h1 : LipB l fun x => clamp a (2 * a) (x * 2 / l) / a := ((lip_clamp (lip_scaled l l) a (2 * a)).const_mul a⁻¹).congr fun x _ _ => by ring
  have h2 : LipB l fun x => log (clamp a (2 * a) (x * 2 / l) / a) :=
    LipB.log one_pos h1 fun x => by rw [one_le_div ha]; exact clamp_ge _ _ _
  have hθ : LipB l fun x => π / 2 * log (clamp a (2 * a) (x * 2 / l) / a) / log 2 := (h2.const_mul (π / 2 / log 2)).congr fun x _ _ => by ring
  exact lipOn_withComplement (hθ.smooth contDiff_cos) hθ.sqrt_cos (onEmpty_is junk fun x hx => simoncelli_clamp ha (scaled_nonneg hl hx.1)) fun x => cos_sq_le_one _

theorem regular_lip (l : ℝ) (degree : ℕ) : (regular l degree).LipOn l := by
  have hθ : ∃ θ : ℝ → ℝ, LipB l θ ∧ ∀ x, regularKernel degree (x * 2 / l) = sin (θ x) := by
    unfold regularKernel
    split
    · exact ⟨fun x => π / 4 * (x * 2 / l), (lip_scaled l l).const_mul _, fun x => rfl⟩
    · have h1 : ContDiff ℝ 1 ((fun y : ℝ => sin (π * y / 2))^[degree - 2]) := by
        induction degree - 2 with
        | zero => exact contDiff_id
        | succ m ih =>
          rw [Function.iterate_succ']
          exact (by fun_prop : ContDiff ℝ 1 fun y : ℝ => sin (π * y / 2)).comp ih
      refine ⟨_, ?_, fun x => rfl⟩
      have h2 : ContDiff ℝ 1 fun x : ℝ => π / 4 * (1 + (fun y : ℝ => sin (π * y / 2))^[degree - 2] (sin (π * (x - 1) / 2))) :=
        contDiff_const.mul (contDiff_const.add (h1.comp (by fun_prop : ContDiff ℝ 1 fun x : ℝ => sin (π * (x - 1) / 2))))
      exact LipB.smooth (g := fun x : ℝ => π / 4 * (1 + (fun y : ℝ => sin (π * y / 2))^[degree - 2] (sin (π * (x - 1) / 2)))) h2 (lip_scaled l l)
  obtain ⟨θ, h1, h2⟩ := hθ
  refine lipOn_withComplement (φ := fun x => regularKernel degree (x * 2 / l)) ?_ ?_ (pointwise_is _ _) fun x => by rw [h2]; exact sin_sq_le_one _
  · exact (h1.smooth contDiff_sin).congr fun x _ _ => h2 x
  · exact h1.sqrt_sin.congr fun x _ _ => by rw [h2]

theorem lip_slope (l a b : ℝ) : LipB l fun x => a * x + b := LipB.affine a b

theorem meyer_lip (l s : ℝ) (w : WKind) : LipB l fun x => meyerKernel (s * x) w := by
  have hv : ContDiff ℝ 1 meyerV := by unfold meyerV; fun_prop
  have h1 : LipB l fun x => meyerV (clamp 0 1 (s * x / (2 / 3) - 1)) := LipB.smooth hv (lip_clamp ((LipB.affine (s / (2 / 3)) (-1)).congr fun x _ _ => by ring) 0 1)
  have h2 : LipB l fun x => meyerV (clamp 0 1 (s * x / (4 / 3) - 1)) := LipB.smooth hv (lip_clamp ((LipB.affine (s / (4 / 3)) (-1)).congr fun x _ _ => by ring) 0 1)
  cases w
  · simp only [meyer_scaling_clamp]; exact LipB.smooth contDiff_cos (h1.const_mul _)
  · simp only [meyer_wavelet_clamp]
    exact (LipB.smooth contDiff_sin (h1.const_mul _)).mul (LipB.smooth contDiff_cos (h2.const_mul _))

theorem sqrt_one_sub_sin4 (u : ℝ) : √(1 - (sin u ^ 2) ^ 2) = |cos u| * √(1 + sin u ^ 2) := by
  rw [← sqrt_sq_eq_abs, ← sqrt_mul (sq_nonneg _), cos_sq']
  congr 1; ring

theorem lip_sin4 {l : ℝ} {θ : ℝ → ℝ} (h : LipB l θ) : LipB l fun x => √(1 - (sin (θ x) ^ 2) ^ 2) := by
  simp only [sqrt_one_sub_sin4]
  refine (h.smooth contDiff_cos).abs.mul (LipB.smooth (g := fun t => √(1 + sin t ^ 2)) ?_ h)
  exact ContDiff.sqrt (by fun_prop) fun x => by positivity

theorem simpleTight_lip (l s : ℝ) (w : WKind) : LipB l fun x => simpleTightKernel (s * x) w := by
  have h1 : LipB l fun x => π * clamp 0 1 (4 * (s * x) - 1) / 2 :=
    ((lip_clamp ((LipB.affine (4 * s) (-1)).congr (ψ := fun x => 4 * (s * x) - 1) fun x _ _ => by ring) 0 1).const_mul (π / 2)).congr fun x _ _ => by ring
  have h2 : LipB l fun x => π * clamp 0 1 (2 * (s * x) - 1) / 2 :=
    ((lip_clamp ((LipB.affine (2 * s) (-1)).congr (ψ := fun x => 2 * (s * x) - 1) fun x _ _ => by ring) 0 1).const_mul (π / 2)).congr fun x _ _ => by ring
  cases w
  · simp only [simpleTight_scaling_clamp]; exact lip_sin4 h1
  · simp only [simpleTight_wavelet_clamp]
    exact (LipB.smooth (g := fun t => sin t ^ 2) (by fun_prop) h1).mul (lip_sin4 h2)

theorem waveletBank_lip {ker : ℝ → WKind → ℝ} {l : ℝ} (hk : ∀ s w, LipB l fun x => ker (s * x) w) {Nf : ℕ} {scales : List ℝ} {f : Bank}
    (hf : waveletBank ker Nf scales = .ok f) (hN : 2 ≤ Nf) : f.LipOn l := by
  unfold waveletBank at hf
  split at hf
  · cases hf
  · rename_i h
    push Not at h
    obtain rfl := Except.ok.inj hf
    rcases scales with _ | ⟨s0, t⟩
    · simp at h; omega
    · refine lipOn_of_kernels fun g hg => ?_
      rcases List.mem_cons.1 hg with rfl | hg
      · exact ⟨fun x => ker (s0 * x) .scaling, hk _ _, fun k x _ _ => rfl⟩
      · rw [List.mem_map] at hg
        obtain ⟨s, -, rfl⟩ := hg
        exact ⟨_, hk _ _, pointwise_is _ _⟩

theorem halfCosine_clamp {d : ℝ} (hd : 0 < d) (x : ℝ) : (0.5 + 0.5 * cos (2 * π * (x / d - 0.5))) * (if x ≥ 0 then 1 else 0) * (if x ≤ d then 1 else 0) =
    0.5 + 0.5 * cos (2 * π * (clamp 0 1 (x / d) - 0.5)) := by
  have h0 : cos (2 * π * (0 - 0.5)) = -1 := by rw [show 2 * π * (0 - 0.5) = -π by ring, cos_neg, cos_pi]
  have h1 : cos (2 * π * (1 - 0.5)) = -1 := by rw [show 2 * π * (1 - 0.5) = π by ring, cos_pi]
  rcases le_total x 0 with hx | hx
  · rw [clamp_low (div_nonpos_of_nonpos_of_nonneg hx hd.le), h0]
    rcases eq_or_lt_of_le hx with rfl | hx'
    · rw [zero_div, h0]; norm_num
    · rw [if_neg (by linarith : ¬ x ≥ 0)]; norm_num
  · rcases le_total x d with hx' | hx'
    · rw [if_pos hx, if_pos hx', clamp_mid (by positivity) ((div_le_one hd).2 hx')]; ring
    · rw [clamp_high (by norm_num) ((one_le_div hd).2 hx'), h1]
      rcases eq_or_lt_of_le hx' with h | h
      · rw [← h, div_self hd.ne', h1]; norm_num
      · rw [if_neg (by linarith : ¬ x ≤ d)]; norm_num

theorem halfCosine_lip {l : ℝ} (hl : 0 < l) {Nf : ℕ} {f : Bank} (hf : halfCosine l Nf = .ok f) : f.LipOn l := by
  unfold halfCosine at hf
  split at hf
  · cases hf
  · rename_i hN
    obtain rfl := Except.ok.inj hf
    have hd : 0 < l * 3 / (Nf - 2 : ℝ) := by
      have : (2 : ℝ) < Nf := by exact_mod_cast not_le.1 hN
      have : 0 < (Nf : ℝ) - 2 := by linarith
      positivity
    generalize l * 3 / (Nf - 2 : ℝ) = d at hd
    refine lipOn_of_kernels fun g hg => ?_
    obtain ⟨i, -, rfl⟩ := List.mem_map.1 hg
    refine ⟨_, ?_, pointwise_is _ _⟩
    simp only [halfCosine_clamp hd]
    exact LipB.smooth (g := fun c => 0.5 + 0.5 * cos (2 * π * (c - 0.5))) (by fun_prop)
      (lip_clamp ((LipB.affine (1 / d) (-(d / 3 * ((i : ℝ) - 2)) / d)).congr fun x _ _ => by ring) 0 1)

theorem itersine_clamp (x : ℝ) : sin (0.5 * π * cos (x * π) ^ 2) * (if x ≥ -0.5 ∧ x ≤ 0.5 then 1 else 0) = sin (0.5 * π * cos (clamp (-0.5) 0.5 x * π) ^ 2) := by
  have h0 : cos (-0.5 * π) = 0 := by rw [show -0.5 * π = -(π / 2) by ring, cos_neg, cos_pi_div_two]
  have h1 : cos (0.5 * π) = 0 := by rw [show 0.5 * π = π / 2 by ring, cos_pi_div_two]
  rcases le_total x (-0.5) with hx | hx
  · rw [clamp_low hx, h0]
    rcases eq_or_lt_of_le hx with rfl | hx'
    · rw [h0]; norm_num
    · rw [if_neg (by intro h; linarith [h.1])]; norm_num
  · rcases le_total x 0.5 with hx' | hx'
    · rw [if_pos ⟨hx, hx'⟩, clamp_mid hx hx', mul_one]
    · rw [clamp_high (by norm_num) hx', h1]
      rcases eq_or_lt_of_le hx' with rfl | h
      · rw [h1]; norm_num
      · rw [if_neg (by intro h'; linarith [h'.2])]; norm_num

theorem itersine_lip (l : ℝ) (Nf overlap : ℕ) : (itersine l Nf overlap).LipOn l := by
  unfold itersine
  refine lipOn_of_kernels fun g hg => ?_
  obtain ⟨i, -, rfl⟩ := List.mem_map.1 hg
  refine ⟨_, ?_, pointwise_is _ _⟩
  simp only [itersine_clamp]
  exact (LipB.smooth (g := fun c => sin (0.5 * π * cos (c * π) ^ 2) * √(2 / overlap)) (by fun_prop)
    (lip_clamp ((LipB.affine (1 / (l / (Nf - overlap + 1 : ℝ) * overlap)) (-(((i : ℝ) - overlap / 2) / overlap))).congr
      (ψ := fun x => x / (l / (Nf - overlap + 1 : ℝ) * overlap) - ((i : ℝ) - overlap / 2) / overlap) fun x _ _ => by ring) (-0.5) 0.5))

theorem heat_lip (l : ℝ) (scale : List ℝ) (normalize : Option (Σ k, Fin k → ℝ)) : (heat l scale normalize).LipOn l := by
  refine lipOn_of_kernels fun g hg => ?_
  have key : ∀ s c : ℝ, LipB l fun x => heatKernel l s x / c := fun s c => by
    unfold heatKernel
    refine (((LipB.of_smooth (by fun_prop : ContDiff ℝ 1 fun x : ℝ => exp (-s * x / l))).min 1).const_mul c⁻¹).congr fun x _ _ => ?_
    rw [min_comm]; ring
  obtain ⟨s, -, rfl⟩ := List.mem_map.1 hg
  exact ⟨_, key s _, pointwise_is _ _⟩

theorem mexicanHat_lip {l : ℝ} {Nf : ℕ} {lpfactor : ℝ} {scales : Option (List ℝ)} {normalize : Bool} {f : Bank}
    (hf : mexicanHat l Nf lpfactor scales normalize = .ok f) : f.LipOn l := by
  unfold mexicanHat at hf
  simp only at hf
  split at hf
  · cases hf
  · obtain rfl := Except.ok.inj hf
    refine lipOn_of_kernels fun g hg => ?_
    rcases List.mem_cons.1 hg with rfl | hg
    · exact ⟨_, LipB.of_smooth (by fun_prop), pointwise_is _ _⟩
    · obtain ⟨s, -, rfl⟩ := List.mem_map.1 hg
      exact ⟨_, LipB.of_smooth (by fun_prop), pointwise_is _ _⟩

theorem gb_clamp (x : ℝ) : absplineGb x = min 1 x ^ 2 + (-5 + 11 * clamp 1 2 x - 6 * clamp 1 2 x ^ 2 + clamp 1 2 x ^ 3) + exp (2 * log 2 - 2 * log (max 2 x)) - 2 := by
  obtain ⟨h1, h2, h3, -⟩ := C50_abspline_kernel
  rcases le_total x 1 with hx | hx
  · rw [h1 x hx, clamp_low hx, min_eq_right hx, max_eq_left (by linarith), sub_self, exp_zero]; ring
  · rcases le_total x 2 with hx' | hx'
    · rw [h3 x hx hx', clamp_mid hx hx', min_eq_left hx, max_eq_left hx', sub_self, exp_zero]; ring
    · rw [h2 x hx', clamp_high (by norm_num) hx', min_eq_left hx, max_eq_right hx']
      have hx0 : 0 < x := by linarith
      rw [← mul_sub, ← log_div (by norm_num) hx0.ne', show 2 * log (2 / x) = log (2 / x) + log (2 / x) by ring, exp_add, exp_log (by positivity)]
      ring

theorem gb_lip (l s : ℝ) : LipB l fun x => absplineGb (s * x) := by
  simp only [gb_clamp]
  have h0 : LipB l fun x => s * x := (LipB.affine s 0).congr fun x _ _ => by ring
  have h1 : LipB l fun x => min 1 (s * x) ^ 2 := LipB.smooth (g := fun c => c ^ 2) (by fun_prop) (h0.min 1)
  have h2 : LipB l fun x => -5 + 11 * clamp 1 2 (s * x) - 6 * clamp 1 2 (s * x) ^ 2 + clamp 1 2 (s * x) ^ 3 :=
    LipB.smooth (g := fun c => -5 + 11 * c - 6 * c ^ 2 + c ^ 3) (by fun_prop) (lip_clamp h0 1 2)
  have h3 : LipB l fun x => exp (2 * log 2 - 2 * log (max 2 (s * x))) :=
    LipB.smooth (g := fun c => exp (2 * log 2 - 2 * c)) (by fun_prop) (LipB.log (by norm_num : (0 : ℝ) < 2) (h0.max 2) fun x => le_max_left _ _)
  exact (((h1.add h2).add h3).add (LipB.const (-2))).congr fun x _ _ => by ring

theorem abspline_lip (xstar l : ℝ) {Nf : ℕ} (lpfactor : ℝ) {scales : List ℝ} (hN : Nf ≤ scales.length + 1) : (abspline xstar l Nf lpfactor (some scales)).LipOn l := by
  refine lipOn_of_kernels fun g hg => ?_
  rcases List.mem_cons.1 hg with rfl | hg
  · exact ⟨_, LipB.of_smooth (by fun_prop), pointwise_is _ _⟩
  · obtain ⟨i, hi, rfl⟩ := List.mem_map.1 hg
    have hi' : i < scales.length := by rw [List.mem_range] at hi; omega
    simp only [Option.getD_some, List.getElem?_eq_getElem hi']
    exact ⟨_, gb_lip l _, pointwise_is _ _⟩

theorem wave_lip {l : ℝ} (hl : 0 < l) {time speed : List ℝ} (hv : ∀ v ∈ speed, -2 < v) {f : Bank} (hf : wave l time speed = .ok f) : f.LipOn l := by
  unfold wave at hf
  rcases hb : broadcast time speed with e | ⟨t, v⟩
  · rw [hb] at hf; cases hf
  · rw [hb] at hf
    simp only at hf
    split at hf
    · cases hf
    · rename_i h2
      obtain rfl := Except.ok.inj hf
      have hv' : ∀ s ∈ v, s ∈ speed := by
        unfold broadcast at hb
        split at hb
        · split at hb
          · obtain ⟨rfl, rfl⟩ := Prod.mk.inj (Except.ok.inj hb)
            intro s hs
            rw [List.eq_of_mem_replicate hs]; simp
          · obtain ⟨rfl, rfl⟩ := Prod.mk.inj (Except.ok.inj hb)
            exact fun _ h => h
          · cases hb
        · obtain ⟨rfl, rfl⟩ := Prod.mk.inj (Except.ok.inj hb)
          exact fun _ h => h
      refine lipOn_of_kernels fun g hg => ?_
      obtain ⟨p, hp, rfl⟩ := List.mem_map.1 hg
      have hp2 := (List.of_mem_zip hp).2
      have a1 := hv _ (hv' _ hp2)
      have a2 : p.2 < 2 := by
        by_contra h
        exact h2 (List.any_eq_true.2 ⟨p.2, hp2, by simpa using not_lt.1 h⟩)
      have hq : p.2 ^ 2 < 4 := by nlinarith
      have hy : ∀ x, 0 ≤ x → x ≤ l → -1 + (2 - p.2 ^ 2 / 2) ≤ 1 - p.2 ^ 2 * x / l / 2 ∧ 1 - p.2 ^ 2 * x / l / 2 ≤ 1 := fun x hx0 hx1 => by
        have h0 : 0 ≤ x / l := div_nonneg hx0 hl.le
        have h1 : x / l ≤ 1 := (div_le_one hl).2 hx1
        have e : p.2 ^ 2 * x / l / 2 = p.2 ^ 2 * (x / l) / 2 := by ring
        rw [e]
        constructor
        · nlinarith [mul_le_mul_of_nonneg_left h1 (sq_nonneg p.2)]
        · nlinarith [mul_nonneg (sq_nonneg p.2) h0]
      refine ⟨fun x => cos (p.1 * arccos (1 - p.2 ^ 2 * x / l / 2)), ?_, orNaN_is fun x hx => ?_⟩
      · exact LipB.cos_arccos p.1 (δ := 2 - p.2 ^ 2 / 2) (by linarith) ((LipB.affine (-(p.2 ^ 2 / l / 2)) 1).congr fun x _ _ => by ring) hy
      · unfold waveKernel
        simp only
        have := hy x hx.1 hx.2
        rw [if_pos]
        exact ⟨by linarith [this.1], this.2⟩

theorem expwin_lip (l : ℝ) (lo hi : Option ℝ) {slope : ℝ} (hs : 0 < slope) : (expwin l lo hi slope).LipOn l := by
  have hsm : ContDiff ℝ 1 (expwinH slope) := (expwin_smooth hs).of_le (by norm_cast)
  refine lipOn_of_kernels fun g hg => ?_
  obtain rfl := List.mem_singleton.1 hg
  refine ⟨_, ?_, pointwise_is _ _⟩
  have hlow : ∀ b, LipB l fun x => expwinH slope (0.5 - x / l + b) := fun b =>
    LipB.smooth hsm ((LipB.affine (-(1 / l)) (0.5 + b)).congr fun x _ _ => by ring)
  have hhigh : ∀ b, LipB l fun x => expwinH slope (0.5 + x / l - b) := fun b =>
    LipB.smooth hsm ((LipB.affine (1 / l) (0.5 - b)).congr fun x _ _ => by ring)
  rcases lo with _ | lo <;> rcases hi with _ | hi
  · exact LipB.const 1
  · exact hlow hi
  · exact hhigh lo
  · exact (hlow hi).mul (hhigh lo)

/-- The banks built by the designs of `pygsp.filters` on a graph whose `lmax` is `l`: every class but `Rectangular` (discontinuous), and but `Gabor` and
`Modulation`, which are not evaluated at arbitrary frequencies. -/
inductive BuiltIn (l : ℝ) : Bank → Prop
  | held (junk : Junk) {a : ℝ} (ha : 0 < a) : BuiltIn l (held junk l a)
  | papadakis (junk : Junk) {a : ℝ} (ha : 0 < a) : BuiltIn l (papadakis junk l a)
  | simoncelli (junk : Junk) {a : ℝ} (ha : 0 < a) : BuiltIn l (simoncelli junk l a)
  | regular (degree : ℕ) : BuiltIn l (regular l degree)
  | meyer {Nf : ℕ} (hN : 2 ≤ Nf) (scales : Option (List ℝ)) {f : Bank} (hf : meyer l Nf scales = .ok f) : BuiltIn l f
  | simpleTight {Nf : ℕ} (hN : 2 ≤ Nf) (scales : Option (List ℝ)) {f : Bank} (hf : simpleTight l Nf scales = .ok f) : BuiltIn l f
  | halfCosine {Nf : ℕ} {f : Bank} (hf : halfCosine l Nf = .ok f) : BuiltIn l f
  | itersine {Nf : ℕ} (hN : Nf ≠ 0) (overlap : ℕ) : BuiltIn l (itersine l Nf overlap)
  | heat {scale : List ℝ} (hs : scale ≠ []) (normalize : Option (Σ k, Fin k → ℝ)) : BuiltIn l (heat l scale normalize)
  | mexicanHat {Nf : ℕ} {lpfactor : ℝ} {scales : Option (List ℝ)} {normalize : Bool} {f : Bank} (hf : mexicanHat l Nf lpfactor scales normalize = .ok f) : BuiltIn l f
  | abspline (xstar : ℝ) {Nf : ℕ} (lpfactor : ℝ) {scales : List ℝ} (hN : Nf ≤ scales.length + 1) : BuiltIn l (abspline xstar l Nf lpfactor (some scales))
  | absplineDefault (xstar : ℝ) (Nf : ℕ) (lpfactor : ℝ) : BuiltIn l (abspline xstar l Nf lpfactor none)
  | wave {time speed : List ℝ} (ht : time ≠ []) (hs : speed ≠ []) (hv : ∀ v ∈ speed, -2 < v) {f : Bank} (hf : wave l time speed = .ok f) : BuiltIn l f
  | expwin (lo hi : Option ℝ) {slope : ℝ} (hs : 0 < slope) : BuiltIn l (expwin l lo hi slope)

theorem builtIn_lip {l : ℝ} (hl : 0 < l) {f : Bank} (hf : BuiltIn l f) : f.LipOn l := by
  cases hf with
  | held junk ha => exact held_lip junk hl ha
  | papadakis junk ha => exact papadakis_lip junk hl ha
  | simoncelli junk ha => exact simoncelli_lip junk hl ha
  | regular degree => exact regular_lip l degree
  | meyer hN scales hf => exact waveletBank_lip (meyer_lip l) hf hN
  | simpleTight hN scales hf =>
    unfold Design.simpleTight at hf
    exact waveletBank_lip (simpleTight_lip l) hf hN
  | halfCosine hf => exact halfCosine_lip hl hf
  | itersine hN overlap => exact itersine_lip l _ overlap
  | heat hs normalize => exact heat_lip l _ normalize
  | mexicanHat hf => exact mexicanHat_lip hf
  | abspline xstar lpfactor hN => exact abspline_lip xstar l lpfactor hN
  | absplineDefault xstar Nf lpfactor =>
    have := abspline_lip xstar l (Nf := Nf) lpfactor (scales := logScales (l / lpfactor) l (Nf - 1) 1 2) (by unfold logScales; simp; omega)
    exact this
  | wave ht hs hv hf => exact wave_lip hl hv hf
  | expwin lo hi hs => exact expwin_lip l lo hi hs

theorem waveletBank_Nf {ker : ℝ → WKind → ℝ} {Nf : ℕ} {scales : List ℝ} {f : Bank} (hf : waveletBank ker Nf scales = .ok f) : f.Nf ≠ 0 := by
  unfold waveletBank at hf
  split at hf
  · cases hf
  · obtain rfl := Except.ok.inj hf
    simp [Bank.ofArg, Bank.Nf]

theorem builtIn_Nf {l : ℝ} {f : Bank} (hf : BuiltIn l f) : f.Nf ≠ 0 := by
  cases hf with
  | held junk ha => simp [Design.held, withComplement, Bank.ofArg, Bank.Nf]
  | papadakis junk ha => simp [Design.papadakis, withComplement, Bank.ofArg, Bank.Nf]
  | simoncelli junk ha => simp [Design.simoncelli, withComplement, Bank.ofArg, Bank.Nf]
  | regular degree => simp [Design.regular, withComplement, Bank.ofArg, Bank.Nf]
  | meyer hN scales hf =>
    exact waveletBank_Nf hf
  | simpleTight hN scales hf =>
    unfold Design.simpleTight at hf
    exact waveletBank_Nf hf
  | halfCosine hf =>
    unfold Design.halfCosine at hf
    split at hf
    · cases hf
    · obtain rfl := Except.ok.inj hf
      simp [Bank.ofArg, Bank.Nf]
      omega
  | itersine hN overlap => simpa [Design.itersine, Bank.ofArg, Bank.Nf] using hN
  | heat hs normalize => simpa [Design.heat, Bank.ofArg, Bank.Nf] using hs
  | mexicanHat hf =>
    unfold Design.mexicanHat at hf
    simp only at hf
    split at hf
    · cases hf
    · obtain rfl := Except.ok.inj hf
      simp [Bank.ofArg, Bank.Nf]
  | abspline xstar lpfactor hN => simp [Design.abspline, Bank.ofArg, Bank.Nf]
  | absplineDefault xstar Nf lpfactor => simp [Design.abspline, Bank.ofArg, Bank.Nf]
  | wave ht hs hv hf =>
    rename_i time speed
    unfold Design.wave at hf
    rcases hb : broadcast time speed with e | ⟨t, v⟩
    · rw [hb] at hf; cases hf
    · rw [hb] at hf
      simp only at hf
      split at hf
      · cases hf
      · obtain rfl := Except.ok.inj hf
        have ht' := List.length_pos_iff.2 ht
        have hs' := List.length_pos_iff.2 hs
        have : 0 < t.length ∧ 0 < v.length := by
          unfold broadcast at hb
          split at hb
          · split at hb
            · obtain ⟨rfl, rfl⟩ := Prod.mk.inj (Except.ok.inj hb)
              simp only [List.length_replicate]; omega
            · obtain ⟨rfl, rfl⟩ := Prod.mk.inj (Except.ok.inj hb)
              simp only [List.length_replicate]; omega
            · cases hb
          · obtain ⟨rfl, rfl⟩ := Prod.mk.inj (Except.ok.inj hb)
            omega
        change ((t.zip v).map _).length ≠ 0
        rw [List.length_map, List.length_zip]
        omega
  | expwin lo hi hs => simp [Design.expwin, Bank.ofArg, Bank.Nf]

/-- **C101** Every filter of every built-in design (but Rectangular) is a Lipschitz function of the frequency on `[0, lmax]`. -/
theorem C101_lipschitz {l : ℝ} (hl : 0 < l) {f : Bank} (hf : BuiltIn l f) :
    ∃ K, ∀ x y, 0 ≤ x → x ≤ l → 0 ≤ y → y ≤ l → ∃ z : Fin f.Nf → Fin 2 → ℝ, f.evaluate ![x, y] = .ok z ∧ ∀ i, |z i 0 - z i 1| ≤ K * |x - y| := by
  have : f.LipOn l := builtIn_lip hl hf
  obtain ⟨φ, hφ, hev⟩ := this
  choose K hK0 hK using hφ
  refine ⟨∑ i, K i, fun x y a b c d => ⟨_, hev 2 ![x, y] (by norm_num) (fun j => ?_), fun i => ?_⟩⟩
  · fin_cases j
    · exact ⟨a, b⟩
    · exact ⟨c, d⟩
  · exact (hK i x y a b c d).trans (mul_le_mul_of_nonneg_right (Finset.single_le_sum (fun i _ => hK0 i) (Finset.mem_univ i)) (abs_nonneg _))

section

variable {S : Solvers n} (hS : Sound S) {g : Graph n ℝ} (hg : g.Built) (hist : List (Op n)) {s : GState n}
  (hs : s = runAll S hist (GState.ofGraph g)) (hW : NonnegW g.W.dense) (hn : 0 < n) (hk : Known s.lapType)
  (hcomplete : ∀ b, s.basis = some b → b.k = n) {l : ℝ} (h : (s.getLmax S).1 = .ok (some (.fin l))) (hl : 0 < l)
  (hbound : ∀ v, IsEigenvalue s.L v → v ≤ l)

include hS hg hist hs hW hn hk hcomplete h hl hbound

/-- **C101** For every built-in design, the two methods of `filter` differ by at most `C / √order · ‖x‖`, with a constant that does not depend on the signal
nor on the order. -/
theorem C101_rate {f : Bank} (hf : BuiltIn l f) : ∃ C, ∀ order, 2 ≤ order → ∀ x : Fin n → ℝ, ChebWithin S f order s x (C / √order) :=
  chebWithin_of_lip hS hg hist hs hW hn hk hcomplete h hl hbound f (builtIn_Nf hf) (builtIn_lip hl hf)

/-- **C101** So the Chebyshev filter of a built-in design converges to the exact one when the order grows, uniformly over the signals. -/
theorem C101_convergence {f : Bank} (hf : BuiltIn l f) {ε : ℝ} (hε : 0 < ε) : ∃ m0, ∀ order, m0 ≤ order → ∀ x : Fin n → ℝ, ChebWithin S f order s x ε := by
  obtain ⟨C, hC⟩ := C101_rate hS hg hist hs hW hn hk hcomplete h hl hbound hf
  obtain ⟨m, hm⟩ := exists_nat_gt ((|C| / ε) ^ 2)
  refine ⟨m + 2, fun order ho x => ?_⟩
  obtain ⟨y, z, e1, e2, e3⟩ := hC order (by omega) x
  refine ⟨y, z, e1, e2, fun i => (e3 i).trans (mul_le_mul_of_nonneg_right ?_ (sqrt_nonneg _))⟩
  have h1 : (|C| / ε) ^ 2 ≤ order := hm.le.trans (by exact_mod_cast (by omega : m ≤ order))
  have h2 : |C| / ε ≤ √(order : ℝ) := le_sqrt_of_sq_le h1
  have h3 : (2 : ℝ) ≤ order := by exact_mod_cast (by omega : 2 ≤ order)
  have h4 : 0 < √(order : ℝ) := sqrt_pos.2 (by linarith)
  rw [div_le_iff₀ h4]
  rw [div_le_iff₀ hε] at h2
  linarith [le_abs_self C]

end

/-- The hypotheses of C101 are met: the path of four vertices, and several designs on it, among them a half-cosine bank, a Meyer bank and a wave. -/
example : ∃ (g : Graph 4 ℝ) (S : Solvers 4) (s : GState 4) (l : ℝ), g.Built ∧ Sound S ∧
    s = runAll S [.computeFourierBasis none] (GState.ofGraph g) ∧ NonnegW g.W.dense ∧ Known s.lapType ∧
    (∀ b, s.basis = some b → b.k = 4) ∧ (s.getLmax S).1 = .ok (some (.fin l)) ∧ 0 < l ∧ (∀ v, IsEigenvalue s.L v → v ≤ l) ∧
    BuiltIn l (simoncelli (fun _ _ => 0) l (2 / 3)) ∧ (∃ f, halfCosine l 6 = .ok f ∧ BuiltIn l f) ∧ (∃ f, meyer l 3 none = .ok f ∧ BuiltIn l f) ∧
    (∃ f, wave l [0, 1, 5] [1 / 2] = .ok f ∧ BuiltIn l f) ∧
    ∀ ε, 0 < ε → ∃ m0, ∀ order, m0 ≤ order → ∀ x, ChebWithin S (abspline 1 l 6 20 none) order s x ε := by
  obtain ⟨g, hg, hd, S, hS, s, hs, hk, ⟨b, hb, hbk⟩, l, ⟨hl, -, -, hv⟩, hlm⟩ :=
    exists_setup path4 path4_nonneg (i := 0) (j := 1) (by decide) (by simp [path4])
  have hW : NonnegW g.W.dense := by rw [hd]; exact path4_nonneg
  have hc : ∀ b, s.basis = some b → b.k = 4 := fun b' hb' => by
    rw [hb] at hb'
    rw [← Option.some.inj hb', hbk]
  refine ⟨g, S, s, l, hg, hS, hs, hW, hk, hc, hlm, hl, hv, .simoncelli _ (by norm_num), ?_, ?_, ?_, fun ε hε => ?_⟩
  · have e : ∃ f, halfCosine l 6 = .ok f := by unfold halfCosine; exact ⟨_, if_neg (by norm_num)⟩
    exact ⟨_, e.choose_spec, .halfCosine e.choose_spec⟩
  · have e : ∃ f, meyer l 3 none = .ok f := by
      unfold meyer waveletBank dyadicScales
      exact ⟨_, if_neg (by simp)⟩
    exact ⟨_, e.choose_spec, .meyer (by norm_num) none e.choose_spec⟩
  · have e : ∃ f, wave l [0, 1, 5] [1 / 2] = .ok f := by
      unfold wave broadcast
      simp only [List.length_cons, List.length_nil]
      norm_num
    exact ⟨_, e.choose_spec, .wave (by simp) (by simp) (by simp; norm_num) e.choose_spec⟩
  · exact C101_convergence hS hg _ hs hW (by norm_num) hk hc hlm hl hv (.absplineDefault 1 6 20) hε

end PyGSP
