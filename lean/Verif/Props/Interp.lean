import Verif.Lemmas.Interp
import Verif.Spec.Reduction
import Verif.Props.Kron

/-! # C63: interpolation of a sampled signal -/

namespace PyGSP

open Matrix Spec GState Reduction Learning

variable {n k : ℕ}

section Algebra

variable {L : Matrix (Fin n) (Fin n) ℝ} {ind : Fin k → Fin n} {eps : ℝ}

theorem reg_smoothness (L : Matrix (Fin n) (Fin n) ℝ) (eps : ℝ) (v : Fin n → ℝ) :
    smoothness (L + eps • (1 : Matrix (Fin n) (Fin n) ℝ)) v = regEnergy L eps v := by
  unfold smoothness regEnergy
  rw [Matrix.add_mulVec, dotProduct_add, Matrix.smul_mulVec, Matrix.one_mulVec, dotProduct_smul]
  unfold smoothness dotProduct
  simp only [smul_eq_mul, pow_two]

theorem reg_posdef (hp : PSD L) (he : 0 < eps) (v : Fin n → ℝ) (hv : v ≠ 0) : 0 < regEnergy L eps v := by
  have h1 : 0 < ∑ u, v u ^ 2 := by
    obtain ⟨u, hu⟩ := Function.ne_iff.1 hv
    exact Finset.sum_pos' (fun _ _ => sq_nonneg _) ⟨u, Finset.mem_univ _, (sq_pos_of_ne_zero (by simpa using hu))⟩
  have h2 : 0 ≤ smoothness L v := hp v
  unfold regEnergy
  positivity

theorem reg_symm (hL : Lᵀ = L) (eps : ℝ) :
    (L + eps • (1 : Matrix (Fin n) (Fin n) ℝ))ᵀ = L + eps • (1 : Matrix (Fin n) (Fin n) ℝ) := by
  rw [Matrix.transpose_add, Matrix.transpose_smul, Matrix.transpose_one, hL]

/-- **The interpolation is unique.** -/
theorem C63_unique (hL : Lᵀ = L) (hp : PSD L) (he : 0 < eps) {x : Fin k → ℝ} {v w : Fin n → ℝ}
    (hv : IsInterpolation L eps ind x v) (hw : IsInterpolation L eps ind x w) : v = w := by
  by_contra hne
  have hs := reg_symm hL eps
  have h1 : regEnergy L eps v = regEnergy L eps w := le_antisymm (hv.2 w hw.1) (hw.2 v hv.1)
  let d : Fin n → ℝ := (1 / 2 : ℝ) • (w - v)
  have hd : d ≠ 0 := by
    intro h0
    apply hne
    funext u
    have := congrFun h0 u
    simp only [d, Pi.smul_apply, Pi.sub_apply, smul_eq_mul, Pi.zero_apply] at this
    linarith
  have hm := hv.2 (v + d) fun a => by simp [d, hv.1, hw.1]
  have e1 := quad_add (L := L + eps • (1 : Matrix (Fin n) (Fin n) ℝ)) hs v d
  have ew : w = v + (d + d) := by
    funext u; simp only [d, Pi.add_apply, Pi.smul_apply, Pi.sub_apply, smul_eq_mul]; ring
  have e2 := quad_add (L := L + eps • (1 : Matrix (Fin n) (Fin n) ℝ)) hs v (d + d)
  have e3 := quad_add (L := L + eps • (1 : Matrix (Fin n) (Fin n) ℝ)) hs d d
  rw [← ew] at e2
  simp only [reg_smoothness, add_dotProduct] at e1 e2 e3
  have e4 : d ⬝ᵥ ((L + eps • (1 : Matrix (Fin n) (Fin n) ℝ)) *ᵥ d) = regEnergy L eps d := reg_smoothness L eps d
  have h5 := reg_posdef hp he d hd
  rw [e4] at e3
  linarith

/-- what the Schur complement says about the interpolation -/
theorem interpolation_of_currents (hi : Function.Injective ind) (hL : Lᵀ = L) (hp : PSD L) (he : 0 < eps) {x : Fin k → ℝ} {v : Fin n → ℝ}
    (hv : ∀ a, v (ind a) = x a)
    (h0 : ∀ u, kept ind u = false → ((L + eps • (1 : Matrix (Fin n) (Fin n) ℝ)) *ᵥ v) u = 0) : IsInterpolation L eps ind x v := by
  refine ⟨hv, fun w hw => ?_⟩
  have hs := reg_symm hL eps
  have e : w = v + (w - v) := by abel
  have e1 := quad_add (L := L + eps • (1 : Matrix (Fin n) (Fin n) ℝ)) hs v (w - v)
  rw [← e] at e1
  have h2 : (w - v) ⬝ᵥ ((L + eps • (1 : Matrix (Fin n) (Fin n) ℝ)) *ᵥ v) = 0 := by
    unfold dotProduct
    refine Finset.sum_eq_zero fun y _ => ?_
    by_cases hy : kept ind y = false
    · rw [h0 y hy, mul_zero]
    · obtain ⟨a, ha⟩ := (kept_iff ind y).1 (by simpa using hy)
      rw [← ha, Pi.sub_apply, hw, hv, sub_self, zero_mul]
  simp only [reg_smoothness, h2] at e1
  have h3 : 0 ≤ regEnergy L eps (w - v) := by
    by_cases hz : w - v = 0
    · rw [hz]; simp [regEnergy, smoothness]
    · exact (reg_posdef hp he _ hz).le
  linarith

/-- the interpolation satisfies the linear equations at the other vertices -/
theorem currents_of_interpolation (hi : Function.Injective ind) (hL : Lᵀ = L) (hp : PSD L) (he : 0 < eps) {x : Fin k → ℝ} {v : Fin n → ℝ}
    (h : IsInterpolation L eps ind x v) {u : Fin n} (hu : kept ind u = false) :
    ((L + eps • (1 : Matrix (Fin n) (Fin n) ℝ)) *ᵥ v) u = 0 := by
  have hdet : (uu (L + eps • (1 : Matrix (Fin n) (Fin n) ℝ)) (kept ind)).det ≠ 0 := det_uu_posdef fun x hx => by
    have := reg_smoothness L eps x
    unfold smoothness at this
    rw [this]
    exact reg_posdef hp he x hx
  obtain ⟨w, hw, hw0⟩ := (isSchur_schur hi hdet).extend x
  rw [C63_unique hL hp he h (interpolation_of_currents hi hL hp he hw hw0)]
  exact hw0 u hu

end Algebra

section History

variable {S : Solvers n} (hS : Sound S) {g : Graph n ℝ} (hg : g.Built) (hist : List (Op n)) {s : GState n}
  (hs : s = runAll S hist (GState.ofGraph g)) (hW : NonnegW g.W.dense) (hn : 2 ≤ n) (hk : Known s.lapType)
  (hcomplete : ∀ b, s.basis = some b → b.k = n) {ind : Fin k → Fin n} (hi : Function.Injective ind) (h0 : 0 < k)
  (he : ∃ v, ∀ a, ind a ≠ v) {eps : ℝ} (heps : 0 < eps)

include hS hg hs hW hn hk hcomplete hi h0 he heps

/-- **Exact interpolation** (core): the state after it and the matrix that is applied. -/
theorem interpolate_core : ∃ (K : Matrix (Fin k) (Fin k) ℝ) (M : Matrix (Fin n) (Fin n) ℝ),
    kronMatrix (s.L + eps • (1 : Matrix (Fin n) (Fin n) ℝ)) ind = .ok K ∧
    (∀ order, (Bank.ofArg (.one (greenKernel eps))).ops S .exact order s = (.ok fun _ => M, (s.getBasis S).2)) ∧
    ∀ x, IsInterpolation s.L eps ind x (M *ᵥ scatter K ind x) := by
  obtain ⟨b, hb, hbk, hep⟩ := GState.complete_basis hS hg hist hs hW (by omega) hk hcomplete
  obtain ⟨hinv, hWs, -⟩ := reach_inv hS hg hist
  rw [← hs] at hinv hWs
  have hpsd : PSD s.L := hinv.psd (by rw [hWs]; exact hW)
  have hL : s.Lᵀ = s.L := Inv.L_transpose hinv
  obtain ⟨m, e, U⟩ := b
  simp only at hbk
  subst hbk
  have hpos : ∀ j, eps + e j ≠ 0 := fun j => by
    have := eig_nonneg hpsd (hep.isEigenvalue j)
    positivity
  have hdet : (uu (s.L + eps • (1 : Matrix (Fin m) (Fin m) ℝ)) (kept ind)).det ≠ 0 := det_uu_posdef fun x hx => by
    have := reg_smoothness s.L eps x
    unfold smoothness at this
    rw [this]
    exact reg_posdef hpsd heps x hx
  have hker : greenKernel eps m e = .ok fun j => 1 / (eps + e j) := by
    unfold greenKernel
    rw [if_neg]
    push Not
    exact hpos
  obtain ⟨v0, hv0⟩ := he
  refine ⟨schur (s.L + eps • (1 : Matrix (Fin m) (Fin m) ℝ)) ind, spectralOp U fun j => 1 / (eps + e j),
    kronMatrix_ok hi (reg_symm hL eps) h0 ⟨v0, (kept_false_iff _ _).2 hv0⟩ hdet,
    fun order => kernel_ops_exact _ order (getBasis_split hb) rfl hker, fun x => ?_⟩
  have hsch := isSchur_schur hi hdet
  obtain ⟨v, hv, hvz⟩ := hsch.extend x
  have hsc : scatter (schur (s.L + eps • (1 : Matrix (Fin m) (Fin m) ℝ)) ind) ind x = (s.L + eps • (1 : Matrix (Fin m) (Fin m) ℝ)) *ᵥ v := by
    funext u
    by_cases hu : kept ind u = false
    · rw [scatter_out _ _ hu, hvz u hu]
    · obtain ⟨a, rfl⟩ := (kept_iff ind u).1 (by simpa using hu)
      rw [scatter_ind _ hi, ← hsch.restrict v hvz, ← funext hv]
  rw [hsc, green_inverse hep hpos]
  exact interpolation_of_currents hi hL hpsd heps hv hvz

/-- **Interpolation**: with exact filtering, the result (one column) has the given samples at the given vertices and, among
all the signals that have them, the smallest energy `vᵀ (L + eps I) v`; the order does not matter. -/
theorem C63_interpolate (order : ℕ) (x : Fin k → ℝ) :
    ∃ v : Fin n → ℝ, IsInterpolation s.L eps ind x v ∧
      (interpolate S true (Arr.of1 x) ind order eps .exact s).1 = .ok (Arr.of2 fun u (_ : Fin 1) => v u) ∧
      (interpolate S true (Arr.of2 fun a (_ : Fin 1) => x a) ind order eps .exact s).1 = .ok (Arr.of2 fun u (_ : Fin 1) => v u) := by
  obtain ⟨K, M, hK, hM, hx⟩ := interpolate_core hS hg hist hs hW hn hk hcomplete hi h0 he heps
  refine ⟨_, hx x, ?_, ?_⟩
  · unfold interpolate
    rw [if_neg (by simp), hK]
    simp only [scatterArr_of1]
    rw [analysis_of1 (by omega) (hM order)]
  · unfold interpolate
    rw [if_neg (by simp), hK]
    simp only [scatterArr_of2]
    rw [analysis_col (by omega) (hM order)]

/-- **Several signals** are interpolated one by one but the results are stacked in a single column of length `N * m`. -/
theorem C63_many_violated (order : ℕ) {m : ℕ} (hm : 2 ≤ m) (x : Fin k → Fin m → ℝ) :
    ∃ (v : Fin m → Fin n → ℝ) (r : Arr), (∀ j, IsInterpolation s.L eps ind (fun a => x a j) (v j)) ∧
      (interpolate S true (Arr.of2 x) ind order eps .exact s).1 = .ok r ∧ r.shape = [n * m, 1] ∧
      (∀ (j : Fin m) (u : Fin n), r.val [j.1 * n + u.1, 0] = v j u) ∧ r.shape ≠ [n, m] := by
  obtain ⟨K, M, hK, hM, hx⟩ := interpolate_core hS hg hist hs hW hn hk hcomplete hi h0 he heps
  refine ⟨fun j => M *ᵥ scatter K ind fun a => x a j, stacked fun v j => (M *ᵥ fun w => scatter K ind (fun i => x i j) w) v,
    fun j => hx _, ?_, rfl, fun j u => ?_, ?_⟩
  · unfold interpolate
    rw [if_neg (by simp), hK]
    simp only [scatterArr_of2]
    rw [analysis_many (by omega) (hM order) (by omega)]
  · have h1 : j.1 * n + u.1 < n * m := by
      have := j.2; have := u.2; nlinarith
    have h2 : (j.1 * n + u.1) % n = u.1 := by rw [Nat.mul_comm, Nat.mul_add_mod, Nat.mod_eq_of_lt u.2]
    have h3 : (j.1 * n + u.1) / n = j.1 := by
      rw [Nat.mul_comm, Nat.mul_add_div (by omega), Nat.div_eq_of_lt u.2, Nat.add_zero]
    simp only [stacked, Arr.of2]
    rw [dif_pos ⟨h1, Nat.one_pos⟩]
    simp only [h2, h3]
  · simp only [stacked, Arr.of2, ne_eq, List.cons.injEq, and_true, not_and]
    omega

omit hn hcomplete h0 he in
/-- **Range**: with the combinatorial Laplacian, samples between `lo ≤ 0` and `0 ≤ hi` give values between `lo` and `hi`. -/
theorem C63_range (hc : s.lapType = .combinatorial) {x : Fin k → ℝ} {v : Fin n → ℝ} (hv : IsInterpolation s.L eps ind x v) {lo hi' : ℝ}
    (hlo : lo ≤ 0) (hhi : 0 ≤ hi') (hx : ∀ a, lo ≤ x a ∧ x a ≤ hi') (u : Fin n) : lo ≤ v u ∧ v u ≤ hi' := by
  obtain ⟨hinv, hWs, -⟩ := reach_inv hS hg hist
  rw [← hs] at hinv hWs
  have hpsd : PSD s.L := hinv.psd (by rw [hWs]; exact hW)
  have hL : s.Lᵀ = s.L := Inv.L_transpose hinv
  have hcur : ∀ y, kept ind y = false → (∑ z, wsym g.W.dense y z * (v y - v z)) + eps * v y = 0 := by
    intro y hy
    have := currents_of_interpolation hi hL hpsd heps hv hy
    rwa [Matrix.add_mulVec, Matrix.smul_mulVec, Matrix.one_mulVec, Pi.add_apply, Pi.smul_apply, smul_eq_mul,
      L_combinatorial hS hg hist hs hc, combLap_mulVec] at this
  have hw : ∀ y z, 0 ≤ wsym g.W.dense y z := fun y z => by
    unfold wsym
    have := hW y z; have := hW z y
    positivity
  have : Nonempty (Fin n) := ⟨u⟩
  constructor
  · obtain ⟨y, hy⟩ := Finite.exists_min v
    refine le_trans ?_ (hy u)
    by_cases hk : kept ind y = false
    · have h1 := hcur y hk
      have h2 : ∑ z, wsym g.W.dense y z * (v y - v z) ≤ 0 := Finset.sum_nonpos fun z _ =>
        mul_nonpos_of_nonneg_of_nonpos (hw y z) (sub_nonpos.2 (hy z))
      have h3 : 0 ≤ v y := by
        by_contra hneg
        push Not at hneg
        nlinarith
      linarith
    · obtain ⟨a, rfl⟩ := (kept_iff ind y).1 (by simpa using hk)
      rw [hv.1]; exact (hx a).1
  · obtain ⟨y, hy⟩ := Finite.exists_max v
    refine le_trans (hy u) ?_
    by_cases hk : kept ind y = false
    · have h1 := hcur y hk
      have h2 : 0 ≤ ∑ z, wsym g.W.dense y z * (v y - v z) := Finset.sum_nonneg fun z _ =>
        mul_nonneg (hw y z) (sub_nonneg.2 (hy z))
      have h3 : v y ≤ 0 := by
        by_contra hneg
        push Not at hneg
        nlinarith
      linarith
    · obtain ⟨a, rfl⟩ := (kept_iff ind y).1 (by simpa using hk)
      rw [hv.1]; exact (hx a).2

omit hn hcomplete h0 he in
/-- Violation: a constant signal is not reproduced from its samples, every other vertex gets less. -/
theorem C63_constant_violated (hc : s.lapType = .combinatorial) {v : Fin n → ℝ}
    (hv : IsInterpolation s.L eps ind (fun _ => 1) v) {u : Fin n} (hu : ∀ a, ind a ≠ u) : v u < 1 := by
  have hr := fun y => (C63_range hS hg hist hs hW hk hi heps hc hv (lo := 0) (hi' := 1) le_rfl zero_le_one
    (fun _ => ⟨zero_le_one, le_rfl⟩) y).2
  refine lt_of_le_of_ne (hr u) fun h1 => ?_
  obtain ⟨hinv, hWs, -⟩ := reach_inv hS hg hist
  rw [← hs] at hinv hWs
  have hpsd : PSD s.L := hinv.psd (by rw [hWs]; exact hW)
  have := currents_of_interpolation hi (Inv.L_transpose hinv) hpsd heps hv ((kept_false_iff _ _).2 hu)
  rw [Matrix.add_mulVec, Matrix.smul_mulVec, Matrix.one_mulVec, Pi.add_apply, Pi.smul_apply, smul_eq_mul,
      L_combinatorial hS hg hist hs hc, combLap_mulVec, h1] at this
  have h2 : 0 ≤ ∑ z, wsym g.W.dense u z * (1 - v z) := Finset.sum_nonneg fun z _ =>
    mul_nonneg (by unfold wsym; have := hW u z; have := hW z u; positivity) (sub_nonneg.2 (hr z))
  linarith

end History

/-- **Errors**: a graph that is not in a multiresolution (no attribute `mr`) raises AttributeError; a signal of the wrong
length raises ValueError. -/
theorem C63_errors (S : Solvers n) (f : Arr) (ind : Fin k → Fin n) (order : ℕ) (eps : ℝ) (method : FMethod) (s : GState n) :
    interpolate S false f ind order eps method s = (.error .attributeError, s) ∧
    ∀ d t, f.shape = d :: t → t.length ≤ 1 → d ≠ k → ∀ K, kronMatrix (s.L + eps • (1 : Matrix (Fin n) (Fin n) ℝ)) ind = .ok K →
      interpolate S true f ind order eps method s = (.error .valueError, s) := by
  refine ⟨rfl, fun d t hf ht hd K hK => ?_⟩
  unfold interpolate
  rw [if_neg (by simp), hK]
  have : scatterArr K ind f = .error .valueError := by
    unfold scatterArr
    rw [hf]
    match t with
    | [] => exact if_neg hd
    | [m] => exact if_neg hd
    | a :: b :: t => simp at ht
  simp only [this]

/-- All the hypotheses hold on a path of four vertices sampled at its ends: the values in between are positive and smaller
than one. -/
example : ∃ (g : Graph 4 ℝ) (S : Solvers 4) (s : GState 4), g.Built ∧ Sound S ∧ NonnegW g.W.dense ∧
    s = runAll S [.computeFourierBasis none] (GState.ofGraph g) ∧ s.lapType = .combinatorial ∧
    ∃ v : Fin 4 → ℝ, IsInterpolation s.L (1 / 200) ![0, 3] (fun _ => 1) v ∧
      (interpolate S true (Arr.of1 fun _ : Fin 2 => 1) (![0, 3] : Fin 2 → Fin 4) 100 (1 / 200) .exact s).1 =
        .ok (Arr.of2 fun u (_ : Fin 1) => v u) ∧ v 1 < 1 ∧ 0 ≤ v 1 := by
  obtain ⟨g, hg, hd, S, hS, s, hs, -, ⟨b, hb, hbk⟩, l, ⟨-, hc, -, -⟩, -⟩ :=
    exists_setup path4 path4_nonneg (i := 0) (j := 1) (by decide) (by simp [path4])
  have hW : NonnegW g.W.dense := by rw [hd]; exact path4_nonneg
  obtain ⟨v, h1, h2, -⟩ := C63_interpolate hS hg _ hs hW (by norm_num) (by rw [hc]; exact .inl rfl)
    (fun b' h => by rw [hb] at h; cases h; exact hbk) (ind := ![0, 3]) (by decide) (by norm_num) ⟨1, by decide⟩ (eps := 1 / 200) (by norm_num) 100 (fun _ => 1)
  exact ⟨g, S, s, hg, hS, hW, hs, hc, v, h1, h2,
    C63_constant_violated hS hg _ hs hW (by rw [hc]; exact .inl rfl) (by decide) (by norm_num) hc h1 (by decide),
    (C63_range hS hg _ hs hW (by rw [hc]; exact .inl rfl) (by decide) (by norm_num) hc h1 le_rfl zero_le_one
      (fun _ => ⟨zero_le_one, le_rfl⟩) 1).1⟩

end PyGSP
