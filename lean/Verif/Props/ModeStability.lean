import Verif.Props.Stability
import Verif.Props.Frequency
import Verif.Props.Bands
import Verif.Props.SpectraPath
import Verif.Props.Components

/-!
# C135: small changes of the weights make small changes of the Fourier modes and of ideal filters
-/

namespace PyGSP

open Matrix Spec GState Real Design

variable {n : ℕ}

/-- The frequencies of the group `J` are at least `γ` away from the others. -/
def Spec.Apart (e : Fin n → ℝ) (J : Finset (Fin n)) (γ : ℝ) : Prop := ∀ j ∈ J, ∀ k, k ∉ J → γ ≤ |e j - e k|

/-- The inner products between the modes and their differences of frequencies. -/
theorem frob_modes {L L' U U' : Matrix (Fin n) (Fin n) ℝ} {e e' : Fin n → ℝ} (h : IsEigenPairs L e U) (h' : IsEigenPairs L' e' U') :
    frob (L - L') = ∑ k, ∑ j, ((e k - e' j) * (Uᵀ * U') k j) ^ 2 := by
  rw [← frob_rotate h.orthonormal h'.orthonormal]
  have : Uᵀ * (L - L') * U' = Matrix.diagonal e * (Uᵀ * U') - (Uᵀ * U') * Matrix.diagonal e' := by
    rw [Matrix.mul_sub, Matrix.sub_mul]
    have hU : U * Uᵀ = 1 := mul_eq_one_comm.1 h.orthonormal
    congr 1
    · have h1 : Uᵀ * L = Matrix.diagonal e * Uᵀ := by
        calc Uᵀ * L = Uᵀ * L * (U * Uᵀ) := by rw [hU, Matrix.mul_one]
          _ = Uᵀ * (L * U) * Uᵀ := by simp only [Matrix.mul_assoc]
          _ = (Uᵀ * U) * Matrix.diagonal e * Uᵀ := by rw [h.eig]; simp only [Matrix.mul_assoc]
          _ = _ := by rw [h.orthonormal, Matrix.one_mul]
      rw [h1, Matrix.mul_assoc]
    · rw [Matrix.mul_assoc, h'.eig, Matrix.mul_assoc]
  unfold frob
  refine Finset.sum_congr rfl fun k _ => Finset.sum_congr rfl fun j _ => ?_
  rw [this, Matrix.sub_apply, Matrix.diagonal_mul, Matrix.mul_diagonal]
  ring

section

variable {S S' : Solvers n} {g g' : Graph n ℝ} {s s' : GState n} {e e' : Fin n → ℝ} {U U' : Matrix (Fin n) (Fin n) ℝ}
  (h : Ready S g s) (h' : Ready S' g' s') (hl : s.lapType = .combinatorial) (hl' : s'.lapType = .combinatorial)
  (hb : s.basis = some ⟨n, e, U⟩) (hb' : s'.basis = some ⟨n, e', U'⟩)

include h h' hl hl' hb hb'

theorem freq_close (k : Fin n) : |e k - e' k| ≤ weightChange g.W.dense g'.W.dense := by
  obtain ⟨h3, h4⟩ := h.pairs hb
  obtain ⟨h3', h4'⟩ := h'.pairs hb'
  have a := spectrum_step h h' hl hl' h3 h3' h4 h4' k
  have b := spectrum_step h' h hl' hl h3' h3 h4' h4 k
  rw [weightChange_comm] at b
  rw [abs_le]
  constructor <;> linarith

/-- **C135** A group of modes whose frequencies are at least `γ` away from the others: the modes of the changed graph with the same ranks have almost
nothing in common with the other modes of the graph. -/
theorem C135_group {J : Finset (Fin n)} {γ : ℝ} (hJ : Apart e J γ) (hγ : weightChange g.W.dense g'.W.dense < γ) :
    ∑ j ∈ J, ∑ k ∈ Jᶜ, (∑ v, U v k * U' v j) ^ 2 ≤ (weightChange g.W.dense g'.W.dense / (γ - weightChange g.W.dense g'.W.dense)) ^ 2 := by
  have hclose := freq_close h h' hl hl' hb hb'
  obtain ⟨h3, -⟩ := h.pairs hb
  obtain ⟨h3', -⟩ := h'.pairs hb'
  have hD := frob_weights h h' hl hl'
  set D := weightChange g.W.dense g'.W.dense with hDdef
  have hD0 : 0 ≤ D := weightChange_nonneg _ _
  have hpos : 0 < γ - D := by linarith
  have hfrob : frob (s.L - s'.L) ≤ D ^ 2 := by
    rw [← Real.sq_sqrt (frob_nonneg (s.L - s'.L))]
    exact pow_le_pow_left₀ (sqrt_nonneg _) hD 2
  rw [frob_modes h3 h3', Finset.sum_comm] at hfrob
  rw [div_pow, le_div_iff₀ (by positivity), Finset.sum_mul]
  refine le_trans ?_ hfrob
  refine le_trans (Finset.sum_le_sum (f := _) (g := fun j => ∑ k, ((e k - e' j) * (Uᵀ * U') k j) ^ 2) fun j hj => ?_)
    (Finset.sum_le_sum_of_subset_of_nonneg (Finset.subset_univ J) fun j _ _ => Finset.sum_nonneg fun k _ => sq_nonneg _)
  rw [Finset.sum_mul]
  refine le_trans (Finset.sum_le_sum (f := _) (g := fun k => ((e k - e' j) * (Uᵀ * U') k j) ^ 2) fun k hk => ?_)
    (Finset.sum_le_sum_of_subset_of_nonneg (Finset.subset_univ Jᶜ) fun k _ _ => sq_nonneg _)
  have hin : ∑ v, U v k * U' v j = (Uᵀ * U') k j := by rw [Matrix.mul_apply]; rfl
  rw [hin, mul_pow, mul_comm]
  refine mul_le_mul_of_nonneg_right ?_ (sq_nonneg _)
  have h1 := hJ j hj k (Finset.mem_compl.1 hk)
  have h2 := hclose j
  have h5 : γ - D ≤ |e k - e' j| := by
    have := abs_sub_abs_le_abs_sub (e j - e k) (e j - e' j)
    have h6 : |e j - e k - (e j - e' j)| = |e k - e' j| := by rw [← abs_neg]; congr 1; ring
    rw [h6] at this
    linarith
  rw [← sq_abs (e k - e' j)]
  exact pow_le_pow_left₀ hpos.le h5 2

/-- **C135** A signal made of the modes of the group on the changed graph: almost all the energy of its transform on the graph is in the group. -/
theorem C135_leak {J : Finset (Fin n)} {γ : ℝ} (hJ : Apart e J γ) (hγ : weightChange g.W.dense g'.W.dense < γ) {x a a' : Fin n → ℝ}
    (hx : s.gft S ⟨n, x⟩ = (.ok ⟨n, a⟩, s)) (hx' : s'.gft S' ⟨n, x⟩ = (.ok ⟨n, a'⟩, s')) (hin : ∀ k, k ∉ J → a' k = 0) :
    ∑ k ∈ Jᶜ, a k ^ 2 ≤ (weightChange g.W.dense g'.W.dense / (γ - weightChange g.W.dense g'.W.dense)) ^ 2 * ∑ v, x v ^ 2 := by
  obtain ⟨h3, -⟩ := h.pairs hb
  obtain ⟨h3', -⟩ := h'.pairs hb'
  have ha : a = Uᵀ *ᵥ x := by
    have := congrArg Prod.fst (hx.symm.trans (gft_of hb x))
    simpa using this
  have ha' : a' = U'ᵀ *ᵥ x := by
    have := congrArg Prod.fst (hx'.symm.trans (gft_of hb' x))
    simpa using this
  have hU' : U' * U'ᵀ = 1 := mul_eq_one_comm.1 h3'.orthonormal
  have hxe : x = U' *ᵥ a' := by rw [ha', Matrix.mulVec_mulVec, hU', Matrix.one_mulVec]
  have hnorm : ∑ v, x v ^ 2 = ∑ j, a' j ^ 2 := by
    have e1 : ∑ v, x v ^ 2 = x ⬝ᵥ x := Finset.sum_congr rfl fun v _ => sq _
    have e2 : ∑ j, a' j ^ 2 = a' ⬝ᵥ a' := Finset.sum_congr rfl fun v _ => sq _
    rw [e1, e2, ha', Matrix.dotProduct_mulVec, Matrix.vecMul_transpose, Matrix.mulVec_mulVec, hU', Matrix.one_mulVec]
  have hak : ∀ k, a k = ∑ j ∈ J, (∑ v, U v k * U' v j) * a' j := fun k => by
    rw [ha, hxe, Matrix.mulVec_mulVec]
    have : ((Uᵀ * U') *ᵥ a') k = ∑ j, (∑ v, U v k * U' v j) * a' j := by
      simp only [Matrix.mulVec, dotProduct, Matrix.mul_apply, Matrix.transpose_apply]
    rw [this]
    exact (Finset.sum_subset (Finset.subset_univ J) fun j _ hj => by rw [hin j hj, mul_zero]).symm
  have hsum : ∑ j ∈ J, a' j ^ 2 = ∑ j, a' j ^ 2 :=
    Finset.sum_subset (Finset.subset_univ J) fun j _ hj => by rw [hin j hj]; norm_num
  have hg := C135_group h h' hl hl' hb hb' hJ hγ
  rw [hnorm, ← hsum]
  calc ∑ k ∈ Jᶜ, a k ^ 2 ≤ ∑ k ∈ Jᶜ, (∑ j ∈ J, (∑ v, U v k * U' v j) ^ 2) * ∑ j ∈ J, a' j ^ 2 :=
        Finset.sum_le_sum fun k _ => by rw [hak k]; exact Finset.sum_mul_sq_le_sq_mul_sq _ _ _
    _ = (∑ j ∈ J, ∑ k ∈ Jᶜ, (∑ v, U v k * U' v j) ^ 2) * ∑ j ∈ J, a' j ^ 2 := by rw [← Finset.sum_mul, Finset.sum_comm]
    _ ≤ _ := mul_le_mul_of_nonneg_right hg (Finset.sum_nonneg fun j _ => sq_nonneg _)

/-- **C135** A mode whose frequency is at least `γ` away from the others moves little, up to its sign; so do its coordinates, their signs and the coefficients of
the transform. -/
theorem C135_mode {j : Fin n} {γ : ℝ} (hj : ∀ k, k ≠ j → γ ≤ |e j - e k|) (hγ : weightChange g.W.dense g'.W.dense < γ) :
    ∃ σ : ℝ, (σ = 1 ∨ σ = -1) ∧
      ∑ v, (σ * U' v j - U v j) ^ 2 ≤ 2 * (weightChange g.W.dense g'.W.dense / (γ - weightChange g.W.dense g'.W.dense)) ^ 2 ∧
      (∀ v, √2 * (weightChange g.W.dense g'.W.dense / (γ - weightChange g.W.dense g'.W.dense)) < |U v j| → 0 < σ * U' v j * U v j) ∧
      ∀ x a a' : Fin n → ℝ, s.gft S ⟨n, x⟩ = (.ok ⟨n, a⟩, s) → s'.gft S' ⟨n, x⟩ = (.ok ⟨n, a'⟩, s') →
        |σ * a' j - a j| ≤ √2 * (weightChange g.W.dense g'.W.dense / (γ - weightChange g.W.dense g'.W.dense)) * √(∑ v, x v ^ 2) := by
  have hg := C135_group h h' hl hl' hb hb' (J := {j}) (γ := γ)
    (fun i hi k hk => by rw [Finset.mem_singleton.1 hi]; exact hj k fun hkj => hk (by simp [hkj])) hγ
  obtain ⟨h3, -⟩ := h.pairs hb
  obtain ⟨h3', -⟩ := h'.pairs hb'
  set D := weightChange g.W.dense g'.W.dense with hDdef
  have hD0 : 0 ≤ D := weightChange_nonneg _ _
  have hpos : 0 < γ - D := by linarith
  set η := D / (γ - D) with hη
  have hη0 : 0 ≤ η := div_nonneg hD0 hpos.le
  set c := ∑ v, U v j * U' v j with hc
  rw [Finset.sum_singleton] at hg
  have hUU : ∀ k, ∑ v, U v k * U v k = 1 := fun k => by
    have := congrFun (congrFun h3.orthonormal k) k
    rwa [Matrix.mul_apply, Matrix.one_apply_eq] at this
  have hUU' : ∀ k, ∑ v, U' v k * U' v k = 1 := fun k => by
    have := congrFun (congrFun h3'.orthonormal k) k
    rwa [Matrix.mul_apply, Matrix.one_apply_eq] at this
  have htot : ∑ k, (∑ v, U v k * U' v j) ^ 2 = 1 := by
    have hU : U * Uᵀ = 1 := mul_eq_one_comm.1 h3.orthonormal
    set u : Fin n → ℝ := fun v => U' v j
    have e1 : ∑ k, (∑ v, U v k * U' v j) ^ 2 = (Uᵀ *ᵥ u) ⬝ᵥ (Uᵀ *ᵥ u) :=
      Finset.sum_congr rfl fun k _ => sq _
    rw [e1, Matrix.dotProduct_mulVec, Matrix.vecMul_transpose, Matrix.mulVec_mulVec, hU, Matrix.one_mulVec]
    exact hUU' j
  rw [← Finset.add_sum_erase _ _ (Finset.mem_univ j)] at htot
  have hcompl : ({j} : Finset (Fin n))ᶜ = Finset.univ.erase j := by ext k; simp
  rw [hcompl] at hg
  have hc2 : 1 - η ^ 2 ≤ c ^ 2 := by linarith
  have hc1 : c ^ 2 ≤ 1 := by
    have : 0 ≤ ∑ k ∈ Finset.univ.erase j, (∑ v, U v k * U' v j) ^ 2 := Finset.sum_nonneg fun k _ => sq_nonneg _
    linarith
  have hdist : ∀ σ : ℝ, σ ^ 2 = 1 → ∑ v, (σ * U' v j - U v j) ^ 2 = 2 - 2 * (σ * c) := fun σ hσ => by
    have : ∀ v, (σ * U' v j - U v j) ^ 2 = σ ^ 2 * (U' v j * U' v j) - 2 * σ * (U v j * U' v j) + U v j * U v j := fun v => by ring
    simp only [this, Finset.sum_add_distrib, Finset.sum_sub_distrib, ← Finset.mul_sum, hUU, hUU', hσ]
    rw [← hc]
    ring
  obtain ⟨σ, hσ, hσc⟩ : ∃ σ : ℝ, (σ = 1 ∨ σ = -1) ∧ σ * c = |c| := by
    rcases le_total 0 c with h0 | h0
    · exact ⟨1, .inl rfl, by rw [one_mul, abs_of_nonneg h0]⟩
    · exact ⟨-1, .inr rfl, by rw [abs_of_nonpos h0]; ring⟩
  have hσ2 : σ ^ 2 = 1 := by rcases hσ with rfl | rfl <;> norm_num
  have habs : |c| ≤ 1 := by
    rw [← sq_abs] at hc1
    nlinarith [abs_nonneg c]
  have hmove : ∑ v, (σ * U' v j - U v j) ^ 2 ≤ 2 * η ^ 2 := by
    rw [hdist σ hσ2, hσc]
    rw [← sq_abs c] at hc2
    nlinarith [abs_nonneg c]
  have hroot : √(∑ v, (σ * U' v j - U v j) ^ 2) ≤ √2 * η := by
    rw [Real.sqrt_le_left (by positivity), mul_pow, Real.sq_sqrt (by norm_num)]
    exact hmove
  refine ⟨σ, hσ, hmove, fun v hv => ?_, fun x a a' hx hx' => ?_⟩
  · have h1 : |σ * U' v j - U v j| ≤ √2 * η := by
      refine le_trans ?_ hroot
      rw [← Real.sqrt_sq_eq_abs]
      exact Real.sqrt_le_sqrt (Finset.single_le_sum (f := fun v => (σ * U' v j - U v j) ^ 2) (fun v _ => sq_nonneg _) (Finset.mem_univ v))
    have h2 := lt_of_le_of_lt h1 hv
    generalize σ * U' v j = p at h2
    generalize U v j = q at h2
    have h6 := sq_lt_sq.2 h2
    nlinarith [sq_nonneg p]
  · have ha : a j = ∑ v, U v j * x v := by
      have := congrArg Prod.fst (hx.symm.trans (gft_of hb x))
      have e1 : a = Uᵀ *ᵥ x := by simpa using this
      rw [e1]; rfl
    have ha' : a' j = ∑ v, U' v j * x v := by
      have := congrArg Prod.fst (hx'.symm.trans (gft_of hb' x))
      have e1 : a' = U'ᵀ *ᵥ x := by simpa using this
      rw [e1]; rfl
    have e2 : σ * a' j - a j = ∑ v, (σ * U' v j - U v j) * x v := by
      rw [ha, ha', Finset.mul_sum, ← Finset.sum_sub_distrib]
      exact Finset.sum_congr rfl fun v _ => by ring
    rw [e2]
    have hcs := Finset.sum_mul_sq_le_sq_mul_sq Finset.univ (fun v => σ * U' v j - U v j) x
    calc |∑ v, (σ * U' v j - U v j) * x v| = √((∑ v, (σ * U' v j - U v j) * x v) ^ 2) := (Real.sqrt_sq_eq_abs _).symm
      _ ≤ √((∑ v, (σ * U' v j - U v j) ^ 2) * ∑ v, x v ^ 2) := Real.sqrt_le_sqrt hcs
      _ = √(∑ v, (σ * U' v j - U v j) ^ 2) * √(∑ v, x v ^ 2) := Real.sqrt_mul (Finset.sum_nonneg fun v _ => sq_nonneg _) _
      _ ≤ _ := mul_le_mul_of_nonneg_right hroot (sqrt_nonneg _)

/-- **C135** Ideal band filters. If no frequency of the graph is within `γ` of a cut-off of the band, and the change of the weights and the move of the cut-off (which is
relative to the largest frequency of each graph) are together smaller than `γ`, the outputs on the two graphs are close. -/
theorem C135_rectangular (hn : 2 ≤ n) {l l' γ : ℝ} (hp : 0 < l) (hp' : 0 < l') {lo hi : Option ℝ} (hcut : ∀ c, lo = some c ∨ hi = some c →
      (∀ k, γ ≤ |e k - c * l|) ∧ weightChange g.W.dense g'.W.dense + |c| * |l - l'| < γ) (hγ : weightChange g.W.dense g'.W.dense < γ)
    (order : ℕ) (x : Fin n → ℝ) :
    ∃ y y' : Fin n → ℝ, (rectangular l lo hi).filter S (Arr.of1 x) .exact order s = (.ok (Arr.of1 y), s) ∧
      (rectangular l' lo hi).filter S' (Arr.of1 x) .exact order s' = (.ok (Arr.of1 y'), s') ∧
      √(∑ v, (y v - y' v) ^ 2) ≤ weightChange g.W.dense g'.W.dense / (2 * γ - weightChange g.W.dense g'.W.dense) * √(∑ v, x v ^ 2) := by
  have hclose := freq_close h h' hl hl' hb hb'
  obtain ⟨h3, -⟩ := h.pairs hb
  obtain ⟨h3', -⟩ := h'.pairs hb'
  have hδ := frob_weights h h' hl hl'
  set D := weightChange g.W.dense g'.W.dense with hDdef
  have hD0 : 0 ≤ D := weightChange_nonneg _ _
  have hpos : 0 < 2 * γ - D := by linarith
  set φ : ℝ → ℝ → ℝ := fun l => bandKernel (fun hi x => if x / l ≤ hi then 1 else 0) (fun lo x => if x / l ≥ lo then 1 else 0) lo hi with hφdef
  have hop : ∀ {e : Fin n → ℝ} {U : Matrix (Fin n) (Fin n) ℝ} (ψ : ℝ → ℝ), (U *ᵥ fun k => ψ (e k) * (Uᵀ *ᵥ x) k) = spectralOp U (fun j => ψ (e j)) *ᵥ x := by
    intro e U ψ
    unfold spectralOp
    rw [← Matrix.mulVec_mulVec, ← Matrix.mulVec_mulVec]
    congr 1
    funext k
    rw [Matrix.mulVec_diagonal]
  refine ⟨_, _, filter_pointwise h hn hb (φ l) order x, filter_pointwise h' hn hb' (φ l') order x, ?_⟩
  rw [hop, hop]
  -- the side of a cut-off
  have side : ∀ c, lo = some c ∨ hi = some c → ∀ i j, ((e i ≤ c * l) ↔ (e' j ≤ c * l)) ∨ 2 * γ - D ≤ |e i - e' j| := by
    intro c hc i j
    obtain ⟨h1, -⟩ := hcut c hc
    have h2 := h1 i
    have h4 := h1 j
    have h5 := hclose j
    rw [abs_le] at h5
    by_cases ha : e i ≤ c * l <;> by_cases hb : e' j ≤ c * l
    · exact .inl ⟨fun _ => hb, fun _ => ha⟩
    · right
      rw [abs_of_nonpos (by linarith)] at h2
      rcases le_abs.1 h4 with h6 | h6
      · exact le_abs.2 (.inr (by linarith [h5.1, h5.2]))
      · linarith [h5.1, h5.2]
    · right
      rw [abs_of_nonneg (by linarith)] at h2
      rcases le_abs.1 h4 with h6 | h6
      · linarith [h5.1, h5.2]
      · exact le_abs.2 (.inl (by linarith [h5.1, h5.2]))
    · exact .inl ⟨fun h => absurd h ha, fun h => absurd h hb⟩
  have strict : ∀ c, lo = some c ∨ hi = some c → (∀ i, e i ≠ c * l) ∧ ∀ j, e' j ≠ c * l ∧ e' j ≠ c * l' ∧ ((e' j ≤ c * l) ↔ (e' j ≤ c * l')) := by
    intro c hc
    obtain ⟨h1, h2⟩ := hcut c hc
    have hcc : |c * l - c * l'| = |c| * |l - l'| := by rw [← mul_sub, abs_mul]
    have hc0 : 0 ≤ |c| * |l - l'| := by positivity
    refine ⟨fun i hi => ?_, fun j => ?_⟩
    · have := h1 i
      rw [hi, sub_self, abs_zero] at this
      linarith
    · have h4 := h1 j
      have h5 := hclose j
      have h6 := abs_le.1 hcc.le
      rw [abs_le] at h5
      rcases le_abs.1 h4 with h7 | h7
      · exact ⟨by linarith [h5.1, h5.2], by linarith [h5.1, h5.2, h6.1, h6.2], ⟨fun h => by linarith [h5.1, h5.2, h6.1, h6.2], fun h => by linarith [h5.1, h5.2, h6.1, h6.2]⟩⟩
      · exact ⟨by linarith [h5.1, h5.2], by linarith [h5.1, h5.2, h6.1, h6.2], ⟨fun h => by linarith [h5.1, h5.2, h6.1, h6.2], fun h => by linarith [h5.1, h5.2, h6.1, h6.2]⟩⟩
  have same : ∀ {m m' t t' : ℝ}, 0 < m → 0 < m' → (∀ c, lo = some c ∨ hi = some c → t ≠ c * m ∧ t' ≠ c * m' ∧ ((t ≤ c * m) ↔ (t' ≤ c * m'))) → φ m t = φ m' t' := by
    intro m m' t t' hm hm' hs
    have low : ∀ c, hi = some c → ((t / m ≤ c) ↔ (t' / m' ≤ c)) := fun c hc => by
      rw [div_le_iff₀ hm, div_le_iff₀ hm']
      exact (hs c (.inr hc)).2.2
    have high : ∀ c, lo = some c → ((t / m ≥ c) ↔ (t' / m' ≥ c)) := fun c hc => by
      obtain ⟨a1, a2, a3⟩ := hs c (.inl hc)
      rw [ge_iff_le, ge_iff_le, le_div_iff₀ hm, le_div_iff₀ hm']
      exact ⟨fun h => le_of_not_ge fun h' => a1 (le_antisymm (a3.2 h') h), fun h => le_of_not_ge fun h' => a2 (le_antisymm (a3.1 h') h)⟩
    simp only [hφdef]
    rcases lo with _ | a <;> rcases hi with _ | b <;> simp only [bandKernel]
    · simp only [low b rfl]
    · simp only [high a rfl]
    · simp only [low b rfl, high a rfl]
  have bound : ∀ t t', |φ l t - φ l t'| ≤ 1 := by
    have h01 : ∀ t, φ l t = 0 ∨ φ l t = 1 := by
      intro t
      simp only [hφdef]
      rcases lo with _ | a <;> rcases hi with _ | b <;> simp only [bandKernel] <;> (try split) <;> (try split) <;> norm_num
    intro t t'
    rcases h01 t with h | h <;> rcases h01 t' with h' | h' <;> rw [h, h'] <;> norm_num
  have main := outputs_diff (φ := φ l) (ψ := φ l') (K := 1 / (2 * γ - D)) (η := 0) h3 h3' (by positivity) (fun i j => ?_) le_rfl (fun j => ?_) hδ x
  · rwa [add_zero, one_div, inv_mul_eq_div] at main
  · by_cases hfar : 2 * γ - D ≤ |e i - e' j|
    · refine (bound _ _).trans ?_
      rw [div_mul_eq_mul_div, one_mul, one_le_div hpos]
      exact hfar
    · rw [same (t' := e' j) hp hp fun c hc => ⟨(strict c hc).1 i, ((strict c hc).2 j).1, (side c hc i j).resolve_right hfar⟩, sub_self, abs_zero]
      positivity
  · rw [same (t' := e' j) hp hp' fun c hc => (strict c hc).2 j, sub_self, abs_zero]

end

/-- `Path(3)`, whose frequencies are 0, 1 and 3, and the same graph with an edge of weight 1/20 between its ends: the total change is 1/10, the second mode moves by at most
`√2 / 9`, and the ideal low-pass filter with the cut-off at 2/3 of the largest frequency by at most 1/19 of the norm of the signal. -/
example : ∃ (S S' : Solvers 3) (g g' : Graph 3 ℝ) (s s' : GState 3) (e e' : Fin 3 → ℝ) (U U' : Matrix (Fin 3) (Fin 3) ℝ), Ready S g s ∧ Ready S' g' s' ∧
    s.lapType = .combinatorial ∧ s'.lapType = .combinatorial ∧ s.basis = some ⟨3, e, U⟩ ∧ s'.basis = some ⟨3, e', U'⟩ ∧
    Gen.path 3 false .combinatorial = .ok g ∧ weightChange g.W.dense g'.W.dense = 1 / 10 ∧ Apart e {1} 1 ∧
    (∀ k, k ≠ 1 → 1 ≤ |e 1 - e k|) ∧ (∀ k, 1 ≤ |e k - 2 / 3 * 3|) ∧ |e' 2 - 3| ≤ 1 / 10 := by
  obtain ⟨g, h1, hgb, h2, hd⟩ := C67_weights (N := 3) (by norm_num) false (.inl rfl)
  have hnn : NonnegW g.W.dense := fun i j => by rw [hd]; split <;> norm_num
  obtain ⟨S, s, hr, hl, -⟩ := ready_ofGraph hgb hnn (by norm_num) h2
  obtain ⟨e, U, -, hr1, hb1, -, hl1, -⟩ := C113_computed hr
  obtain ⟨hist, hs⟩ := hr.reached
  obtain ⟨-, e0, U0, hb0, hfreq, -⟩ := Spectrum.C87_path (by norm_num) h1 hr.sound hist hs hl
  rw [hb0] at hb1
  simp only [Option.some.injEq, Basis.mk.injEq, heq_eq_eq, true_and] at hb1
  obtain ⟨rfl, rfl⟩ := hb1
  have hc1 : cos (π * 1 / 3) = 1 / 2 := by rw [mul_one, cos_pi_div_three]
  have hc2 : cos (π * 2 / 3) = - (1 / 2) := by
    rw [show π * 2 / 3 = π - π / 3 by ring, cos_pi_sub, cos_pi_div_three]
  have v0 : e0 0 = 0 := by rw [hfreq]; simp
  have v1 : e0 1 = 1 := by rw [hfreq]; push_cast; simp only [Fin.val_one, Nat.cast_one]; rw [hc1]; norm_num
  have v2 : e0 2 = 3 := by rw [hfreq]; push_cast; simp only [Fin.val_two, Nat.cast_ofNat]; rw [hc2]; norm_num
  set M' : Matrix (Fin 3) (Fin 3) ℝ := !![0, 1, 1 / 20; 1, 0, 1; 1 / 20, 1, 0] with hM'
  have hnn' : NonnegW M' := by intro i j; fin_cases i <;> fin_cases j <;> simp [hM']
  obtain ⟨S', g', s', hd', hr', hl', -⟩ := exists_ready M' hnn' (by norm_num)
  obtain ⟨e', U', -, hr1', hb1', -, hl1', -⟩ := C113_computed hr'
  have hw : weightChange g.W.dense g'.W.dense = 1 / 10 := by
    rw [hd']
    unfold weightChange
    simp only [hd, Fin.sum_univ_three, hM']
    simp [abs_of_pos]
    norm_num
  have gap : ∀ k, k ≠ 1 → 1 ≤ |e0 1 - e0 k| := by
    intro k hk
    fin_cases k
    · show 1 ≤ |e0 1 - e0 0|
      rw [v1, v0]; norm_num
    · exact absurd rfl hk
    · show 1 ≤ |e0 1 - e0 2|
      rw [v1, v2]; norm_num
  have hclose := freq_close hr1 hr1' (hl1.trans hl) (hl1'.trans hl') hb0 hb1' 2
  rw [hw, v2, abs_sub_comm] at hclose
  refine ⟨S, S', g, g', _, _, e0, e', U0, U', hr1, hr1', hl1.trans hl, hl1'.trans hl', hb0, hb1', h1, hw, fun j hj k hk => ?_, gap, fun k => ?_, hclose⟩
  · rw [Finset.mem_singleton.1 hj]
    exact gap k fun h => hk (by simp [h])
  · fin_cases k
    · show 1 ≤ |e0 0 - 2 / 3 * 3|
      rw [v0]; norm_num
    · show 1 ≤ |e0 1 - 2 / 3 * 3|
      rw [v1]; norm_num
    · show 1 ≤ |e0 2 - 2 / 3 * 3|
      rw [v2]; norm_num

end PyGSP
