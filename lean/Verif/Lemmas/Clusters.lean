import Verif.Lemmas.Cheeger
import Verif.Lemmas.Weyl

/-!
# Partitions of the vertices and the first eigenvectors

Means over clusters, the sum of the smallest eigenvalues, and the geometry of the cluster means of an orthonormal family.
-/

namespace PyGSP

open Matrix Spec

variable {n k : ℕ}

namespace Spec

/-- The vertices of a cluster, for a partition of the vertices given by labels. -/
def members (label : Fin n → Fin k) (c : Fin k) : Finset (Fin n) := Finset.univ.filter fun v => label v = c

/-- The mean of a signal over a cluster. -/
noncomputable def clusterMean (label : Fin n → Fin k) (x : Fin n → ℝ) (c : Fin k) : ℝ := (∑ v ∈ members label c, x v) / (members label c).card

/-- How far a signal is from being constant on each cluster: the sum of the squared differences to the mean of the cluster. -/
noncomputable def scatter (label : Fin n → Fin k) (x : Fin n → ℝ) : ℝ := ∑ v, (x v - clusterMean label x (label v)) ^ 2

/-- The ratio cut of a partition: the weight that leaves each cluster, divided by its number of vertices. -/
noncomputable def ratioCut (M : Matrix (Fin n) (Fin n) ℝ) (label : Fin n → Fin k) : ℝ := ∑ c, cut M (members label c) / (members label c).card

end Spec

namespace Clusters

variable {label : Fin n → Fin k}

theorem mem (v : Fin n) (c : Fin k) : v ∈ members label c ↔ label v = c := by simp [members]

theorem sum_members (f : Fin n → ℝ) : ∑ c, ∑ v ∈ members label c, f v = ∑ v, f v := by
  unfold members
  exact Finset.sum_fiberwise _ _ _

theorem card_pos (hs : Function.Surjective label) (c : Fin k) : (0 : ℝ) < (members label c).card := by
  obtain ⟨v, hv⟩ := hs c
  exact_mod_cast Finset.card_pos.2 ⟨v, (mem v c).2 hv⟩

theorem card_mean (x : Fin n → ℝ) (c : Fin k) : ((members label c).card : ℝ) * clusterMean label x c = ∑ v ∈ members label c, x v := by
  unfold clusterMean
  by_cases h : (members label c).card = 0
  · rw [Finset.card_eq_zero.1 h]
    simp
  · field_simp

/-- a sum of squares is the scatter and the part of the means -/
theorem decompose (x : Fin n → ℝ) : ∑ v, x v ^ 2 = scatter label x + ∑ c, (members label c).card * clusterMean label x c ^ 2 := by
  have h : scatter label x = ∑ c, ∑ v ∈ members label c, (x v - clusterMean label x c) ^ 2 := by
    unfold scatter
    rw [← sum_members (label := label)]
    exact Finset.sum_congr rfl fun c _ => Finset.sum_congr rfl fun v hv => by rw [(mem v c).1 hv]
  rw [h, ← Finset.sum_add_distrib, ← sum_members (label := label)]
  refine Finset.sum_congr rfl fun c _ => ?_
  have h2 := card_mean (label := label) x c
  have h3 : ∑ v ∈ members label c, (x v - clusterMean label x c) ^ 2 =
      ∑ v ∈ members label c, x v ^ 2 - 2 * clusterMean label x c * ∑ v ∈ members label c, x v + (members label c).card * clusterMean label x c ^ 2 := by
    rw [Finset.mul_sum, ← Finset.sum_sub_distrib, ← nsmul_eq_mul, ← Finset.sum_const, ← Finset.sum_add_distrib]
    exact Finset.sum_congr rfl fun v _ => by ring
  rw [h3, ← h2]
  ring

theorem scatter_nonneg (x : Fin n → ℝ) : 0 ≤ scatter label x := Finset.sum_nonneg fun _ _ => sq_nonneg _

theorem mean_comb {m : ℕ} (z : Fin m → ℝ) (x : Fin m → Fin n → ℝ) (c : Fin k) :
    clusterMean label (fun v => ∑ i, z i * x i v) c = ∑ i, z i * clusterMean label (x i) c := by
  unfold clusterMean
  rw [Finset.sum_comm, Finset.sum_div]
  exact Finset.sum_congr rfl fun i _ => by rw [← Finset.mul_sum]; ring

/-- the scatter of a combination -/
theorem scatter_comb {m : ℕ} (z : Fin m → ℝ) (x : Fin m → Fin n → ℝ) :
    scatter label (fun v => ∑ i, z i * x i v) ≤ (∑ i, z i ^ 2) * ∑ i, scatter label (x i) := by
  have h : ∀ v, (∑ i, z i * x i v - clusterMean label (fun v => ∑ i, z i * x i v) (label v)) ^ 2 ≤
      (∑ i, z i ^ 2) * ∑ i, (x i v - clusterMean label (x i) (label v)) ^ 2 := fun v => by
    rw [mean_comb, ← Finset.sum_sub_distrib]
    simp only [← mul_sub]
    exact Finset.sum_mul_sq_le_sq_mul_sq _ _ _
  unfold scatter
  refine (Finset.sum_le_sum fun v _ => h v).trans ?_
  rw [← Finset.mul_sum, Finset.sum_comm]

theorem sum_castLE (h : k ≤ n) (f : Fin n → ℝ) : ∑ i : Fin k, f (i.castLE h) = ∑ j : Fin n, if j.1 < k then f j else 0 := by
  rw [← Finset.sum_filter]
  refine Finset.sum_nbij (fun i => i.castLE h) (fun i _ => by simp) (fun i _ j _ hij => by simpa [Fin.ext_iff] using hij) (fun j hj => ?_) fun i _ => rfl
  have hj' : j.1 < k := by simpa using hj
  exact ⟨⟨j.1, hj'⟩, by simp, rfl⟩

/-- the sum of the `k` smallest numbers is at most any weighted sum with weights between 0 and 1 that sum to `k` -/
theorem smallest (h : k ≤ n) {e w : Fin n → ℝ} (he : Monotone e) (h0 : ∀ j, 0 ≤ w j) (h1 : ∀ j, w j ≤ 1) (hw : ∑ j, w j = k) :
    ∑ i : Fin k, e (i.castLE h) ≤ ∑ j, e j * w j := by
  rcases Nat.eq_zero_or_pos k with rfl | hk
  · have : ∀ j, w j = 0 := fun j => (Finset.sum_eq_zero_iff_of_nonneg fun j _ => h0 j).1 (by simpa using hw) j (Finset.mem_univ _)
    simp [this]
  set t := e ⟨k - 1, by omega⟩ with ht
  have hone : ∑ j : Fin n, (if j.1 < k then (1 : ℝ) else 0) = k := by
    rw [← sum_castLE h fun _ => 1]
    simp
  have key : ∀ j : Fin n, 0 ≤ (e j - t) * (w j - if j.1 < k then 1 else 0) := fun j => by
    split_ifs with hj
    · have : e j ≤ t := he (Fin.mk_le_mk.2 (by omega))
      nlinarith [h1 j]
    · have : t ≤ e j := he (Fin.mk_le_mk.2 (by omega))
      nlinarith [h0 j]
  have hsum := Finset.sum_nonneg fun j (_ : j ∈ Finset.univ) => key j
  have hex : ∑ j : Fin n, (e j - t) * (w j - if j.1 < k then 1 else 0) =
      (∑ j, e j * w j - ∑ j : Fin n, if j.1 < k then e j else 0) - t * (∑ j, w j - ∑ j : Fin n, if j.1 < k then (1 : ℝ) else 0) := by
    rw [← Finset.sum_sub_distrib, ← Finset.sum_sub_distrib, Finset.mul_sum, ← Finset.sum_sub_distrib]
    exact Finset.sum_congr rfl fun j _ => by split_ifs <;> ring
  rw [hex, hw, hone, sub_self, mul_zero, sub_zero] at hsum
  rw [sum_castLE h]
  linarith

/-- a square matrix that does not shrink vectors, and its transpose -/
theorem transpose_expands {M : Matrix (Fin k) (Fin k) ℝ} {t : ℝ} (h : ∀ z, t * ∑ i, z i ^ 2 ≤ ∑ i, (M *ᵥ z) i ^ 2) (y : Fin k → ℝ) :
    t * ∑ i, y i ^ 2 ≤ ∑ i, (Mᵀ *ᵥ y) i ^ 2 := by
  have ha : 0 ≤ ∑ i, y i ^ 2 := Finset.sum_nonneg fun _ _ => sq_nonneg _
  have hb : 0 ≤ ∑ i, (Mᵀ *ᵥ y) i ^ 2 := Finset.sum_nonneg fun _ _ => sq_nonneg _
  rcases le_or_gt t 0 with ht | ht
  · exact (mul_nonpos_of_nonpos_of_nonneg ht ha).trans hb
  have hinj : Function.Injective M.mulVec := by
    refine (injective_iff_map_eq_zero (Matrix.mulVecLin M)).2 fun z hz => ?_
    have h1 := h z
    have h2 : M *ᵥ z = 0 := hz
    rw [h2] at h1
    simp only [Pi.zero_apply, ne_eq, OfNat.ofNat_ne_zero, not_false_eq_true, zero_pow, Finset.sum_const_zero] at h1
    have h3 : ∑ i, z i ^ 2 = 0 := le_antisymm (by nlinarith) (Finset.sum_nonneg fun _ _ => sq_nonneg _)
    funext i
    exact pow_eq_zero_iff (two_ne_zero) |>.1 ((Finset.sum_eq_zero_iff_of_nonneg fun j _ => sq_nonneg (z j)).1 h3 i (Finset.mem_univ _))
  obtain ⟨z, hz⟩ := (Matrix.mulVec_surjective_iff_isUnit.2 (Matrix.mulVec_injective_iff_isUnit.1 hinj)) y
  have hz : M *ᵥ z = y := hz
  have h1 := h z
  rw [hz] at h1
  have h2 : ∑ i, y i ^ 2 = ∑ i, (Mᵀ *ᵥ y) i * z i := by
    have : y ⬝ᵥ y = (Mᵀ *ᵥ y) ⬝ᵥ z := by
      have h5 : y ⬝ᵥ (M *ᵥ z) = (Mᵀ *ᵥ y) ⬝ᵥ z := by rw [Matrix.dotProduct_mulVec, ← Matrix.mulVec_transpose]
      rwa [hz] at h5
    simp only [dotProduct] at this
    rw [← this]
    exact Finset.sum_congr rfl fun i _ => by ring
  have h3 : (∑ i, y i ^ 2) ^ 2 ≤ (∑ i, (Mᵀ *ᵥ y) i ^ 2) * ∑ i, z i ^ 2 := by
    conv_lhs => rw [h2]
    exact Finset.sum_mul_sq_le_sq_mul_sq _ _ _
  have hc : 0 ≤ ∑ i, z i ^ 2 := Finset.sum_nonneg fun _ _ => sq_nonneg _
  rcases ha.eq_or_lt with h0 | h0
  · rw [← h0, mul_zero]; exact hb
  · refine le_of_mul_le_mul_right ?_ h0
    nlinarith

variable {L : Matrix (Fin n) (Fin n) ℝ} {e : Fin n → ℝ} {U : Matrix (Fin n) (Fin n) ℝ}

/-- **the sum of the smallest eigenvalues** is at most the energies of the normalised indicators of the clusters -/
theorem ratio (hE : IsEigenPairs L e U) (he : Monotone e) (hs : Function.Surjective label) (h : k ≤ n) :
    ∑ i : Fin k, e (i.castLE h) ≤ ∑ c, Cheeger.ind (members label c) ⬝ᵥ (L *ᵥ Cheeger.ind (members label c)) / (members label c).card := by
  set w : Fin n → ℝ := fun j => ∑ c, (members label c).card * clusterMean label (fun v => U v j) c ^ 2 with hw
  have hcol : ∀ j, ∑ v, U v j ^ 2 = 1 := fun j => by
    have := congrFun (congrFun hE.orthonormal j) j
    rw [Matrix.mul_apply, Matrix.one_apply_eq] at this
    rw [← this]
    exact Finset.sum_congr rfl fun v _ => by rw [Matrix.transpose_apply]; ring
  have hc0 : ∀ c, ((members label c).card : ℝ) ≠ 0 := fun c => (card_pos hs c).ne'
  -- the weights in terms of the transforms of the indicators
  have hcoord : ∀ c j, ((members label c).card : ℝ) * clusterMean label (fun v => U v j) c ^ 2 = (Uᵀ *ᵥ Cheeger.ind (members label c)) j ^ 2 / (members label c).card := fun c j => by
    have h1 : (Uᵀ *ᵥ Cheeger.ind (members label c)) j = ∑ v ∈ members label c, U v j := by
      simp [Matrix.mulVec, dotProduct, Cheeger.ind]
    rw [h1, ← card_mean]
    have := hc0 c
    field_simp
  have hsum : ∑ j, w j = k := by
    rw [hw, Finset.sum_comm]
    rw [Finset.sum_congr rfl fun c _ => (Finset.sum_congr rfl fun j _ => hcoord c j : _ = _)]
    have : ∀ c : Fin k, ∑ j, (Uᵀ *ᵥ Cheeger.ind (members label c)) j ^ 2 / ((members label c).card : ℝ) = 1 := fun c => by
      rw [← Finset.sum_div, ← Weyl.norm_basis hE, Matrix.mulVec_mulVec, mul_eq_one_comm.1 hE.orthonormal, Matrix.one_mulVec]
      rw [div_eq_one_iff_eq (hc0 c)]
      simp [dotProduct, Cheeger.ind]
    simp [this]
  have hle : ∀ j, w j ≤ 1 := fun j => by
    have := decompose (label := label) fun v => U v j
    rw [hcol] at this
    have h2 := scatter_nonneg (label := label) fun v => U v j
    show ∑ c, _ ≤ _
    linarith
  refine (smallest h he (fun j => Finset.sum_nonneg fun c _ => mul_nonneg (card_pos hs c).le (sq_nonneg _)) hle hsum).trans (le_of_eq ?_)
  simp only [Finset.mul_sum]
  rw [Finset.sum_comm]
  refine Finset.sum_congr rfl fun c _ => ?_
  have hq := Weyl.quad_basis hE (Uᵀ *ᵥ Cheeger.ind (members label c))
  rw [Matrix.mulVec_mulVec, mul_eq_one_comm.1 hE.orthonormal, Matrix.one_mulVec] at hq
  rw [hq, Finset.sum_div]
  exact Finset.sum_congr rfl fun j _ => by rw [hcoord]; ring

/-- **the cluster means of an orthonormal family** of as many signals as clusters are far from each other -/
theorem separated {x : Fin k → Fin n → ℝ} (ho : ∀ i j, ∑ v, x i v * x j v = if i = j then 1 else 0) {η : ℝ} (hη : ∑ i, scatter label (x i) ≤ η)
    (hs : Function.Surjective label) {c d : Fin k} (hcd : c ≠ d) :
    (1 - η) * (1 / (members label c).card + 1 / (members label d).card) ≤ ∑ i, (clusterMean label (x i) c - clusterMean label (x i) d) ^ 2 := by
  set M : Matrix (Fin k) (Fin k) ℝ := Matrix.of fun c i => √((members label c).card) * clusterMean label (x i) c with hM
  have hexp : ∀ z, (1 - η) * ∑ i, z i ^ 2 ≤ ∑ i, (M *ᵥ z) i ^ 2 := fun z => by
    have h1 := decompose (label := label) fun v => ∑ i, z i * x i v
    have h2 : ∑ v, (∑ i, z i * x i v) ^ 2 = ∑ i, z i ^ 2 := by
      have : ∀ v, (∑ i, z i * x i v) ^ 2 = ∑ i, ∑ j, z i * z j * (x i v * x j v) := fun v => by
        rw [sq, Finset.sum_mul_sum]
        exact Finset.sum_congr rfl fun i _ => Finset.sum_congr rfl fun j _ => by ring
      rw [Finset.sum_congr rfl fun v _ => this v, Finset.sum_comm]
      refine Finset.sum_congr rfl fun i _ => ?_
      rw [Finset.sum_comm]
      simp only [← Finset.mul_sum, ho]
      simp [sq]
    have h3 := scatter_comb (label := label) z x
    have h4 : ∑ c, ((members label c).card : ℝ) * clusterMean label (fun v => ∑ i, z i * x i v) c ^ 2 = ∑ i, (M *ᵥ z) i ^ 2 := by
      refine Finset.sum_congr rfl fun c _ => ?_
      have : (M *ᵥ z) c = √((members label c).card) * clusterMean label (fun v => ∑ i, z i * x i v) c := by
        rw [mean_comb, Finset.mul_sum]
        simp only [Matrix.mulVec, dotProduct, hM, Matrix.of_apply]
        exact Finset.sum_congr rfl fun i _ => by ring
      rw [this, mul_pow, Real.sq_sqrt (Nat.cast_nonneg _)]
    have h5 : (∑ i, z i ^ 2) * ∑ i, scatter label (x i) ≤ (∑ i, z i ^ 2) * η :=
      mul_le_mul_of_nonneg_left hη (Finset.sum_nonneg fun _ _ => sq_nonneg _)
    rw [h2, h4] at h1
    linarith
  have hc := card_pos hs c
  have hd := card_pos hs d
  have h := transpose_expands hexp fun a => (if a = c then 1 / √((members label c).card) else 0) - if a = d then 1 / √((members label d).card) else 0
  have h1 : ∑ a : Fin k, ((if a = c then 1 / √((members label c).card : ℝ) else 0) - if a = d then 1 / √((members label d).card) else 0) ^ 2 =
      1 / (members label c).card + 1 / (members label d).card := by
    have : ∀ a : Fin k, ((if a = c then 1 / √((members label c).card : ℝ) else 0) - if a = d then 1 / √((members label d).card) else 0) ^ 2 =
        (if a = c then 1 / ((members label c).card : ℝ) else 0) + if a = d then 1 / ((members label d).card : ℝ) else 0 := fun a => by
      by_cases h1 : a = c
      · have h2 : a ≠ d := fun h => hcd (h1.symm.trans h)
        simp only [h1, if_true, if_neg hcd, sub_zero, add_zero, div_pow, one_pow, Real.sq_sqrt hc.le]
      · by_cases h2 : a = d
        · simp only [h2, if_true, if_neg hcd.symm, zero_sub, zero_add, neg_sq, div_pow, one_pow, Real.sq_sqrt hd.le]
        · simp [h1, h2]
    rw [Finset.sum_congr rfl fun a _ => this a, Finset.sum_add_distrib]
    simp
  rw [h1] at h
  refine h.trans (le_of_eq (Finset.sum_congr rfl fun i _ => ?_))
  have hm : ∀ a, M a i = √((members label a).card) * clusterMean label (x i) a := fun a => rfl
  have : (Mᵀ *ᵥ fun a => (if a = c then 1 / √((members label c).card : ℝ) else 0) - if a = d then 1 / √((members label d).card) else 0) i =
      clusterMean label (x i) c - clusterMean label (x i) d := by
    simp only [Matrix.mulVec, dotProduct, Matrix.transpose_apply, mul_sub, Finset.sum_sub_distrib, mul_ite, mul_zero, Finset.sum_ite_eq', Finset.mem_univ, if_true, hm]
    have h2 := (Real.sqrt_pos.2 hc).ne'
    have h3 := (Real.sqrt_pos.2 hd).ne'
    field_simp
  rw [this]

/-- A vertex that is at least as close to the mean of another cluster as to the mean of its own one is far from the latter: there are few of them. -/
theorem misplaced {x : Fin k → Fin n → ℝ} (ho : ∀ i j, ∑ v, x i v * x j v = if i = j then 1 else 0) {η : ℝ} (hη : ∑ i, scatter label (x i) ≤ η)
    (hs : Function.Surjective label) {d : Fin k} {v : Fin n} (hd : d ≠ label v)
    (hv : ∑ i, (x i v - clusterMean label (x i) d) ^ 2 ≤ ∑ i, (x i v - clusterMean label (x i) (label v)) ^ 2) :
    (1 - η) * (1 / (members label (label v)).card + 1 / (members label d).card) ≤ 4 * ∑ i, (x i v - clusterMean label (x i) (label v)) ^ 2 := by
  refine (separated ho hη hs hd.symm).trans ?_
  have : ∀ i, (clusterMean label (x i) (label v) - clusterMean label (x i) d) ^ 2 ≤
      2 * (x i v - clusterMean label (x i) d) ^ 2 + 2 * (x i v - clusterMean label (x i) (label v)) ^ 2 := fun i => by
    nlinarith [sq_nonneg (2 * x i v - clusterMean label (x i) d - clusterMean label (x i) (label v))]
  refine (Finset.sum_le_sum fun i _ => this i).trans ?_
  rw [Finset.sum_add_distrib, ← Finset.mul_sum, ← Finset.mul_sum]
  linarith

end Clusters

end PyGSP
