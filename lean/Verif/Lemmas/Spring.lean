import Verif.Props.Layout

/-!
# The iterations of the spring layout and the symmetries
-/

namespace PyGSP.Layout

open Matrix Spec GState

variable {n dim : ℕ}

theorem of2_inj {m : ℕ} {x y : Fin n → Fin m → ℝ} (h : Arr.of2 x = Arr.of2 y) : x = y := by
  funext i j
  have h2 := congrFun (congrArg Arr.val h) [i.1, j.1]
  simpa [Arr.of2] using h2

theorem array_inj {m : ℕ} {x y : Fin n → Fin m → ℝ} (h : Coords.array (.of2 x) = .array (.of2 y)) : x = y := of2_inj (by injection h)

/-- an orthogonal matrix keeps lengths -/
theorem orth_length {Q : Matrix (Fin dim) (Fin dim) ℝ} (hQ : Qᵀ * Q = 1) (v : Fin dim → ℝ) : ∑ c, (Q *ᵥ v) c ^ 2 = ∑ c, v c ^ 2 := by
  have h : (Q *ᵥ v) ⬝ᵥ (Q *ᵥ v) = v ⬝ᵥ v := by
    rw [Matrix.dotProduct_mulVec, Matrix.vecMul_mulVec, hQ]
    simp
  simpa [dotProduct, sq] using h

variable {A : Fin n → Fin n → Bool} {k : ℝ} {fixed : List (Fin n)}

section
variable {Q : Matrix (Fin dim) (Fin dim) ℝ} (hQ : Qᵀ * Q = 1) (b : Fin dim → ℝ)
include hQ

theorem distance_iso (pos : Fin n → Fin dim → ℝ) (i j : Fin n) : distance (fun i => Q *ᵥ pos i + b) i j = distance pos i j := by
  unfold distance
  have : ∑ c, ((Q *ᵥ pos i + b) c - (Q *ᵥ pos j + b) c) ^ 2 = ∑ c, (pos i c - pos j c) ^ 2 := by
    have := orth_length hQ (pos i - pos j)
    rw [Matrix.mulVec_sub] at this
    simp only [Pi.sub_apply] at this
    rw [← this]
    refine Finset.sum_congr rfl fun c _ => ?_
    simp
  simp only [this]

theorem displacement_iso (pos : Fin n → Fin dim → ℝ) (i : Fin n) :
    displacement A k fixed (fun i => Q *ᵥ pos i + b) i = Q *ᵥ displacement A k fixed pos i := by
  unfold displacement
  by_cases hi : i ∈ fixed
  · simp [hi]
  · rw [if_neg hi, if_neg hi]
    funext c
    simp only [distance_iso hQ b]
    simp only [Matrix.mulVec, dotProduct, Pi.add_apply, Finset.mul_sum]
    rw [Finset.sum_comm]
    refine Finset.sum_congr rfl fun j _ => ?_
    rw [add_sub_add_right_eq_sub, ← Finset.sum_sub_distrib, Finset.sum_mul]
    refine Finset.sum_congr rfl fun a _ => ?_
    ring

theorem springStep_iso (t : ℝ) (pos : Fin n → Fin dim → ℝ) :
    springStep A k fixed t (fun i => Q *ᵥ pos i + b) = fun i => Q *ᵥ springStep A k fixed t pos i + b := by
  funext i c
  unfold springStep
  simp only [displacement_iso hQ b, orth_length hQ]
  set l : ℝ := if √(∑ c, displacement A k fixed pos i c ^ 2) < 1 / 100 then 1 / 10 else √(∑ c, displacement A k fixed pos i c ^ 2)
  simp only [Matrix.mulVec, dotProduct, Pi.add_apply]
  rw [Finset.sum_mul, Finset.sum_div, add_right_comm, ← Finset.sum_add_distrib]
  congr 1
  refine Finset.sum_congr rfl fun a _ => ?_
  ring

theorem springLoop_iso (dt : ℝ) (m : ℕ) (t : ℝ) (pos : Fin n → Fin dim → ℝ) :
    springLoop A k fixed dt m t (fun i => Q *ᵥ pos i + b) = fun i => Q *ᵥ springLoop A k fixed dt m t pos i + b := by
  induction m generalizing t pos with
  | zero => rfl
  | succ m ih =>
    unfold springLoop
    rw [springStep_iso hQ b, ih]

end

section
variable {A' : Fin n → Fin n → Bool} {fixed' : List (Fin n)} {σ : Equiv.Perm (Fin n)} (hA : ∀ i j, A' (σ i) (σ j) = A i j) (hf : ∀ i, σ i ∈ fixed' ↔ i ∈ fixed)

theorem distance_perm (σ : Equiv.Perm (Fin n)) {pos pos' : Fin n → Fin dim → ℝ} (hp : ∀ i, pos' (σ i) = pos i) (i j : Fin n) : distance pos' (σ i) (σ j) = distance pos i j := by
  unfold distance
  simp only [hp]

include hA hf

theorem springStep_perm (t : ℝ) {pos pos' : Fin n → Fin dim → ℝ} (hp : ∀ i, pos' (σ i) = pos i) (i : Fin n) :
    springStep A' k fixed' t pos' (σ i) = springStep A k fixed t pos i := by
  have hd : displacement A' k fixed' pos' (σ i) = displacement A k fixed pos i := by
    unfold displacement
    by_cases hi : i ∈ fixed
    · rw [if_pos hi, if_pos ((hf i).mpr hi)]
    · rw [if_neg hi, if_neg fun h => hi ((hf i).mp h)]
      funext c
      rw [← Equiv.sum_comp σ]
      simp only [distance_perm σ hp, hA, hp]
  funext c
  unfold springStep
  simp only [hd, hp]

theorem springLoop_perm (dt : ℝ) (m : ℕ) (t : ℝ) {pos pos' : Fin n → Fin dim → ℝ} (hp : ∀ i, pos' (σ i) = pos i) (i : Fin n) :
    springLoop A' k fixed' dt m t pos' (σ i) = springLoop A k fixed dt m t pos i := by
  induction m generalizing t pos pos' with
  | zero => exact hp i
  | succ m ih =>
    unfold springLoop
    exact ih _ fun i => springStep_perm hA hf t hp i

end

/-- a common linear equation stays true -/
theorem springLoop_flat {a : Fin dim → ℝ} {b : ℝ} (dt : ℝ) (m : ℕ) (t : ℝ) {pos : Fin n → Fin dim → ℝ} (hp : ∀ i, ∑ c, a c * pos i c = b) (i : Fin n) :
    ∑ c, a c * springLoop A k fixed dt m t pos i c = b := by
  induction m generalizing t pos with
  | zero => exact hp i
  | succ m ih =>
    unfold springLoop
    refine ih _ fun i => ?_
    have hd : ∑ c, a c * displacement A k fixed pos i c = 0 := by
      unfold displacement
      split
      · simp
      · simp only [Finset.mul_sum]
        rw [Finset.sum_comm]
        refine Finset.sum_eq_zero fun j _ => ?_
        have : ∀ c, a c * ((pos i c - pos j c) * (k * k / distance pos i j ^ 2 - (if A i j then 1 else 0) * distance pos i j / k)) =
            (a c * pos i c - a c * pos j c) * (k * k / distance pos i j ^ 2 - (if A i j then 1 else 0) * distance pos i j / k) := fun c => by ring
        simp only [this]
        rw [← Finset.sum_mul, Finset.sum_sub_distrib, hp, hp, sub_self, zero_mul]
    unfold springStep
    dsimp only
    set l : ℝ := if √(∑ c, displacement A k fixed pos i c ^ 2) < 1 / 100 then 1 / 10 else √(∑ c, displacement A k fixed pos i c ^ 2)
    have : ∀ c, a c * (pos i c + displacement A k fixed pos i c * t / l) = a c * pos i c + (a c * displacement A k fixed pos i c) * (t / l) := fun c => by ring
    simp only [this]
    rw [Finset.sum_add_distrib, hp, ← Finset.sum_mul, hd, zero_mul, add_zero]

end PyGSP.Layout
