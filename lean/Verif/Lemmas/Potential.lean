import Verif.Spec.Potential
import Verif.Lemmas.Laplacian

/-!
# The combinatorial Laplacian of a connected graph: maximum principle, kernel, pseudo-inverse
-/

namespace PyGSP

open Matrix Spec

variable {n : ℕ} {M : Matrix (Fin n) (Fin n) ℝ}

theorem wsym_pos_iff (hM : NonnegW M) (i j : Fin n) : 0 < wsym M i j ↔ M i j ≠ 0 ∨ M j i ≠ 0 := by
  have h1 := hM i j; have h2 := hM j i
  unfold wsym
  constructor
  · intro h
    by_contra hc
    push Not at hc
    rw [hc.1, hc.2] at h
    norm_num at h
  · rintro (h | h)
    · have := lt_of_le_of_ne h1 h.symm; linarith
    · have := lt_of_le_of_ne h2 h.symm; linarith

theorem Linked.symm {i j : Fin n} (h : Linked M i j) : Linked M j i := by
  induction h with
  | refl => exact .refl
  | tail _ hbc ih => exact .head (hbc.symm) ih

theorem Linked.of_reach {i j : Fin n} (h : Reach M i j) : Linked M i j :=
  Relation.ReflTransGen.mono (p := fun i j => M i j ≠ 0 ∨ M j i ≠ 0) (fun _ _ h => Or.inl h) _ _ h

theorem connected_of_strong (h : StronglyConnected M) : Connected M := fun i j => Linked.of_reach (h i j)

/-- **Maximum principle**: if the Laplacian of `v` is non-positive outside `B` and every vertex is linked to `B`, then `v`
is bounded by its values on `B`. -/
theorem max_principle (hM : NonnegW M) (B : Fin n → Prop) (hB : ∀ x, ∃ b, B b ∧ Linked M x b) (v : Fin n → ℝ)
    (hv : ∀ x, ¬ B x → (combLap M *ᵥ v) x ≤ 0) (x : Fin n) : ∃ b, B b ∧ v x ≤ v b := by
  obtain ⟨m, -, hm⟩ := Finset.exists_max_image Finset.univ v ⟨x, Finset.mem_univ _⟩
  obtain ⟨b, hb, hl⟩ := hB m
  -- walk from the maximum to `B`, all the vertices met before `B` are maxima
  have key : ∀ y, Linked M m y → (∃ b, B b ∧ v b = v m) ∨ v y = v m := by
    intro y hy
    induction hy with
    | refl => exact .inr rfl
    | tail _ hbc ih =>
      rename_i y z _
      rcases ih with ih | ih
      · exact .inl ih
      · by_cases hBy : B y
        · exact .inl ⟨y, hBy, ih⟩
        · right
          have h1 := hv y hBy
          rw [combLap_mulVec] at h1
          have h2 : ∀ j ∈ Finset.univ, 0 ≤ wsym M y j * (v y - v j) := fun j _ =>
            mul_nonneg (wsym_nonneg hM y j) (by rw [ih]; exact sub_nonneg.2 (hm j (Finset.mem_univ j)))
          have h3 : ∑ j, wsym M y j * (v y - v j) = 0 := le_antisymm h1 (Finset.sum_nonneg h2)
          have h4 := (Finset.sum_eq_zero_iff_of_nonneg h2).1 h3 z (Finset.mem_univ z)
          have h5 : wsym M y z ≠ 0 := ((wsym_pos_iff hM y z).2 hbc).ne'
          have h6 := (mul_eq_zero.1 h4).resolve_left h5
          linarith
  rcases key b hl with ⟨b', hb', h⟩ | h
  · exact ⟨b', hb', by rw [h]; exact hm x (Finset.mem_univ x)⟩
  · exact ⟨b, hb, by rw [h]; exact hm x (Finset.mem_univ x)⟩

theorem min_principle (hM : NonnegW M) (B : Fin n → Prop) (hB : ∀ x, ∃ b, B b ∧ Linked M x b) (v : Fin n → ℝ)
    (hv : ∀ x, ¬ B x → 0 ≤ (combLap M *ᵥ v) x) (x : Fin n) : ∃ b, B b ∧ v b ≤ v x := by
  obtain ⟨b, hb, h⟩ := max_principle hM B hB (-v) (fun x hx => by
    rw [Matrix.mulVec_neg]
    have := hv x hx
    simpa using this) x
  exact ⟨b, hb, by simpa using h⟩

/-- the kernel of the Laplacian of a connected graph is the constants -/
theorem combLap_ker (hM : NonnegW M) (hc : Connected M) {v : Fin n → ℝ} (hv : combLap M *ᵥ v = 0) (i j : Fin n) :
    v i = v j := by
  have h : ∀ i j, v i ≤ v j := by
    intro i j
    obtain ⟨b, rfl, hb⟩ := max_principle hM (· = j) (fun x => ⟨j, rfl, hc x j⟩) v (fun x _ => by rw [hv]; exact le_rfl) i
    exact hb
  exact le_antisymm (h i j) (h j i)

theorem combLap_isSymm (M : Matrix (Fin n) (Fin n) ℝ) : (combLap M)ᵀ = combLap M := by
  ext i j; rw [transpose_apply]; exact combLap_symm M j i

theorem sum_combLap_mulVec (M : Matrix (Fin n) (Fin n) ℝ) (v : Fin n → ℝ) : ∑ i, (combLap M *ᵥ v) i = 0 := by
  have h1 : combLap M *ᵥ (fun _ => 1) = 0 := by
    funext i; rw [combLap_mulVec]; simp
  have h2 : (fun _ => (1 : ℝ)) ⬝ᵥ (combLap M *ᵥ v) = 0 := by
    rw [Matrix.dotProduct_mulVec, ← Matrix.mulVec_transpose, combLap_isSymm, h1, zero_dotProduct]
  simpa [dotProduct] using h2

/-! ### Moore-Penrose inverses -/

theorem Spec.IsPinv.unique {A P Q : Matrix (Fin n) (Fin n) ℝ} (hP : IsPinv A P) (hQ : IsPinv A Q) : P = Q := by
  have h1 : A * P = A * Q := by
    calc A * P = A * Q * A * P := by rw [hQ.apa]
      _ = (A * Q)ᵀ * (A * P)ᵀ := by rw [hQ.ap, hP.ap, Matrix.mul_assoc]
      _ = (A * P * A * Q)ᵀ := by rw [← Matrix.transpose_mul, Matrix.mul_assoc (A * P) A Q]
      _ = A * Q := by rw [hP.apa, hQ.ap]
  have h2 : P * A = Q * A := by
    calc P * A = P * (A * Q * A) := by rw [hQ.apa]
      _ = (P * A)ᵀ * (Q * A)ᵀ := by rw [hQ.pa, hP.pa]; simp only [Matrix.mul_assoc]
      _ = (Q * (A * P * A))ᵀ := by rw [← Matrix.transpose_mul]; simp only [Matrix.mul_assoc]
      _ = Q * A := by rw [hP.apa, hQ.pa]
  calc P = P * A * P := hP.pap.symm
    _ = Q * A * Q := by rw [h2, Matrix.mul_assoc, h1, ← Matrix.mul_assoc]
    _ = Q := hQ.pap

theorem Spec.IsPinv.symm {A P : Matrix (Fin n) (Fin n) ℝ} (hP : IsPinv A P) (hA : Aᵀ = A) : Pᵀ = P := by
  refine IsPinv.unique (A := A) ⟨?_, ?_, ?_, ?_⟩ hP
  · have := congrArg transpose hP.apa
    simp only [Matrix.transpose_mul, hA] at this
    rw [Matrix.mul_assoc]; exact this
  · have := congrArg transpose hP.pap
    simp only [Matrix.transpose_mul, hA] at this
    rw [Matrix.mul_assoc]; exact this
  · have := hP.pa
    simp only [Matrix.transpose_mul, hA, Matrix.transpose_transpose] at this ⊢
    exact this.symm
  · have := hP.ap
    simp only [Matrix.transpose_mul, hA, Matrix.transpose_transpose] at this ⊢
    exact this.symm

/-- `L (P f) = f` for every `f` of zero sum, when the graph is connected -/
theorem combLap_pinv (hM : NonnegW M) (hc : Connected M) {P : Matrix (Fin n) (Fin n) ℝ} (hP : IsPinv (combLap M) P)
    {f : Fin n → ℝ} (hf : ∑ i, f i = 0) : combLap M *ᵥ (P *ᵥ f) = f := by
  set L := combLap M
  have hLs : Lᵀ = L := combLap_isSymm M
  set z := f - L *ᵥ (P *ᵥ f)
  have hz : L *ᵥ z = 0 := by
    have h1 : L * Pᵀ * L = L := by
      have := congrArg transpose hP.apa
      simp only [Matrix.transpose_mul, hLs] at this
      rw [Matrix.mul_assoc]; exact this
    have h2 : Pᵀ * L = L * P := by
      have := hP.ap
      rwa [Matrix.transpose_mul, hLs] at this
    have h3 : L * (L * P) = L := by rw [← h2, ← Matrix.mul_assoc, h1]
    rw [Matrix.mulVec_sub, Matrix.mulVec_mulVec, Matrix.mulVec_mulVec, Matrix.mul_assoc, h3, sub_self]
  have hconst := combLap_ker hM hc hz
  have hsum : ∑ i, z i = 0 := by
    simp only [z, Pi.sub_apply, Finset.sum_sub_distrib, hf]
    rw [sum_combLap_mulVec]; simp
  have hz0 : z = 0 := by
    funext i
    have : ∑ j, z j = n * z i := by
      rw [Finset.sum_congr rfl fun j _ => hconst j i]; simp
    rw [hsum] at this
    have hn : (n : ℝ) ≠ 0 := by
      have := i.pos
      positivity
    exact (mul_eq_zero.1 this.symm).resolve_left hn
  exact (sub_eq_zero.1 hz0).symm

end PyGSP
