import Verif.Lemmas.Learning
import Verif.Lemmas.StateExtra

/-!
# The projection on the simplex and the forward-backward step
-/

namespace PyGSP

open Matrix Spec Learning

variable {n d : ℕ}

/-- the result of the bisection: `evalpL` is nonpositive there, and nonnegative just before -/
theorem bisectLoop_spec (z : Fin d → ℝ) (lo hi : Fin d) (hlt : lo < hi) (hlo : 0 ≤ evalpL z lo) (hhi : evalpL z hi ≤ 0) :
    evalpL z (bisectLoop z lo hi) ≤ 0 ∧ ∃ p : Fin d, p.1 + 1 = (bisectLoop z lo hi).1 ∧ 0 ≤ evalpL z p := by
  fun_induction bisectLoop z lo hi with
  | case1 lo hi h mid hm ih =>
    refine ih ?_ hm.le hhi
    show (lo.1 + hi.1) / 2 < hi.1
    omega
  | case2 lo hi h mid hm ih =>
    refine ih ?_ hlo (not_lt.1 hm)
    show lo.1 < (lo.1 + hi.1) / 2
    omega
  | case3 lo hi h =>
    exact ⟨hhi, lo, by have : lo.1 < hi.1 := hlt; omega, hlo⟩

theorem evalpL_last (z : Fin d → ℝ) (k : Fin d) (hk : k.1 = d - 1) : evalpL z k = -1 := by
  unfold evalpL
  rw [Finset.sum_eq_zero]
  · norm_num
  · intro j _
    split
    · rename_i h
      have : j = k := by
        apply Fin.ext
        have := j.2
        have : k.1 ≤ j.1 := h
        omega
      rw [this, sub_self]
    · rfl

theorem bisectsearch_spec (z : Fin d → ℝ) (hd : 0 < d) :
    evalpL z (bisectsearch z hd) ≤ 0 ∧
      ((bisectsearch z hd).1 = 0 ∨ ∃ p : Fin d, p.1 + 1 = (bisectsearch z hd).1 ∧ 0 ≤ evalpL z p) := by
  unfold bisectsearch
  simp only
  split
  · rename_i h
    exact ⟨h.le, .inl rfl⟩
  · rename_i h
    have h0 := not_lt.1 h
    have hlast : evalpL z ⟨d - 1, by omega⟩ = -1 := evalpL_last z _ rfl
    have hlt : (⟨0, hd⟩ : Fin d) < ⟨d - 1, by omega⟩ := by
      rw [Fin.lt_def]
      by_contra hc
      have : (⟨0, hd⟩ : Fin d) = ⟨d - 1, by omega⟩ := Fin.ext (by simp only at hc ⊢; omega)
      rw [this, hlast] at h0
      linarith
    obtain ⟨h1, h2⟩ := bisectLoop_spec z _ _ hlt h0 (by rw [hlast]; norm_num)
    exact ⟨h1, .inr h2⟩

theorem card_ge (k : Fin d) : (∑ j : Fin d, if k ≤ j then (1 : ℝ) else 0) = d - (k.1 : ℝ) := by
  have h : (Finset.univ.filter fun j : Fin d => k ≤ j) = Finset.Ici k := by ext; simp
  rw [Finset.sum_boole, h, Fin.card_Ici, Nat.cast_sub k.2.le]

theorem evalpL_eq (z : Fin d → ℝ) (k : Fin d) :
    evalpL z k = (∑ j, if k ≤ j then z j else 0) - (d - (k.1 : ℝ)) * z k - 1 := by
  unfold evalpL
  rw [← card_ge, Finset.sum_mul, ← Finset.sum_sub_distrib]
  congr 1
  refine Finset.sum_congr rfl fun j _ => ?_
  split <;> simp

/-- the sum of the positive parts above the threshold is one -/
theorem threshold_sum {z : Fin d → ℝ} (hz : Monotone z) (hd : 0 < d) :
    ∑ j, max 0 (z j - ((∑ j, if bisectsearch z hd ≤ j then z j else 0) - 1) / (d - ((bisectsearch z hd).1 : ℝ))) = 1 := by
  obtain ⟨h1, h2⟩ := bisectsearch_spec z hd
  generalize bisectsearch z hd = k at h1 h2
  have hpos : (0 : ℝ) < d - (k.1 : ℝ) := by
    have : (k.1 : ℝ) < d := by exact_mod_cast k.2
    linarith
  set s := ∑ j, if k ≤ j then z j else 0 with hs
  have hle : (s - 1) / (d - (k.1 : ℝ)) ≤ z k := by
    rw [div_le_iff₀ hpos]
    rw [evalpL_eq, ← hs] at h1
    linarith
  have hge : ∀ j, j < k → z j ≤ (s - 1) / (d - (k.1 : ℝ)) := by
    intro j hj
    rcases h2 with h2 | ⟨p, hp, h2⟩
    · rw [Fin.lt_def] at hj; omega
    · have hjp : j ≤ p := by rw [Fin.lt_def] at hj; rw [Fin.le_def]; omega
      refine (hz hjp).trans ?_
      rw [le_div_iff₀ hpos]
      rw [evalpL_eq] at h2
      have hsp : (∑ j, if p ≤ j then z j else 0) = s + z p := by
        rw [hs, ← Finset.sum_add_sum_compl (s := {p}) fun j => if p ≤ j then z j else 0, Finset.sum_singleton, if_pos le_rfl,
          ← Finset.sum_add_sum_compl (s := {p}) fun j => if k ≤ j then z j else 0, Finset.sum_singleton,
          if_neg (by rw [Fin.le_def]; omega), zero_add, add_comm]
        congr 1
        refine Finset.sum_congr rfl fun j hj => ?_
        have hne : j ≠ p := by simpa using hj
        have : (p ≤ j) ↔ (k ≤ j) := by
          rw [Fin.le_def, Fin.le_def]
          have : j.1 ≠ p.1 := fun h => hne (Fin.ext h)
          omega
        simp only [this]
      rw [hsp] at h2
      have hc : (p.1 : ℝ) + 1 = k.1 := by exact_mod_cast hp
      rw [← hc] at *
      linarith
  have : ∀ j, max 0 (z j - (s - 1) / (d - (k.1 : ℝ))) =
      (if k ≤ j then z j else 0) - (if k ≤ j then (1 : ℝ) else 0) * ((s - 1) / (d - (k.1 : ℝ))) := by
    intro j
    split
    · rename_i h
      rw [max_eq_right]
      · ring
      · have := hz h
        linarith
    · rename_i h
      rw [max_eq_left]
      · ring
      · have := hge j (not_le.1 h)
        linarith
  simp only [this]
  rw [Finset.sum_sub_distrib, ← Finset.sum_mul, card_ge, ← hs]
  field_simp
  ring

/-- `np.argsort`: a permutation that sorts -/
theorem projSimplex_ok {idx : (Fin d → ℝ) → Fin d → Fin d} {y : Fin d → ℝ} (hb : Function.Bijective (idx y))
    (hm : Monotone fun j => y (idx y j)) (hd : 0 < d) :
    ∃ lam : ℝ, projSimplex idx y = .ok (fun j => max 0 (y j - lam)) ∧ ∑ j, max 0 (y j - lam) = 1 := by
  refine ⟨_, dif_pos hd, ?_⟩
  have := threshold_sum hm hd
  rw [← hb.sum_comp]
  exact this

/-- the optimality condition of the projection -/
theorem threshold_opt {y w : Fin d → ℝ} {lam : ℝ} (hx : ∑ j, max 0 (y j - lam) = 1) (hw : InSimplex w) :
    0 ≤ ∑ j, (max 0 (y j - lam) - y j) * (w j - max 0 (y j - lam)) := by
  have h1 : ∑ j, (max 0 (y j - lam) - y j) * (w j - max 0 (y j - lam)) =
      ∑ j, (max 0 (y j - lam) - y j + lam) * w j := by
    have : ∀ j, (max 0 (y j - lam) - y j) * (w j - max 0 (y j - lam)) =
        (max 0 (y j - lam) - y j + lam) * w j - lam * w j + lam * max 0 (y j - lam) := by
      intro j
      rcases le_total 0 (y j - lam) with h | h
      · rw [max_eq_right h]; ring
      · rw [max_eq_left h]; ring
    simp only [this]
    rw [Finset.sum_add_distrib, Finset.sum_sub_distrib, ← Finset.mul_sum, ← Finset.mul_sum, hx, hw.2]
    ring
  rw [h1]
  refine Finset.sum_nonneg fun j _ => mul_nonneg ?_ (hw.1 j)
  have := le_max_right 0 (y j - lam)
  linarith

/-- the Pythagorean inequality -/
theorem threshold_dist {y w : Fin d → ℝ} {lam : ℝ} (hx : ∑ j, max 0 (y j - lam) = 1) (hw : InSimplex w) :
    ∑ j, (max 0 (y j - lam) - y j) ^ 2 + ∑ j, (w j - max 0 (y j - lam)) ^ 2 ≤ ∑ j, (w j - y j) ^ 2 := by
  have h := threshold_opt hx hw
  have : ∀ j, (w j - y j) ^ 2 = (max 0 (y j - lam) - y j) ^ 2 + (w j - max 0 (y j - lam)) ^ 2 +
      2 * ((max 0 (y j - lam) - y j) * (w j - max 0 (y j - lam))) := fun j => by ring
  simp only [this]
  rw [Finset.sum_add_distrib, Finset.sum_add_distrib, ← Finset.mul_sum]
  linarith

end PyGSP
