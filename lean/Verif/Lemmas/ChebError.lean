import Mathlib.Analysis.Calculus.LocalExtr.Rolle
import Mathlib.Analysis.Calculus.IteratedDeriv.Lemmas
import Mathlib.Analysis.Calculus.Deriv.Polynomial
import Mathlib.Analysis.Calculus.ContDiff.Polynomial
import Mathlib.LinearAlgebra.Lagrange
import Verif.Lemmas.Jackson

/-!
# Errors of polynomial interpolation at the Chebyshev nodes
-/

namespace PyGSP

open Polynomial Finset

/-- Rolle's theorem, iterated. -/
theorem rolle_iter : ∀ (N : ℕ) (f : ℝ → ℝ), ContDiff ℝ N f → ∀ s : Finset ℝ, s.card = N + 1 → (∀ x ∈ s, f x = 0) →
    ∃ ξ, (∃ a ∈ s, a ≤ ξ) ∧ (∃ b ∈ s, ξ ≤ b) ∧ iteratedDeriv N f ξ = 0 := by
  intro N
  induction N with
  | zero =>
    intro f _ s hs hz
    obtain ⟨a, rfl⟩ := Finset.card_eq_one.1 hs
    exact ⟨a, ⟨a, by simp, le_rfl⟩, ⟨a, by simp, le_rfl⟩, by simpa using hz a (by simp)⟩
  | succ N ih =>
    intro f hf s hs hz
    let z := s.orderEmbOfFin hs
    have hzs : ∀ i, z i ∈ s := fun i => s.orderEmbOfFin_mem hs i
    have hc : ∀ i : Fin (N + 1), ∃ c, z i.castSucc < c ∧ c < z i.succ ∧ deriv f c = 0 := fun i => by
      obtain ⟨c, hc, h0⟩ := exists_deriv_eq_zero (f := f) (z.strictMono (Fin.castSucc_lt_succ (i := i))) hf.continuous.continuousOn
        (by rw [hz _ (hzs _), hz _ (hzs _)])
      exact ⟨c, hc.1, hc.2, h0⟩
    choose c h1 h2 h3 using hc
    have hmono : StrictMono c := fun i j hij => (h2 i).trans_le ((z.monotone (by
      rw [Fin.le_def]; simpa using Nat.succ_le_of_lt hij)).trans (h1 j).le)
    have hd : ContDiff ℝ N (deriv f) := by
      have : ContDiff ℝ (N + 1) f := by exact_mod_cast hf
      exact (contDiff_succ_iff_deriv.1 this).2.2
    obtain ⟨ξ, ⟨a, ha, ha'⟩, ⟨b, hb, hb'⟩, h0⟩ := ih (deriv f) hd (Finset.univ.image c)
      (by rw [Finset.card_image_of_injective _ hmono.injective]; simp) (by simpa using h3)
    simp only [Finset.mem_image, Finset.mem_univ, true_and] at ha hb
    obtain ⟨i, rfl⟩ := ha
    obtain ⟨j, rfl⟩ := hb
    exact ⟨ξ, ⟨_, hzs _, (h1 i).le.trans ha'⟩, ⟨_, hzs _, hb'.trans (h2 j).le⟩, by rw [iteratedDeriv_succ']; exact h0⟩

theorem iteratedDeriv_eval (p : ℝ[X]) : ∀ N : ℕ, iteratedDeriv N (fun x => p.eval x) = fun x => (derivative^[N] p).eval x := by
  intro N
  induction N with
  | zero => simp
  | succ N ih =>
    rw [iteratedDeriv_succ, ih, Function.iterate_succ_apply']
    funext x
    exact Polynomial.deriv _

/-- The remainder of Lagrange interpolation. -/
theorem interp_error {N : ℕ} {f : ℝ → ℝ} (hf : ContDiff ℝ N f) {p : ℝ[X]} (hp : p.degree < N) {z : Fin N → ℝ} (hz : Function.Injective z)
    {a b : ℝ} (hab : ∀ i, z i ∈ Set.Icc a b) (he : ∀ i, p.eval (z i) = f (z i)) {x : ℝ} (hx : x ∈ Set.Icc a b) :
    ∃ ξ ∈ Set.Icc a b, f x - p.eval x = iteratedDeriv N f ξ / N.factorial * ∏ i, (x - z i) := by
  by_cases hn : ∃ i, x = z i
  · obtain ⟨i, rfl⟩ := hn
    exact ⟨z i, hx, by rw [he, sub_self, Finset.prod_eq_zero (Finset.mem_univ i) (sub_self _), mul_zero]⟩
  push Not at hn
  have hw0 : ∏ i, (x - z i) ≠ 0 := Finset.prod_ne_zero_iff.2 fun i _ => sub_ne_zero.2 (hn i)
  set w : ℝ[X] := ∏ i, (X - C (z i)) with hw
  have hwe : ∀ y, w.eval y = ∏ i, (y - z i) := fun y => by rw [hw, eval_prod]; simp
  have hmonic : w.Monic := monic_prod_of_monic _ _ fun i _ => monic_X_sub_C _
  have hdeg : w.natDegree = N := by
    rw [hw, natDegree_prod_of_monic _ _ fun i _ => monic_X_sub_C _]
    simp
  set c := (f x - p.eval x) / ∏ i, (x - z i) with hc
  set q : ℝ[X] := p + C c * w with hq
  have hqe : ∀ y, q.eval y = p.eval y + c * ∏ i, (y - z i) := fun y => by rw [hq, eval_add, eval_mul, eval_C, hwe]
  have hcd : ContDiff ℝ N fun y => f y - q.eval y := hf.sub (by simpa using q.contDiff_aeval (𝕜 := ℝ) N)
  obtain ⟨ξ, ⟨u, hu, hu'⟩, ⟨v, hv, hv'⟩, h0⟩ := rolle_iter N _ hcd (insert x (Finset.univ.image z))
    (by
      rw [Finset.card_insert_of_notMem (by simpa using fun i h => hn i h.symm), Finset.card_image_of_injective _ hz]
      simp)
    (by
      intro y hy
      simp only [Finset.mem_insert, Finset.mem_image, Finset.mem_univ, true_and] at hy
      rcases hy with rfl | ⟨i, rfl⟩
      · rw [hqe, hc, div_mul_cancel₀ _ hw0]; ring
      · rw [hqe, he, Finset.prod_eq_zero (Finset.mem_univ i) (sub_self _)]; ring)
  have hmem : ∀ y ∈ insert x (Finset.univ.image z), y ∈ Set.Icc a b := by
    intro y hy
    simp only [Finset.mem_insert, Finset.mem_image, Finset.mem_univ, true_and] at hy
    rcases hy with rfl | ⟨i, rfl⟩
    · exact hx
    · exact hab i
  refine ⟨ξ, ⟨(hmem u hu).1.trans hu', hv'.trans (hmem v hv).2⟩, ?_⟩
  have hsub : iteratedDeriv N (fun y => f y - q.eval y) ξ = iteratedDeriv N f ξ - iteratedDeriv N (fun y => q.eval y) ξ :=
    iteratedDeriv_fun_sub hf.contDiffAt (by simpa using (q.contDiff_aeval (𝕜 := ℝ) N).contDiffAt)
  have hder : derivative^[N] q = C (N.factorial * c) := by
    have h1 : derivative^[N] p = 0 := iterate_derivative_eq_zero_of_degree_lt hp
    have h2 : derivative^[N] w = C (N.factorial : ℝ) := by
      have hnd : (derivative^[N] w).natDegree = 0 := by
        have := natDegree_iterate_derivative w N
        rw [hdeg, Nat.sub_self] at this
        exact Nat.le_zero.1 this
      rw [eq_C_of_natDegree_eq_zero hnd, coeff_iterate_derivative, zero_add, Nat.descFactorial_self, nsmul_eq_mul]
      have : w.coeff N = 1 := by rw [← hdeg]; exact hmonic
      rw [this, mul_one]
    rw [hq, iterate_map_add, h1, zero_add, iterate_derivative_C_mul, h2, ← C_mul, mul_comm]
  rw [h0, iteratedDeriv_eval, hder] at hsub
  simp only [eval_C] at hsub
  have hfac : (N.factorial : ℝ) ≠ 0 := by exact_mod_cast N.factorial_ne_zero
  have : iteratedDeriv N f ξ = N.factorial * c := by linarith
  rw [this, mul_div_cancel_left₀ _ hfac, hc, div_mul_cancel₀ _ hw0]

end PyGSP
