import Verif.Props.SpectraRing
import Verif.Props.Comet

/-!
# C89: the graph frequencies of `FullConnected` and `Star`
-/

namespace PyGSP.Spectrum

open Matrix Spec GState Gen Classical

/-- **C89** `compute_fourier_basis()` on `FullConnected(N)` with the combinatorial Laplacian, after any history of calls: the
eigenvalues are `0, N, ..., N`. -/
theorem C89_full {N : ℕ} (hN : 0 < N) {lt : LapType} (hlt : lt = .combinatorial ∨ lt = .normalized) {g : Graph N ℝ}
    (hg : fullConnected N lt = .ok g) {S : Solvers N} (hS : Sound S) (ops : List (Op N)) {s : GState N} (hs : s = runAll S ops (GState.ofGraph g))
    (hc : s.lapType = .combinatorial) :
    (s.computeFourierBasis S none).1 = .ok () ∧ ∃ (e : Fin N → ℝ) (U : Matrix (Fin N) (Fin N) ℝ), (s.computeFourierBasis S none).2.basis = some ⟨N, e, U⟩ ∧
      ∀ k, e k = if k.1 = 0 then 0 else (N : ℝ) := by
  obtain ⟨g', h1, hb, -, hW, hu, -⟩ := C72_full N hlt
  rw [hg] at h1
  obtain rfl := Except.ok.inj h1
  have hnn : NonnegW g.W.dense := fun i j => by rw [hW]; split <;> norm_num
  obtain ⟨h1, e, U, h2, h3, -, -, -, σ, h4⟩ := fourier_spectrum hS hb hnn hu hN (dft_det hN)
    (f := fun k => if k.1 = 0 then 0 else (N : ℝ)) (fun i k => by
      have hw : ∀ j, (g.W.dense i j : ℂ) * (dft N i k - dft N j k) = dft N i k - dft N j k := by
        intro j
        rw [hW]
        by_cases h : i = j
        · subst h; simp
        · rw [if_neg h]; simp
      simp only [hw, Finset.sum_sub_distrib, Finset.sum_const, Finset.card_univ, Fintype.card_fin, nsmul_eq_mul]
      have hsum : ∑ j : Fin N, dft N j k = ∑ j ∈ Finset.range N, root N k.1 ^ j := Fin.sum_univ_eq_sum_range (fun j => root N k.1 ^ j) N
      rw [hsum]
      by_cases h : k.1 = 0
      · rw [if_pos h, h]
        have : root N 0 = 1 := pow_zero _
        simp [this, dft, h]
      · rw [if_neg h]
        have hne : root N k.1 - 1 ≠ 0 := by
          intro h'
          exact h (root_inj hN k.2 hN ((sub_eq_zero.1 h').trans (pow_zero _).symm))
        have hz : ∑ j ∈ Finset.range N, root N k.1 ^ j = 0 := by
          have := geom_sum_mul (root N k.1) N
          rw [root_pow hN, sub_self] at this
          exact (mul_eq_zero.1 this).resolve_right hne
        rw [hz, sub_zero]
        simp) ops hs hc
  have hf : Monotone fun k : Fin N => if k.1 = 0 then 0 else (N : ℝ) := by
    intro a b hab
    have hab' : a.1 ≤ b.1 := hab
    dsimp only
    split
    · split <;> positivity
    · rw [if_neg (by omega)]
  exact ⟨h1, e, U, h2, fun k => congrFun (eq_of_sorted h3 hf h4) k⟩

/-- a complete family of eigenvectors of the star -/
noncomputable def starMatrix (N : ℕ) : Matrix (Fin N) (Fin N) ℂ := Matrix.of fun i k =>
  if k.1 = 0 then 1
  else if k.1 + 1 = N then (if i.1 = 0 then (N : ℂ) - 1 else -1)
  else (if i.1 = k.1 then 1 else 0) - if i.1 + 1 = N then 1 else 0

theorem star_sum {N : ℕ} (hN : 2 ≤ N) (h : Fin N → ℂ) :
    ∑ k, h k = h ⟨0, by omega⟩ + h ⟨N - 1, by omega⟩ + ∑ k : Fin N, if k.1 = 0 ∨ k.1 + 1 = N then 0 else h k := by
  have : ∀ k : Fin N, h k = ((if k = ⟨0, by omega⟩ then h k else 0) + if k = ⟨N - 1, by omega⟩ then h k else 0) + if k.1 = 0 ∨ k.1 + 1 = N then 0 else h k := by
    intro k
    by_cases h1 : k.1 = 0
    · rw [if_pos (Fin.ext h1), if_neg (fun h2 => by have := congrArg Fin.val h2; simp at this; omega), if_pos (.inl h1)]; simp
    · by_cases h2 : k.1 + 1 = N
      · rw [if_neg (fun h3 => h1 (congrArg Fin.val h3)), if_pos (Fin.ext (by simp; omega)), if_pos (.inr h2)]; simp
      · rw [if_neg (fun h3 => h1 (congrArg Fin.val h3)), if_neg (fun h3 => h2 (by have := congrArg Fin.val h3; simp at this; omega)),
          if_neg (by rintro (h | h) <;> contradiction)]; simp
  rw [Finset.sum_congr rfl fun k _ => this k, Finset.sum_add_distrib, Finset.sum_add_distrib]
  simp

theorem starMatrix_det {N : ℕ} (hN : 2 ≤ N) : (starMatrix N).det ≠ 0 := by
  intro hd
  obtain ⟨x, hx, h0⟩ := Matrix.exists_mulVec_eq_zero_iff.2 hd
  apply hx
  have hNC : (N : ℂ) ≠ 0 := by exact_mod_cast (by omega : N ≠ 0)
  have hrow : ∀ i : Fin N, x ⟨0, by omega⟩ + (if i.1 = 0 then (N : ℂ) - 1 else -1) * x ⟨N - 1, by omega⟩ +
      ∑ k : Fin N, (if k.1 = 0 ∨ k.1 + 1 = N then 0 else ((if i.1 = k.1 then 1 else 0) - if i.1 + 1 = N then 1 else 0) * x k) = 0 := by
    intro i
    have := congrFun h0 i
    rw [mulVec, dotProduct, star_sum hN, Pi.zero_apply] at this
    refine Eq.trans ?_ this
    congr 1
    · congr 1
      · simp [starMatrix]
      · simp only [starMatrix, of_apply]
        rw [if_neg (by omega : ¬ N - 1 = 0), if_pos (by omega : N - 1 + 1 = N)]
    · refine Finset.sum_congr rfl fun k _ => ?_
      by_cases h : k.1 = 0 ∨ k.1 + 1 = N
      · rw [if_pos h, if_pos h]
      · rw [if_neg h, if_neg h]
        push Not at h
        simp only [starMatrix, of_apply]
        rw [if_neg h.1, if_neg h.2]
  set a := x ⟨0, by omega⟩ with ha
  set b := x ⟨N - 1, by omega⟩ with hb
  have r0 := hrow ⟨0, by omega⟩
  have hmid : ∀ i : Fin N, i.1 ≠ 0 → i.1 + 1 ≠ N → x i = b - a := by
    intro i h1 h2
    have := hrow i
    rw [if_neg h1, Finset.sum_eq_single i (fun k _ hk => by
      have hik : ¬ i.1 = k.1 := fun h => hk (Fin.ext h.symm)
      simp [hik, h2]) (by simp), if_neg (by tauto), if_pos rfl, if_neg h2] at this
    linear_combination this
  have hz0 : a + ((N : ℂ) - 1) * b = 0 := by
    rw [if_pos rfl, Finset.sum_eq_zero (fun k _ => by
      by_cases h : k.1 = 0 ∨ k.1 + 1 = N
      · rw [if_pos h]
      · push Not at h
        rw [if_neg (by tauto), if_neg (fun h' => h.1 h'.symm), if_neg (by simp; omega)]; simp)] at r0
    linear_combination r0
  have hab : a = b := by
    by_contra hne
    have r1 := hrow ⟨N - 1, by omega⟩
    rw [if_neg (by simp; omega)] at r1
    have hs : ∑ k : Fin N, (if k.1 = 0 ∨ k.1 + 1 = N then 0 else ((if N - 1 = k.1 then (1 : ℂ) else 0) - if N - 1 + 1 = N then 1 else 0) * x k) = ((N : ℂ) - 2) * (a - b) := by
      have e1 : ∀ k : Fin N, (if k.1 = 0 ∨ k.1 + 1 = N then 0 else ((if N - 1 = k.1 then (1 : ℂ) else 0) - if N - 1 + 1 = N then 1 else 0) * x k) =
          if k.1 = 0 ∨ k.1 + 1 = N then 0 else a - b := by
        intro k
        by_cases h : k.1 = 0 ∨ k.1 + 1 = N
        · rw [if_pos h, if_pos h]
        · rw [if_neg h, if_neg h]
          push Not at h
          rw [if_neg (by omega), if_pos (by omega), hmid k h.1 h.2]
          ring
      rw [Finset.sum_congr rfl fun k _ => e1 k]
      have := star_sum hN fun _ : Fin N => a - b
      simp only [Finset.sum_const, Finset.card_univ, Fintype.card_fin, nsmul_eq_mul] at this
      linear_combination -this
    have r1' : a + -1 * b + ((N : ℂ) - 2) * (a - b) = 0 := by rw [← hs]; exact r1
    have hN1 : (N : ℂ) - 1 ≠ 0 := by
      rw [sub_ne_zero]; exact_mod_cast (by omega : N ≠ 1)
    have : ((N : ℂ) - 1) * (a - b) = 0 := by linear_combination r1'
    exact (mul_ne_zero hN1 (sub_ne_zero.2 hne)) this
  have hb0 : b = 0 := by
    have : (N : ℂ) * b = 0 := by rw [hab] at hz0; linear_combination hz0
    exact (mul_eq_zero.1 this).resolve_left hNC
  funext i
  rw [Pi.zero_apply]
  by_cases h1 : i.1 = 0
  · have : i = ⟨0, by omega⟩ := Fin.ext h1
    rw [this, ← ha, hab, hb0]
  · by_cases h2 : i.1 + 1 = N
    · have : i = ⟨N - 1, by omega⟩ := Fin.ext (by simp; omega)
      rw [this, ← hb, hb0]
    · rw [hmid i h1 h2, hab, sub_self]

/-- **C89** `compute_fourier_basis()` on `Star(N)` (`N ≥ 2`) with the combinatorial Laplacian, after any history of calls: the
eigenvalues are `0, 1, ..., 1, N`. -/
theorem C89_star {N : ℕ} (hN : 2 ≤ N) {lt : LapType} (hlt : lt = .combinatorial ∨ lt = .normalized) {g : Graph N ℝ}
    (hg : Gen.star N lt = .ok g) {S : Solvers N} (hS : Sound S) (ops : List (Op N)) {s : GState N} (hs : s = runAll S ops (GState.ofGraph g))
    (hc : s.lapType = .combinatorial) :
    (s.computeFourierBasis S none).1 = .ok () ∧ ∃ (e : Fin N → ℝ) (U : Matrix (Fin N) (Fin N) ℝ), (s.computeFourierBasis S none).2.basis = some ⟨N, e, U⟩ ∧
      ∀ k, e k = if k.1 = 0 then 0 else if k.1 + 1 = N then (N : ℝ) else 1 := by
  obtain ⟨g', h1, hb, -, hW⟩ := C71_star (N := N) (by omega) hlt
  rw [hg] at h1
  obtain rfl := Except.ok.inj h1
  have hnn : NonnegW g.W.dense := fun i j => by rw [hW]; split <;> norm_num
  have hu : Undirected g.W.dense := fun i j => by rw [hW, hW]; exact if_congr or_comm rfl rfl
  have hNR : (2 : ℝ) ≤ N := by exact_mod_cast hN
  obtain ⟨h1, e, U, h2, h3, -, -, -, σ, h4⟩ := fourier_spectrum hS hb hnn hu (by omega) (starMatrix_det hN)
    (f := fun k => if k.1 = 0 then 0 else if k.1 + 1 = N then (N : ℝ) else 1) (fun i k => by
      let z : Fin N := ⟨0, by omega⟩
      by_cases hi : i.1 = 0
      · have e1 : ∀ j : Fin N, (g.W.dense i j : ℂ) * (starMatrix N i k - starMatrix N j k) = starMatrix N i k - starMatrix N j k := by
          intro j
          rw [hW]
          by_cases hj : j.1 = 0
          · have : i = j := Fin.ext (hi.trans hj.symm)
            subst this; simp
          · rw [if_pos (.inl ⟨hi, hj⟩)]; simp
        simp only [e1, Finset.sum_sub_distrib, Finset.sum_const, Finset.card_univ, Fintype.card_fin, nsmul_eq_mul]
        have e2 : ∑ j : Fin N, starMatrix N j k = if k.1 = 0 then (N : ℂ) else 0 := by
          by_cases hk : k.1 = 0
          · rw [if_pos hk]; simp [starMatrix, hk]
          · rw [if_neg hk]
            simp only [starMatrix, of_apply, if_neg hk]
            by_cases hk2 : k.1 + 1 = N
            · simp only [if_pos hk2]
              have : ∀ j : Fin N, (if j.1 = 0 then (N : ℂ) - 1 else -1) = (if j = z then (N : ℂ) else 0) - 1 := by
                intro j
                by_cases hj : j.1 = 0
                · rw [if_pos hj, if_pos (Fin.ext hj)]
                · rw [if_neg hj, if_neg (fun h => hj (congrArg Fin.val h))]; ring
              simp [this]
            · simp only [if_neg hk2, Finset.sum_sub_distrib]
              have a1 : ∑ j : Fin N, (if j.1 = k.1 then (1 : ℂ) else 0) = 1 := by
                simp only [← Fin.ext_iff]; simp
              have a2 : ∑ j : Fin N, (if j.1 + 1 = N then (1 : ℂ) else 0) = 1 := by
                rw [Finset.sum_eq_single (⟨N - 1, by omega⟩ : Fin N) (fun b _ hb => if_neg (fun h => hb (Fin.ext (by simp; omega)))) (by simp),
                  if_pos (by simp; omega)]
              rw [a1, a2, sub_self]
        rw [e2]
        simp only [starMatrix, of_apply]
        by_cases hk : k.1 = 0
        · simp [hk]
        · simp only [if_neg hk]
          by_cases hk2 : k.1 + 1 = N
          · simp [hk2, hi]
          · rw [if_neg hk2, if_neg hk2, if_neg (by omega), if_neg (by omega)]; simp
      · rw [Finset.sum_eq_single z (fun j _ hj => by
            rw [hW, if_neg (by rintro (h | h); exacts [hi h.1, hj (Fin.ext h.1)])]; simp) (by simp), hW, if_pos (.inr ⟨rfl, hi⟩)]
        simp only [starMatrix, of_apply, z]
        by_cases hk : k.1 = 0
        · simp [hk]
        · simp only [if_neg hk, if_neg hi]
          by_cases hk2 : k.1 + 1 = N
          · simp [hk2]; ring
          · rw [if_neg hk2, if_neg hk2, if_neg (by omega : ¬ 0 = k.1), if_neg (by omega : ¬ 0 + 1 = N), if_neg hk2]; simp) ops hs hc
  have hf : Monotone fun k : Fin N => if k.1 = 0 then 0 else if k.1 + 1 = N then (N : ℝ) else 1 := by
    intro a b hab
    have hab' : a.1 ≤ b.1 := hab
    have := b.2
    dsimp only
    split
    · split
      · exact le_rfl
      · split <;> linarith
    · rw [if_neg (by omega : ¬ b.1 = 0)]
      split
      · rw [if_pos (by omega)]
      · split <;> linarith
  exact ⟨h1, e, U, h2, fun k => congrFun (eq_of_sorted h3 hf h4) k⟩

/-- The hypotheses of the theorems of this family are met: freshly built `Ring(5, 2)`, `Torus(3, 4)`, `Grid2d(2, 3)`, `FullConnected(4)`, `Star(5)`. -/
example : (∃ (g : Graph 5 ℝ) (S : Solvers 5), ring 5 2 .combinatorial = .ok g ∧ Sound S ∧ (runAll S [] (GState.ofGraph g)).lapType = .combinatorial) ∧
    (∃ (g : Graph (4 * 3) ℝ) (S : Solvers (4 * 3)), torus 3 4 .combinatorial = .ok g ∧ Sound S ∧ (runAll S [] (GState.ofGraph g)).lapType = .combinatorial) ∧
    (∃ (g : Graph (2 * 3) ℝ) (S : Solvers (2 * 3)), grid2d 2 3 0 .combinatorial = .ok g ∧ Sound S ∧ (runAll S [] (GState.ofGraph g)).lapType = .combinatorial) ∧
    (∃ (g : Graph 4 ℝ) (S : Solvers 4), fullConnected 4 .combinatorial = .ok g ∧ Sound S ∧ (runAll S [] (GState.ofGraph g)).lapType = .combinatorial) ∧
    (∃ (g : Graph 5 ℝ) (S : Solvers 5), Gen.star 5 .combinatorial = .ok g ∧ Sound S ∧ (runAll S [] (GState.ofGraph g)).lapType = .combinatorial) := by
  refine ⟨?_, ?_, ?_, ?_, ?_⟩
  · obtain ⟨g, h1, hb, h2, -⟩ := C68_weights (N := 5) (k := 2) (by norm_num) (by norm_num) (.inl rfl)
    obtain ⟨S, hS, -⟩ := exists_sound 5
    exact ⟨g, S, h1, hS, (ofGraph_inv (S := S) g hb).2.2.1.trans h2⟩
  · obtain ⟨g, h1, hb, h2, -⟩ := C69_weights (Nv := 3) (Mv := 4) (by norm_num) (by norm_num) (.inl rfl)
    obtain ⟨S, hS, -⟩ := exists_sound (4 * 3)
    exact ⟨g, S, h1, hS, (ofGraph_inv (S := S) g hb).2.2.1.trans h2⟩
  · obtain ⟨g, h1, hb, h2, -⟩ := C70_weights (N1 := 2) (N2 := 3) (by norm_num) (by norm_num) 0 (.inl rfl)
    obtain ⟨S, hS, -⟩ := exists_sound (2 * 3)
    exact ⟨g, S, h1, hS, (ofGraph_inv (S := S) g hb).2.2.1.trans h2⟩
  · obtain ⟨g, h1, hb, h2, -⟩ := C72_full 4 (.inl rfl)
    obtain ⟨S, hS, -⟩ := exists_sound 4
    exact ⟨g, S, h1, hS, (ofGraph_inv (S := S) g hb).2.2.1.trans h2⟩
  · obtain ⟨g, h1, hb, h2, -⟩ := C71_weights (N := 5) (k := 5 - 1) (by omega) (.inl rfl)
    obtain ⟨S, hS, -⟩ := exists_sound 5
    exact ⟨g, S, by unfold Gen.star; rw [if_neg (by omega), h1], hS, (ofGraph_inv (S := S) g hb).2.2.1.trans h2⟩

end PyGSP.Spectrum
