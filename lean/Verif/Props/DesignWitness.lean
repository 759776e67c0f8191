import Verif.Props.VertexFreq
import Verif.Props.FilterWitness

/-!
# Concrete cases for C41 - C51

Everything below is on the path with 4 vertices, after one call of `compute_fourier_basis()`: all the hypotheses of the
theorems about the filter designs hold together, and their conclusions are about graphs, signals and banks that exist.
-/

namespace PyGSP

open Matrix Spec GState Real Design

/-- C41 - C45: the designs exist with the default parameters, and reconstruct on a concrete graph. -/
example : ∃ g : Graph 4 ℝ, g.Built ∧ g.W.dense = path4 ∧ ∃ (S : Solvers 4) (s : GState 4) (l : ℝ), 0 < l ∧
    (s.getLmax S).1 = .ok (some (.fin l)) ∧ ∀ (junk : Junk) (x : Fin 4 → ℝ),
      ∃ A s', (held junk l (2 / 3)).analyze S (Arr.of1 x) .exact 30 s = (.ok A, s') ∧
        ((held junk l (2 / 3)).synthesize S A .exact 30 s').1 = .ok (Arr.of1 x) := by
  obtain ⟨g, hg, hd, S, hS, s, hs, hk, ⟨b, hb, hbk⟩, l, ⟨hl, -⟩, hlm⟩ :=
    exists_setup path4 path4_nonneg (i := 0) (j := 1) (by decide) (by simp [path4])
  have hW : NonnegW g.W.dense := by rw [hd]; exact path4_nonneg
  have hc : ∀ b, s.basis = some b → b.k = 4 := by
    intro b' hb'
    rw [hb] at hb'; cases hb'; exact hbk
  obtain ⟨e, U, he, h0, hbas, -⟩ := single_setup hS hg _ hs hW (by norm_num) hk hc
  exact ⟨g, hg, hd, S, s, l, hl, hlm, fun junk x =>
    C41_reconstruction junk hl (2 / 3) 3 (.inl rfl) hS hg _ hs (by norm_num) _ hbas rfl h0 30 x⟩

/-- C42 - C45 with the default parameters (`Nf = 6`, `overlap = 2`) and `lmax = 4`. -/
example : (∃ f, meyer 4 6 none = .ok f ∧ f.Nf = 6 ∧ f.TightOn 1 (Set.Iic 4)) ∧
    (∃ f, simpleTight 4 6 none = .ok f ∧ f.Nf = 6 ∧ f.TightOn 1 (Set.Iic 4)) ∧
    (∃ f, halfCosine 4 6 = .ok f ∧ f.Nf = 6 ∧ f.TightOn (9 / 8) (Set.Icc 0 4)) ∧
    (itersine 4 6 2).TightOn 1 (Set.Icc 0 4) := by
  refine ⟨?_, ?_, (C44_halfCosine (by norm_num) 6).2 (by norm_num), (C45_itersine (by norm_num) (by decide) (by norm_num)
    (by norm_num)).2⟩
  · obtain ⟨f, h1, h2, h3, -⟩ := C42_meyer (lmax := 4) (by norm_num) (Nf := 6) (by norm_num)
    exact ⟨f, h1, h2, h3⟩
  · obtain ⟨f, h1, h2, h3, -⟩ := C43_simpleTight (lmax := 4) (by norm_num) (Nf := 6) (by norm_num) none (.inl rfl)
    exact ⟨f, h1, h2, h3⟩

/-- C46: heat diffusion on the path keeps a temperature profile between its bounds, and C47: the wave of speed 1 satisfies
the discrete wave equation; C49: band selection is a projection. -/
example : ∃ g : Graph 4 ℝ, g.Built ∧ g.W.dense = path4 ∧ ∃ (S : Solvers 4) (s : GState 4) (l : ℝ), 0 < l ∧
    s.lapType = .combinatorial ∧ (s.getLmax S).1 = .ok (some (.fin l)) ∧
    (∃ y : Fin 4 → ℝ, ((heat l [10] none).filter S (Arr.of1 ![1, 0, 0, 3]) .exact 30 s).1 = .ok (Arr.of1 y) ∧
      (∀ v, 0 ≤ y v ∧ y v ≤ 3) ∧ ∑ v, y v = 4) ∧
    (∃ (f0 fp : Bank) (y0 yp : Fin 4 → ℝ), wave l [0] [1] = .ok f0 ∧ wave l [1] [1] = .ok fp ∧
      (f0.filter S (Arr.of1 ![1, 0, 0, 3]) .exact 30 s).1 = .ok (Arr.of1 y0) ∧
      (fp.filter S (Arr.of1 ![1, 0, 0, 3]) .exact 30 s).1 = .ok (Arr.of1 yp) ∧ y0 = ![1, 0, 0, 3]) ∧
    ∃ (y : Fin 4 → ℝ) (s' : GState 4),
      (rectangular l none (some (1 / 4))).filter S (Arr.of1 ![1, 0, 0, 3]) .exact 30 s = (.ok (Arr.of1 y), s') := by
  obtain ⟨g, hg, hd, S, hS, s, hs, hk, ⟨b, hb, hbk⟩, l, ⟨hl, hlt, hls, hmax⟩, hlm⟩ :=
    exists_setup path4 path4_nonneg (i := 0) (j := 1) (by decide) (by simp [path4])
  have hW : NonnegW g.W.dense := by rw [hd]; exact path4_nonneg
  have hc : ∀ b, s.basis = some b → b.k = 4 := by
    intro b' hb'
    rw [hb] at hb'; cases hb'; exact hbk
  refine ⟨g, hg, hd, S, s, l, hl, hlt, hlm, ?_, ?_, ?_⟩
  · obtain ⟨y, h1, h2⟩ := C46_maximum_principle hS hg _ hs hW (by norm_num) hk hc hl hlt (a := 10) (by norm_num) 30
      ![1, 0, 0, 3] 0 3 (by intro v; fin_cases v <;> simp) (by intro v; fin_cases v <;> simp)
    obtain ⟨y', h1', h3⟩ := C46_mass hS hg _ hs hW (by norm_num) hk hc hl hlt (a := 10) 30 ![1, 0, 0, 3]
    rw [h1] at h1'
    have : y = y' := by
      have := congrArg Arr.val (Except.ok.inj h1')
      funext v
      have := congrFun this [v.1]
      simpa [Arr.of1] using this
    subst this
    refine ⟨y, h1, h2, h3.trans ?_⟩
    simp [Fin.sum_univ_four]
    norm_num
  · obtain ⟨fm, f0, fp, ym, y0, yp, -, h0, hp, -, h1, h2, -, h3⟩ := C47_wave_equation hS hg _ hs hW (by norm_num) hk hc hl hmax
      (c := 1) (by norm_num) 0 30 ![1, 0, 0, 3]
    rw [zero_add] at hp
    exact ⟨f0, fp, y0, yp, h0, hp, h1, h2, h3 rfl⟩
  · obtain ⟨y, s', h, -⟩ := C49_projection hS hg _ hs hW (by norm_num) hk hc l none (some (1 / 4)) 30 ![1, 0, 0, 3]
    exact ⟨y, s', h⟩

/-- C51: Gabor filtering on the path, and the windowed transform with the heat kernel as a window. -/
example : ∃ g : Graph 4 ℝ, g.Built ∧ g.W.dense = path4 ∧ ∃ (S : Solvers 4) (s : GState 4) (l : ℝ), 0 < l ∧
    (∃ (e : Fin 4 → ℝ) (f : Bank), gabor 4 ⟨4, e⟩ (Bank.ofArg (.one (Kernel.pointwise fun x => exp (-x)))) true = .ok f ∧
      ∀ x : Fin 4 → ℝ, ∃ y : Fin 4 → Fin 4 → ℝ, (gaborFilter S f (Arr.of1 x) .chebyshev 30 s).1 = .ok (Arr.of2 y)) ∧
    ∀ x : Fin 4 → ℝ, ∃ (T y : Fin 4 → Fin 4 → ℝ),
      modulationLoop S (heat l [1] none) x (List.finRange 4) 0 s = (.ok y, s) ∧
      ∑ i, ∑ k, y i k ^ 2 = 4 * ∑ v, x v ^ 2 * ∑ w, T v w ^ 2 := by
  obtain ⟨g, hg, hd, S, hS, s, hs, hk, ⟨b, hb, hbk⟩, l, ⟨hl, hlt, hls, hmax⟩, hlm⟩ :=
    exists_setup path4 path4_nonneg (i := 0) (j := 1) (by decide) (by simp [path4])
  have hW : NonnegW g.W.dense := by rw [hd]; exact path4_nonneg
  have hc : ∀ b, s.basis = some b → b.k = 4 := by
    intro b' hb'
    rw [hb] at hb'; cases hb'; exact hbk
  refine ⟨g, hg, hd, S, s, l, hl, ?_, fun x => ?_⟩
  · obtain ⟨e, U, f, -, hb0, hf, -⟩ := C51_gabor hS hg _ hs hW (by norm_num) hk hc (fun x => exp (-x)) .chebyshev 30 0
    refine ⟨e, f, hf, fun x => ?_⟩
    obtain ⟨e', U', f', -, h4, hf', hx⟩ := C51_gabor hS hg _ hs hW (by norm_num) hk hc (fun x => exp (-x)) .chebyshev 30 x
    rw [hb0] at h4
    have h5 := Option.some.inj (Except.ok.inj h4)
    have h6 : e = e' := by injection h5
    subst h6
    rw [hf] at hf'
    cases hf'
    exact ⟨_, hx⟩
  · have hnum : Bank.lmaxNum S s = (.ok l, s) := by
      unfold Bank.lmaxNum getLmax
      rw [hls]
    have hops := Bank.ops_cheb_intro (f := heat l [1] none) (order := 30) hnum (by simp [heat, Bank.ofArg, Bank.Nf])
      (by norm_num) hl.ne' (evaluate_pointwise _ (heat_kernels l [1]) _)
    obtain ⟨e, U, -, -, hb0, -⟩ := single_setup hS hg _ hs hW (by norm_num) hk hc
    have hbas : s.getBasis S = (.ok (some ⟨4, e, U⟩), s) := by
      have hg2 : s.getBasis S = (.ok (some b), s) := by unfold getBasis; rw [hb]
      rw [hg2] at hb0
      simp only at hb0
      rw [hg2, hb0]
    have hloc : ∀ i, ∃ t, (heat l [1] none).localize S i .chebyshev 30 s = (.ok t, s) := by
      intro i
      unfold Bank.localize
      rw [Bank.filter_eq, parse_of1]
      simp only [hops]
      exact ⟨_, rfl⟩
    obtain ⟨T, y, -, h1, -, h2⟩ := C51_windowed_transform hS hg _ hs (by norm_num)
      (by simp [heat, Bank.ofArg, Bank.Nf]) hloc hbas x 0
    refine ⟨T, y, h1, h2.trans ?_⟩
    norm_num

/-- C48, C50, C57: the default parameters. -/
example : (∃ y, (expwin 4 none (some 0.2) 1).Response 0.8 y ∧ y = 1 / 2) ∧
    (∃ f, mexicanHat 4 6 20 (some [5, 4, 3, 2, 1]) false = .ok f ∧ f.Nf = 6) ∧
    (abspline (3 / 2) 4 6 20 (some [5, 4, 3, 2, 1])).Nf = 6 ∧ (logScales 0.2 4 5 1 2).length = 5 := by
  refine ⟨?_, ?_, ?_, ?_⟩
  · obtain ⟨y, -, -, h, -, -, -, -, -, -, -, -, -, h1, -⟩ := C48_expwin (lmax := 4) 1 0.2 0.2 0.8
    exact ⟨y, h, h1 (by norm_num)⟩
  · obtain ⟨f, h1, h2, -⟩ := (C50_mexicanHat 4 6 20 [5, 4, 3, 2, 1] false).2 (by norm_num)
    exact ⟨f, h1, h2⟩
  · exact (C50_abspline (by norm_num) (by norm_num) 4 (by norm_num) 20 _).1
  · exact (C57_log_scales (by norm_num) (by norm_num) (by norm_num) (by norm_num) 5).1

/-- C51: the hypotheses of the modulation theorems (distinct eigenvalues, orthonormal basis, constant first eigenvector)
hold for two vertices joined by an edge. -/
example : ∃ (e : Fin 2 → ℝ) (U : Matrix (Fin 2) (Fin 2) ℝ), Function.Injective e ∧ Uᵀ * U = 1 ∧
    IsEigenPairs !![1, -1; -1, 1] e U ∧ ∀ v, U v 0 = 1 / √(2 : ℕ) := by
  have h2 : (√2 : ℝ) * √2 = 2 := mul_self_sqrt (by norm_num)
  have h0 : (√2 : ℝ) ≠ 0 := by positivity
  have ho : (!![1 / √2, 1 / √2; 1 / √2, -(1 / √2)] : Matrix (Fin 2) (Fin 2) ℝ)ᵀ * !![1 / √2, 1 / √2; 1 / √2, -(1 / √2)] = 1 := by
    ext i j; fin_cases i <;> fin_cases j <;> simp [Matrix.mul_apply, Fin.sum_univ_two, Matrix.one_apply] <;>
      field_simp <;> norm_num [pow_two, h2]
  refine ⟨![0, 2], !![1 / √2, 1 / √2; 1 / √2, -(1 / √2)], ?_, ho, ⟨ho, ?_⟩, ?_⟩
  · intro a b; fin_cases a <;> fin_cases b <;> simp
  · ext i j; fin_cases i <;> fin_cases j <;> simp [Matrix.mul_apply, Fin.sum_univ_two, Matrix.diagonal] <;> ring
  · intro v; fin_cases v <;> simp

end PyGSP
