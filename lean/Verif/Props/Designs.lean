import Verif.Model.Designs
import Verif.Props.FilterWitness

/-!
# C41 - C45: tight filter banks
-/

namespace PyGSP

open Matrix Spec GState Real

variable {n : ℕ}

namespace Design

/-- evaluation of a kernel together with its complement for the bound 1 -/
theorem withComplement_tight (g : Kernel) {k : ℕ} (hk : 0 < k) (x : Fin k → ℝ) (y : Fin k → ℝ) (hg : g k x = .ok y)
    (hy : ∀ j, y j ^ 2 ≤ 1) :
    ∃ z : Fin 2 → Fin k → ℝ, (withComplement g).evaluate x = .ok z ∧
      ∀ j, z 0 j = y j ∧ z 1 j = √(1 - y j ^ 2) ∧ z 0 j ^ 2 + z 1 j ^ 2 = 1 := by
  have h1 : (Bank.ofArg (.one g)).evaluate x = .ok fun _ => y := by
    unfold Bank.evaluate
    rw [seqFin_ok]
    intro i
    have : i = ⟨0, Nat.one_pos⟩ := Fin.ext (Nat.lt_one_iff.1 i.2)
    rw [this]; exact hg
  have hs : ∀ j, ∑ _i : Fin (Bank.ofArg (.one g)).Nf, y j ^ 2 = y j ^ 2 := by
    intro j
    exact (Fin.sum_univ_one _)
  have h2 : ((Bank.ofArg (.one g)).complement (some 1)).evaluate x = .ok fun _ j => √(1 - y j ^ 2) := by
    unfold Bank.evaluate
    rw [seqFin_ok]
    intro i
    have : i = ⟨0, Nat.one_pos⟩ := Fin.ext (Nat.lt_one_iff.1 i.2)
    rw [this]
    show Bank.complementKernel _ (some 1) k x = _
    unfold Bank.complementKernel Bank.sumSquares
    rw [h1]
    simp only [hs]
    unfold arrMax
    rw [dif_pos hk]
    simp only
    rw [if_neg]
    rw [not_lt]
    exact Finset.sup'_le _ _ fun j _ => hy j
  have h3 := Bank.evaluate_add_ok _ _ x h1 h2
  refine ⟨_, h3, fun j => ?_⟩
  refine ⟨rfl, rfl, ?_⟩
  show y j ^ 2 + √(1 - y j ^ 2) ^ 2 = 1
  have := hy j
  rw [sq_sqrt (by linarith)]
  ring

end Design

/-- The squared responses of the filters sum to `c` at every frequency of `I`, and evaluation there does not raise
(for arrays that are not empty). -/
def Bank.TightOn (f : Bank) (c : ℝ) (I : Set ℝ) : Prop :=
  ∀ (k : ℕ) (x : Fin k → ℝ), 0 < k → (∀ j, x j ∈ I) → ∃ z, f.evaluate x = .ok z ∧ ∀ j, ∑ i, z i j ^ 2 = c

theorem Bank.TightOn.bounds {f : Bank} {c : ℝ} {I : Set ℝ} (h : f.TightOn c I) (S : Solvers n) (s : GState n) {k : ℕ}
    (hk : 0 < k) (e : Fin k → ℝ) (he : ∀ j, e j ∈ I) : (f.estimateFrameBounds S (some ⟨k, e⟩) s).1 = .ok (c, c) := by
  obtain ⟨z, hz, hc⟩ := h k e hk he
  unfold Bank.estimateFrameBounds
  simp only
  unfold Bank.boundsAt Bank.sumSquares
  rw [hz]
  simp only [hc]
  unfold arrMin arrMax
  rw [dif_pos hk, dif_pos hk]
  have hne : (Finset.univ : Finset (Fin k)).Nonempty := ⟨⟨0, hk⟩, Finset.mem_univ _⟩
  exact congrArg Except.ok (Prod.ext (Finset.inf'_const hne c) (Finset.sup'_const hne c))

/-- a filter bank that is tight on the spectrum reconstructs every signal, up to the factor `c` -/
theorem Bank.TightOn.reconstruct {f : Bank} {c : ℝ} {I : Set ℝ} (h : f.TightOn c I) {S : Solvers n} (hS : Sound S)
    {g : Graph n ℝ} (hg : g.Built) (hist : List (Op n)) {s : GState n} (hs : s = runAll S hist (GState.ofGraph g))
    (hn : 2 ≤ n) (hf : f.Nf ≠ 1) (b : Basis n) (hb : (s.getBasis S).1 = .ok (some b)) (hbk : b.k = n)
    (he : ∀ j, b.e j ∈ I) (order : ℕ) (x : Fin n → ℝ) :
    ∃ A s', f.analyze S (Arr.of1 x) .exact order s = (.ok A, s') ∧
      (f.synthesize S A .exact order s').1 = .ok (Arr.of1 fun v => c * x v) :=
  C31_tight_reconstruction hS hg hist hs (by omega) f hf b hb hbk c (h.bounds S s (by omega) b.e he) order x

/-! ## C41 -/

namespace Design

theorem onEmpty_ok (junk : Junk) (p : ℝ → Option ℝ) {k : ℕ} (x : Fin k → ℝ) :
    Kernel.onEmpty junk p k x = .ok fun j => (p (x j)).getD (junk k j) := rfl

/-- a design made of one kernel with values in `[-1, 1]` and its complement is tight -/
theorem tightOn_withComplement {g : Kernel} {I : Set ℝ}
    (h : ∀ k (x : Fin k → ℝ), (∀ j, x j ∈ I) → ∃ y, g k x = .ok y ∧ ∀ j, y j ^ 2 ≤ 1) :
    (withComplement g).TightOn 1 I := by
  intro k x hk hx
  obtain ⟨y, hy, hy1⟩ := h k x hx
  obtain ⟨z, hz, hz1⟩ := withComplement_tight g hk x y hy hy1
  refine ⟨z, hz, fun j => ?_⟩
  exact (Fin.sum_univ_two _).trans (hz1 j).2.2

theorem scaled_nonneg {lmax x : ℝ} (hl : 0 < lmax) (hx : 0 ≤ x) : 0 ≤ x * 2 / lmax := by positivity

theorem heldKernel_ok (a : ℝ) {x : ℝ} (hx : 0 ≤ x) : ∃ y, heldKernel a x = some y ∧ y ^ 2 ≤ 1 := by
  unfold heldKernel
  simp only
  split
  · exact ⟨0, rfl, by norm_num⟩
  · split
    · exact ⟨_, rfl, by nlinarith [sin_sq_add_cos_sq (2 * π * (-1 + 24 * (x / 8 / a) - 144 * (x / 8 / a) ^ 2 +
        256 * (x / 8 / a) ^ 3)), sq_nonneg (cos (2 * π * (-1 + 24 * (x / 8 / a) - 144 * (x / 8 / a) ^ 2 +
        256 * (x / 8 / a) ^ 3)))]⟩
    · rename_i h1 h2
      rw [if_pos]
      · exact ⟨1, rfl, by norm_num⟩
      · refine ⟨hx, ?_⟩
        by_contra hc
        exact h2 ⟨not_lt.1 hc, not_le.1 h1⟩

theorem papadakisKernel_ok (a : ℝ) {x : ℝ} (hx : 0 ≤ x) : ∃ y, papadakisKernel a x = some y ∧ y ^ 2 ≤ 1 := by
  unfold papadakisKernel
  split
  · exact ⟨0, rfl, by norm_num⟩
  · split
    · refine ⟨_, rfl, ?_⟩
      have h1 := neg_one_le_sin (3 * π / (2 * a) * x)
      have h2 := sin_le_one (3 * π / (2 * a) * x)
      rw [sq_sqrt (by linarith)]
      linarith
    · rename_i h1 h2
      rw [if_pos]
      · exact ⟨1, rfl, by norm_num⟩
      · refine ⟨hx, ?_⟩
        by_contra hc
        exact h2 ⟨not_lt.1 hc, not_le.1 h1⟩

theorem simoncelliKernel_ok (a : ℝ) {x : ℝ} (hx : 0 ≤ x) : ∃ y, simoncelliKernel a x = some y ∧ y ^ 2 ≤ 1 := by
  unfold simoncelliKernel
  split
  · exact ⟨0, rfl, by norm_num⟩
  · split
    · exact ⟨_, rfl, cos_sq_le_one _⟩
    · rename_i h1 h2
      rw [if_pos]
      · exact ⟨1, rfl, by norm_num⟩
      · refine ⟨hx, ?_⟩
        by_contra hc
        exact h2 ⟨not_lt.1 hc, not_le.1 h1⟩

theorem tightOn_onEmpty (junk : Junk) {p : ℝ → Option ℝ} {lmax : ℝ} (hl : 0 < lmax)
    (h : ∀ x, 0 ≤ x → ∃ y, p x = some y ∧ y ^ 2 ≤ 1) :
    (withComplement (Kernel.onEmpty junk fun x => p (x * 2 / lmax))).TightOn 1 (Set.Ici 0) := by
  refine tightOn_withComplement fun k x hx => ⟨_, rfl, fun j => ?_⟩
  obtain ⟨y, hy, h1⟩ := h _ (scaled_nonneg hl (hx j))
  simp only [hy, Option.getD_some]
  exact h1

end Design

open Design

/-- **Held, Papadakis, Simoncelli** are Parseval frames on `[0, ∞)` (in particular on `[0, lmax]`), whatever the value of
`a`, and building or evaluating them never raises; **Regular** is one on the whole line, for every degree. -/
theorem C41_parseval (junk : Junk) {lmax : ℝ} (hl : 0 < lmax) (a : ℝ) (degree : ℕ) :
    (held junk lmax a).TightOn 1 (Set.Ici 0) ∧ (papadakis junk lmax a).TightOn 1 (Set.Ici 0) ∧
    (simoncelli junk lmax a).TightOn 1 (Set.Ici 0) ∧ (regular lmax degree).TightOn 1 Set.univ ∧
    (held junk lmax a).Nf = 2 ∧ (papadakis junk lmax a).Nf = 2 ∧ (simoncelli junk lmax a).Nf = 2 ∧
    (regular lmax degree).Nf = 2 := by
  refine ⟨tightOn_onEmpty junk hl fun x => heldKernel_ok a, tightOn_onEmpty junk hl fun x => papadakisKernel_ok a,
    tightOn_onEmpty junk hl fun x => simoncelliKernel_ok a, ?_, rfl, rfl, rfl, rfl⟩
  refine tightOn_withComplement fun k x _ => ⟨_, rfl, fun j => ?_⟩
  simp only
  unfold regularKernel
  split
  · exact sin_sq_le_one _
  · exact sin_sq_le_one _

/-- Consequence: on a graph with non-negative weights and a complete basis, analysis followed by synthesis returns the
signal exactly. -/
theorem C41_reconstruction (junk : Junk) {lmax : ℝ} (hl : 0 < lmax) (a : ℝ) (degree : ℕ) {f : Bank}
    (hf : f = held junk lmax a ∨ f = papadakis junk lmax a ∨ f = simoncelli junk lmax a ∨ f = regular lmax degree)
    {S : Solvers n} (hS : Sound S) {g : Graph n ℝ} (hg : g.Built) (hist : List (Op n)) {s : GState n}
    (hs : s = runAll S hist (GState.ofGraph g)) (hn : 2 ≤ n) (b : Basis n) (hb : (s.getBasis S).1 = .ok (some b))
    (hbk : b.k = n) (he : ∀ j, 0 ≤ b.e j) (order : ℕ) (x : Fin n → ℝ) :
    ∃ A s', f.analyze S (Arr.of1 x) .exact order s = (.ok A, s') ∧
      (f.synthesize S A .exact order s').1 = .ok (Arr.of1 x) := by
  obtain ⟨h1, h2, h3, h4, n1, n2, n3, n4⟩ := C41_parseval junk hl a degree
  have ht : f.TightOn 1 (Set.Ici 0) := by
    rcases hf with rfl | rfl | rfl | rfl
    · exact h1
    · exact h2
    · exact h3
    · exact fun k x hk _ => h4 k x hk fun _ => trivial
  have hN : f.Nf ≠ 1 := by
    rcases hf with rfl | rfl | rfl | rfl
    · rw [n1]; norm_num
    · rw [n2]; norm_num
    · rw [n3]; norm_num
    · rw [n4]; norm_num
  have := ht.reconstruct hS hg hist hs hn hN b hb hbk he order x
  simpa using this

/-- The first kernel of Held, Papadakis and Simoncelli is a low-pass: `1` below `a lmax / 2`, `0` above
`a lmax` (Held, Simoncelli) or `5/6 a lmax` (Papadakis), and the second kernel is its mirror: `0`, then `1`. -/
theorem C41_lowpass (junk : Junk) {lmax : ℝ} (hl : 0 < lmax) {a : ℝ} (ha : 0 < a) {k : ℕ} (hk : 0 < k) (x : Fin k → ℝ)
    (hx : ∀ j, 0 ≤ x j) :
    (∃ z : Fin 2 → Fin k → ℝ, (held junk lmax a).evaluate x = .ok z ∧ ∀ j,
      (x j < a * lmax / 2 → z 0 j = 1 ∧ z 1 j = 0) ∧ (a * lmax ≤ x j → z 0 j = 0 ∧ z 1 j = 1)) ∧
    (∃ z : Fin 2 → Fin k → ℝ, (papadakis junk lmax a).evaluate x = .ok z ∧ ∀ j,
      (x j < a * lmax / 2 → z 0 j = 1 ∧ z 1 j = 0) ∧ (5 / 6 * a * lmax ≤ x j → z 0 j = 0 ∧ z 1 j = 1)) ∧
    (∃ z : Fin 2 → Fin k → ℝ, (simoncelli junk lmax a).evaluate x = .ok z ∧ ∀ j,
      (x j < a * lmax / 2 → z 0 j = 1 ∧ z 1 j = 0) ∧ (a * lmax ≤ x j → z 0 j = 0 ∧ z 1 j = 1)) := by
  have key : ∀ (p : ℝ → Option ℝ) (c : ℝ), (∀ x, 0 ≤ x → ∃ y, p x = some y ∧ y ^ 2 ≤ 1) →
      (∀ x, 0 ≤ x → x < a → p x = some 1) → (∀ x, c ≤ x → p x = some 0) →
      ∃ z : Fin 2 → Fin k → ℝ, (withComplement (Kernel.onEmpty junk fun x => p (x * 2 / lmax))).evaluate x = .ok z ∧ ∀ j,
      (x j < a * lmax / 2 → z 0 j = 1 ∧ z 1 j = 0) ∧ (c * lmax / 2 ≤ x j → z 0 j = 0 ∧ z 1 j = 1) := by
    intro p c h1 h2 h3
    obtain ⟨z, hz, hz1⟩ := withComplement_tight (Kernel.onEmpty junk fun x => p (x * 2 / lmax)) hk x _ rfl (fun j => by
      obtain ⟨y, hy, h4⟩ := h1 _ (scaled_nonneg hl (hx j))
      simp only [hy, Option.getD_some]
      exact h4)
    refine ⟨z, hz, fun j => ⟨fun hj => ?_, fun hj => ?_⟩⟩
    · have h5 := h2 _ (scaled_nonneg hl (hx j)) (by rw [div_lt_iff₀ hl]; linarith)
      have h6 := hz1 j
      simp only [h5, Option.getD_some] at h6
      exact ⟨h6.1, by rw [h6.2.1]; simp⟩
    · have h5 := h3 (x j * 2 / lmax) (by rw [le_div_iff₀ hl]; linarith)
      have h6 := hz1 j
      simp only [h5, Option.getD_some] at h6
      exact ⟨h6.1, by rw [h6.2.1]; simp⟩
  refine ⟨?_, ?_, ?_⟩
  · obtain ⟨z, hz, h⟩ := key (heldKernel a) (2 * a) (fun x => heldKernel_ok a)
      (fun x h0 h1 => by
        unfold heldKernel
        simp only
        rw [if_neg (by simp only [ge_iff_le, not_le]; linarith), if_neg (by rintro ⟨h2, -⟩; linarith), if_pos ⟨h0, h1⟩])
      (fun x h => by unfold heldKernel; simp only; rw [if_pos h])
    exact ⟨z, hz, fun j => ⟨(h j).1, fun hj => (h j).2 (by linarith)⟩⟩
  · obtain ⟨z, hz, h⟩ := key (papadakisKernel a) (a * 5 / 3) (fun x => papadakisKernel_ok a)
      (fun x h0 h1 => by
        unfold papadakisKernel
        rw [if_neg (by simp only [ge_iff_le, not_le]; linarith), if_neg (by rintro ⟨h2, -⟩; linarith), if_pos ⟨h0, h1⟩])
      (fun x h => by unfold papadakisKernel; rw [if_pos h])
    exact ⟨z, hz, fun j => ⟨(h j).1, fun hj => (h j).2 (by linarith)⟩⟩
  · obtain ⟨z, hz, h⟩ := key (simoncelliKernel a) (2 * a) (fun x => simoncelliKernel_ok a)
      (fun x h0 h1 => by
        unfold simoncelliKernel
        rw [if_neg (by simp only [ge_iff_le, not_le]; linarith), if_neg (by rintro ⟨h2, -⟩; linarith), if_pos ⟨h0, h1⟩])
      (fun x h => by unfold simoncelliKernel; rw [if_pos h])
    exact ⟨z, hz, fun j => ⟨(h j).1, fun hj => (h j).2 (by linarith)⟩⟩

/-- the formula of the documentation of `Regular` for degree `d` -/
noncomputable def Spec.regularDoc (d : ℕ) (x : ℝ) : ℝ :=
  match d with
  | 0 => sin (π / 4 * x)
  | d + 1 => sin (π / 4 * (1 + (fun y => sin (π / 2 * y))^[d] (sin (π / 2 * (x - 1)))))

/-- `Regular` does not implement its documented degree: degrees 0 and 1 are right, but every degree `d ≥ 2` gives the
documented filter of degree `d - 1`; so degrees 1 and 2 are the same filter bank. -/
theorem C41_regular_degree_violated :
    (∀ x, regularKernel 0 x = Spec.regularDoc 0 x) ∧ (∀ x, regularKernel 1 x = Spec.regularDoc 1 x) ∧
    (∀ d x, regularKernel (d + 2) x = Spec.regularDoc (d + 1) x) ∧
    (∀ lmax, regular lmax 1 = regular lmax 2) ∧ ∃ x, regularKernel 2 x ≠ Spec.regularDoc 2 x := by
  have e1 : (fun y => sin (π / 2 * y)) = fun y => sin (π * y / 2) := by
    funext y; congr 1; ring
  have e2 : ∀ x : ℝ, sin (π / 2 * (x - 1)) = sin (π * (x - 1) / 2) := fun x => by congr 1; ring
  have h3 : ∀ d x, regularKernel (d + 2) x = Spec.regularDoc (d + 1) x := by
    intro d x
    unfold regularKernel Spec.regularDoc
    rw [if_neg (by omega)]
    simp only [e1, e2, Nat.add_sub_cancel]
  refine ⟨fun x => rfl, fun x => ?_, h3, fun lmax => rfl, ?_⟩
  · unfold regularKernel Spec.regularDoc
    rw [if_neg (by omega)]
    simp only [e2, Function.iterate_zero, id]
    rfl
  · refine ⟨4 / 3, ?_⟩
    rw [h3 0]
    unfold Spec.regularDoc
    simp only [Function.iterate_zero, id, Function.iterate_succ, Function.comp]
    have s6 : sin (π / 2 * (4 / 3 - 1)) = 1 / 2 := by
      rw [show π / 2 * (4 / 3 - 1) = π / 6 by ring, sin_pi_div_six]
    rw [s6, show π / 2 * (1 / 2) = π / 4 by ring, sin_pi_div_four]
    intro h
    have h2 : (1 : ℝ) / 2 < √2 / 2 := by
      have : (1 : ℝ) < √2 := by rw [lt_sqrt (by norm_num)]; norm_num
      linarith
    have h4 : √2 / 2 ≤ 1 := by
      have : √2 ≤ 2 := by rw [sqrt_le_left (by norm_num)]; norm_num
      linarith
    have hp := pi_pos
    have := strictMonoOn_sin (a := π / 4 * (1 + 1 / 2)) (b := π / 4 * (1 + √2 / 2))
      ⟨by nlinarith, by nlinarith⟩ ⟨by nlinarith, by nlinarith⟩ (by nlinarith)
    linarith

/-- The documentation calls the first kernel of `Regular` a low-pass, but it vanishes at frequency 0 and is 1 at
`lmax`. -/
theorem C41_regular_highpass {lmax : ℝ} (hl : 0 < lmax) (degree : ℕ) {k : ℕ} (x : Fin k → ℝ) (hk : 0 < k) :
    ∃ z : Fin 2 → Fin k → ℝ, (regular lmax degree).evaluate x = .ok z ∧ ∀ j,
      (x j = 0 → z 0 j = 0 ∧ z 1 j = 1) ∧ (x j = lmax → z 0 j = 1 ∧ z 1 j = 0) := by
  obtain ⟨z, hz, hz1⟩ := withComplement_tight (Kernel.pointwise fun x => regularKernel degree (x * 2 / lmax)) hk x _ rfl
    (fun j => by unfold regularKernel; split <;> exact sin_sq_le_one _)
  have it1 : ∀ d, (fun y => sin (π * y / 2))^[d] 1 = 1 := by
    intro d
    exact Function.iterate_fixed (by simp [mul_one]) d
  have it2 : ∀ d, (fun y => sin (π * y / 2))^[d] (-1) = -1 := by
    intro d
    refine Function.iterate_fixed ?_ d
    show sin (π * -1 / 2) = -1
    rw [show π * -1 / 2 = -(π / 2) by ring, sin_neg, sin_pi_div_two]
  have r0 : regularKernel degree 0 = 0 := by
    unfold regularKernel
    split
    · simp
    · have : sin (π * (0 - 1) / 2) = -1 := by
        rw [show π * (0 - 1) / 2 = -(π / 2) by ring, sin_neg, sin_pi_div_two]
      simp only [this, it2]
      simp
  have r2 : regularKernel degree 2 = 1 := by
    unfold regularKernel
    split
    · rw [show π / 4 * 2 = π / 2 by ring, sin_pi_div_two]
    · have : sin (π * (2 - 1) / 2) = 1 := by
        rw [show π * (2 - 1) / 2 = π / 2 by ring, sin_pi_div_two]
      simp only [this, it1]
      rw [show π / 4 * (1 + 1) = π / 2 by ring, sin_pi_div_two]
  refine ⟨z, hz, fun j => ⟨fun h => ?_, fun h => ?_⟩⟩
  · have h1 := hz1 j
    simp only [h, zero_mul, zero_div, r0] at h1
    exact ⟨h1.1, by rw [h1.2.1]; simp⟩
  · have h1 := hz1 j
    have : lmax * 2 / lmax = 2 := by field_simp
    simp only [h, this, r2] at h1
    exact ⟨h1.1, by rw [h1.2.1]; simp⟩

end PyGSP
