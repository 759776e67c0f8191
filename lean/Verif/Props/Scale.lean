import Verif.Lemmas.Scale
import Verif.Props.Relabel

/-!
# C103: multiplying all the weights by a positive constant

The unit of the weights is a convention: frequencies follow it, the filter designs adapt to it.
-/

namespace PyGSP

open Matrix Spec GState Polynomial Real Learning Design

variable {n : ℕ}

theorem lapFactor_pos {c : ℝ} (hc : 0 < c) (lt : LapType) : 0 < lapFactor c lt := by
  cases lt <;> simp [lapFactor, hc]

/-- **C103** Multiplying the weights by `c > 0` multiplies the combinatorial Laplacian by `c` and leaves the normalized one as it is. -/
theorem C103_laplacian {c : ℝ} (hc : 0 < c) {W W' : Sp n n ℝ} (h : ∀ i j, W'.dense i j = c * W.dense i j) (hW : NonnegW W.dense) {lt : LapType}
    {L : Matrix (Fin n) (Fin n) ℝ} (hL : laplacian W lt = .ok L) :
    laplacian W' lt = .ok (lapFactor c lt • L) ∧ ∀ i, dw W' i = c * dw W i := by
  have hws : ∀ i j, wsym W'.dense i j = c * wsym W.dense i j := fun i j => by unfold wsym; rw [h, h]; ring
  have hwd : ∀ i, wdeg W'.dense i = c * wdeg W.dense i := fun i => by unfold wdeg; simp only [h, ← Finset.mul_sum]; ring
  refine ⟨?_, fun i => by rw [dw_eq, dw_eq, hwd]⟩
  have hW' : NonnegW W'.dense := fun i j => by rw [h]; exact mul_nonneg hc.le (hW i j)
  cases lt with
  | combinatorial =>
    rw [laplacian_comb] at hL ⊢
    rw [← Except.ok.inj hL]
    congr 1
    ext i j
    simp only [combLap, Matrix.smul_apply, Matrix.of_apply, hws, hwd, lapFactor, smul_eq_mul]
    split <;> ring
  | normalized =>
    obtain ⟨L1, e1, e2, e3, -⟩ := C12_normalized W hW
    obtain ⟨L2, e1', e2', e3', -⟩ := C12_normalized W' hW'
    rw [hL] at e1
    obtain rfl := Except.ok.inj e1
    rw [e1']
    congr 1
    ext i j
    simp only [lapFactor, one_smul]
    by_cases hi : wdeg W.dense i = 0
    · rw [(e3 i j hi).1, (e3' i j (by rw [hwd, hi, mul_zero])).1]
    · by_cases hj : wdeg W.dense j = 0
      · rw [(e3 j i hj).2, (e3' j i (by rw [hwd, hj, mul_zero])).2]
      · rw [e2 i j hi hj, e2' i j (by rw [hwd]; exact mul_ne_zero hc.ne' hi) (by rw [hwd]; exact mul_ne_zero hc.ne' hj), hws, hwd, hwd,
          Real.sqrt_mul hc.le, Real.sqrt_mul hc.le]
        have : √c * √(wdeg W.dense i) * (√c * √(wdeg W.dense j)) = c * (√(wdeg W.dense i) * √(wdeg W.dense j)) := by
          rw [mul_mul_mul_comm, Real.mul_self_sqrt hc.le]
        rw [this, mul_div_mul_left _ _ hc.ne']
  | other name => simp [laplacian] at hL

section

variable {c : ℝ} (hc : 0 < c) {S S' : Solvers n} {g g' : Graph n ℝ} {s s' : GState n} (h : Ready S g s) (h' : Ready S' g' s')
  (hW : ∀ i j, g'.W.dense i j = c * g.W.dense i j) (ht : s'.lapType = s.lapType)

include hc h h' hW ht

theorem scale_L : s'.L = lapFactor c s.lapType • s.L := by
  have h1 := (C103_laplacian hc hW h.nonneg h.lap).1
  rw [← ht, h'.lap] at h1
  rw [Except.ok.inj h1, ht]

/-- **C103** The frequencies are multiplied by the same factor, in order; with no basis before, so is the `lmax` that `compute_fourier_basis` sets. -/
theorem C103_spectrum :
    (s.computeFourierBasis S none).1 = .ok () ∧ (s'.computeFourierBasis S' none).1 = .ok () ∧
    ∃ (e : Fin n → ℝ) (U U' : Matrix (Fin n) (Fin n) ℝ), (s.computeFourierBasis S none).2.basis = some ⟨n, e, U⟩ ∧
      (s'.computeFourierBasis S' none).2.basis = some ⟨n, fun j => lapFactor c s.lapType * e j, U'⟩ ∧
      (s.basis = none → s'.basis = none → ∃ l, ((s.computeFourierBasis S none).2.getLmax S).1 = .ok (some (.fin l)) ∧
        ((s'.computeFourierBasis S' none).2.getLmax S').1 = .ok (some (.fin (lapFactor c s.lapType * l)))) := by
  have hL := scale_L hc h h' hW ht
  have hk := lapFactor_pos hc s.lapType
  obtain ⟨hist, hs⟩ := h.reached
  obtain ⟨hist', hs'⟩ := h'.reached
  obtain ⟨h1, b, hb, hb1, hb2, o1, o2, m1, -⟩ := C25_fourier_basis h.sound h.built h.nonneg hist hs h.known none h.pos le_rfl (.inl rfl)
  obtain ⟨h1', b', hb', hb1', hb2', o1', o2', m1', -⟩ := C25_fourier_basis h'.sound h'.built h'.nonneg hist' hs' h'.known none h'.pos le_rfl (.inl rfl)
  have hbk : b.k = n := le_antisymm hb2 hb1
  have hbk' : b'.k = n := le_antisymm hb2' hb1'
  refine ⟨h1, h1', ?_⟩
  have hl : s.basis = none → s'.basis = none → ∀ (hk : 0 < b.k) (hk' : 0 < b'.k), ((s.computeFourierBasis S none).2.getLmax S).1 = .ok (some (.fin (b.e ⟨b.k - 1, by omega⟩))) ∧
      ((s'.computeFourierBasis S' none).2.getLmax S').1 = .ok (some (.fin (b'.e ⟨b'.k - 1, by omega⟩))) := by
    intro hn hn' hk hk'
    obtain ⟨-, B, hB, hB1, -, hB3, -⟩ := C20_lmax_exact h.sound h.built h.nonneg h.pos hist hs h.known (by rw [hn]; intro b hb; cases hb)
    obtain ⟨-, B', hB', hB1', -, hB3', -⟩ := C20_lmax_exact h'.sound h'.built h'.nonneg h'.pos hist' hs' h'.known (by rw [hn']; intro b hb; cases hb)
    rw [hb] at hB1
    rw [hb'] at hB1'
    obtain rfl := Option.some.inj hB1
    obtain rfl := Option.some.inj hB1'
    exact ⟨hB3, hB3'⟩
  obtain ⟨k, e, U⟩ := b
  obtain ⟨k', e', U'⟩ := b'
  simp only at hbk hbk' o1 o1' o2 o2' m1 m1'
  subst hbk hbk'
  have he : e' = fun j => lapFactor c s.lapType * e j := funext fun j =>
    sorted_intertwine (L := s.L) (L' := s'.L) ⟨o1, o2⟩ ⟨o1', o2'⟩ (Q := 1) (by rw [Matrix.det_one]; exact one_ne_zero) hk.le
      (by rw [Matrix.mul_one, Matrix.one_mul, hL]) m1 m1' j
  subst he
  exact ⟨e, U, U', hb, hb', fun hn hn' => ⟨_, hl hn hn' h.pos h.pos⟩⟩

/-- **C103** A bank that follows the frequencies filters exactly as before, for every shape of input. -/
theorem C103_filter {f : Bank} {A : Set ℝ} (hf : RespondsOn f A) (hA : ∀ l, IsEigenvalue s.L l → l ∈ A) (order : ℕ) (a : Arr) :
    ((f.scaled (lapFactor c s.lapType)).filter S' a .exact order s').1 = (f.filter S a .exact order s).1 := by
  have hL := scale_L hc h h' hW ht
  have hk := lapFactor_pos hc s.lapType
  obtain ⟨φ, hφ⟩ := hf
  obtain ⟨e, U, h1, h2⟩ := h.ops hφ hA order
  obtain ⟨e', U', h3, h4⟩ := h'.basis
  have hA' : ∀ j, e' j / lapFactor c s.lapType ∈ A := by
    intro j
    refine hA _ ?_
    obtain ⟨x, hx, hx2⟩ := h4.isEigenvalue j
    refine ⟨x, hx, ?_⟩
    rw [hL, Matrix.smul_mulVec] at hx2
    rw [div_eq_inv_mul, mul_smul, ← hx2, smul_smul, inv_mul_cancel₀ hk.ne', one_smul]
  refine filter_same (f.scaled_Nf _) (.inr ⟨_, fun i => spectralOp U' fun j => φ (i.cast (f.scaled_Nf _)) (e' j / lapFactor c s.lapType), h2, ?_, ?_⟩) a
  · have := Bank.scaled_evaluate (lapFactor c s.lapType) f e'
    rw [hφ n _ h.pos hA'] at this
    rw [Bank.ops_exact_intro order (getBasis_split h3) rfl this]
  · intro i
    have := spectral_intertwine h1 h4 (Q := 1) (c := lapFactor c s.lapType) (by rw [Matrix.mul_one, Matrix.one_mul, hL])
      (y := fun j => φ (i.cast (f.scaled_Nf _)) (e j)) (y' := fun j => φ (i.cast (f.scaled_Nf _)) (e' j / lapFactor c s.lapType))
      (fun j j' hj => by rw [hj, mul_div_cancel_left₀ _ hk.ne'])
    rw [Matrix.one_mul, Matrix.mul_one] at this
    exact this.symm

/-- **C103** So does the Chebyshev method, with any kernels, when `lmax` follows the frequencies: same values, or the same exception. -/
theorem C103_chebyshev {l : ℝ} (hl : (s.getLmax S).1 = .ok (some (.fin l))) (hl' : (s'.getLmax S').1 = .ok (some (.fin (lapFactor c s.lapType * l)))) (f : Bank)
    (order : ℕ) (a : Arr) :
    ((f.scaled (lapFactor c s.lapType)).filter S' a .chebyshev order s').1 = (f.filter S a .chebyshev order s).1 := by
  have hL := scale_L hc h h' hW ht
  have hk := lapFactor_pos hc s.lapType
  have e1 : ∃ t, Bank.lmaxNum S s = (.ok l, t) := by
    unfold Bank.lmaxNum
    revert hl
    cases s.getLmax S with
    | mk r t => intro hl; dsimp only at hl; subst hl; exact ⟨t, rfl⟩
  have e2 : ∃ t, Bank.lmaxNum S' s' = (.ok (lapFactor c s.lapType * l), t) := by
    unfold Bank.lmaxNum
    revert hl'
    cases s'.getLmax S' with
    | mk r t => intro hl'; dsimp only at hl'; subst hl'; exact ⟨t, rfl⟩
  obtain ⟨t, e1⟩ := e1
  obtain ⟨t', e2⟩ := e2
  refine filter_same (f.scaled_Nf _) ?_ a
  have hnode : (fun j => chebNode (lapFactor c s.lapType * l) (order + 1) j / lapFactor c s.lapType) = chebNode l (order + 1) := by
    funext j
    unfold chebNode
    field_simp
  have hev := Bank.scaled_evaluate (lapFactor c s.lapType) f (chebNode (lapFactor c s.lapType * l) (order + 1))
  rw [hnode] at hev
  unfold Bank.ops
  dsimp only
  rw [e1, e2]
  dsimp only
  rw [hev]
  simp only [f.scaled_Nf]
  split
  · exact .inl ⟨_, rfl, rfl⟩
  · cases f.evaluate (chebNode l (order + 1)) with
    | error e => exact .inl ⟨_, rfl, rfl⟩
    | ok y =>
      dsimp only [Except.map]
      split
      · exact .inl ⟨_, rfl, rfl⟩
      · by_cases h0 : l = 0
        · rw [if_pos h0, if_pos (by rw [h0, mul_zero])]
          exact .inl ⟨_, rfl, rfl⟩
        · rw [if_neg h0, if_neg (mul_ne_zero hk.ne' h0)]
          refine .inr ⟨_, _, rfl, rfl, fun i => ?_⟩
          congr 1
          unfold rescaled
          rw [(lmaxNum_stored e1).2.1, (lmaxNum_stored e2).2.1, hL, smul_smul]
          congr 3
          field_simp

/-- **C103** Effective resistances are divided by `c`. -/
theorem C103_resistance (hl : s.lapType = .combinatorial) (hcon : Connected g.W.dense) {pinv pinv' : Matrix (Fin n) (Fin n) ℝ → Matrix (Fin n) (Fin n) ℝ}
    (hp : ∀ A, Aᵀ = A → IsPinv A (pinv A)) (hp' : ∀ A, Aᵀ = A → IsPinv A (pinv' A)) :
    ∃ R R', resistanceDistance pinv s = .ok R ∧ resistanceDistance pinv' s' = .ok R' ∧ ∀ i j, R' i j = R i j / c := by
  have hc' : Connected g'.W.dense := by
    intro i j
    refine Relation.ReflTransGen.mono (fun a b hab => ?_) _ _ (hcon i j)
    rw [hW, hW]
    exact hab.imp (fun h => mul_ne_zero hc.ne' h) fun h => mul_ne_zero hc.ne' h
  obtain ⟨hist, hs⟩ := h.reached
  obtain ⟨hist', hs'⟩ := h'.reached
  obtain ⟨R, h1, h2⟩ := C55_effective_resistance h.sound h.built hist hs hl h.nonneg hcon hp
  obtain ⟨R', h1', h2'⟩ := C55_effective_resistance h'.sound h'.built hist' hs' (ht.trans hl) h'.nonneg hc' hp'
  refine ⟨R, R', h1, h1', fun i j => ?_⟩
  obtain ⟨⟨v, hv⟩, hr⟩ := h2 i j
  have := (h2' i j).2 (fun x => v x / c) fun x => by
    rw [← hv x]
    refine Finset.sum_congr rfl fun y _ => ?_
    unfold wsym
    rw [hW, hW]
    field_simp
  rw [← this, ← hr v hv]
  ring

/-- **C103** The result of `regression_tikhonov` stays the same when `tau` is divided by `c`; in particular always when `tau` is 0. -/
theorem C103_regression (hl : s.lapType = .combinatorial) {cg cg'} (hcg : ExactCG cg) (hcg' : ExactCG cg') (y : Fin n → ℝ) (m : Fin n → Bool)
    (ha : Anchored g.W.dense m) (hu : ∃ v, m v = false) (tau : ℝ) :
    ∃ x, regression1 cg false s.L y m tau = .ok x ∧ regression1 cg' false s'.L y m (tau / c) = .ok x := by
  obtain ⟨hist, hs⟩ := h.reached
  obtain ⟨hist', hs'⟩ := h'.reached
  have hL := scale_L hc h h' hW ht
  rw [hl] at hL
  have hsm : ∀ x : Fin n → ℝ, smoothness s'.L x = c * smoothness s.L x := by
    intro x
    unfold smoothness
    rw [hL, Matrix.smul_mulVec, dotProduct_smul]
    rfl
  have ha' : Anchored g'.W.dense m := by
    intro v
    obtain ⟨b, hb, hb2⟩ := ha v
    refine ⟨b, hb, Relation.ReflTransGen.mono (fun a b hab => ?_) _ _ hb2⟩
    rw [hW, hW]
    exact hab.imp (fun h => mul_ne_zero hc.ne' h) fun h => mul_ne_zero hc.ne' h
  rcases le_or_gt tau 0 with h0 | h0
  · obtain ⟨x, h1, h2, h3, -⟩ := C58_interpolation h.sound h.built hist hs h.nonneg hl cg y m ha hu h0
    obtain ⟨x', h1', h2', h3', -⟩ := C58_interpolation h'.sound h'.built hist' hs' h'.nonneg (ht.trans hl) cg' y m ha' hu
      (div_nonpos_of_nonpos_of_nonneg h0 hc.le)
    have e1 := (h3' x h2).1
    rw [hsm, hsm] at e1
    have e2 := h3 x' h2'
    obtain rfl := e2.2 (le_antisymm (le_of_mul_le_mul_left e1 hc) e2.1)
    exact ⟨x', h1, h1'⟩
  · have h0' := div_pos h0 hc
    obtain ⟨x, h1, h2, -⟩ := C59_unique_bounded h.sound h.built hist hs h.nonneg hl hcg false y m ha h0
    obtain ⟨x', h1', hz2⟩ := C59_minimises h'.sound h'.built hist' hs' h'.nonneg hcg' false y m h0'
    have ho : ∀ z : Fin n → ℝ, objective s'.L m y (tau / c) z = objective s.L m y tau z := by
      intro z
      unfold objective
      rw [hsm]
      field_simp
    have := hz2 x
    rw [ho, ho] at this
    obtain rfl := h2 x' this
    exact ⟨x', h1, h1'⟩

end

/-- **C103** The designs adapt: built with `c lmax`, they respond to the frequency `c x` as those built with `lmax` respond to `x`.  (`c` is the factor of the Laplacian;
scales that are given are divided by `c`, frequencies that are given are multiplied by `c`.) -/
theorem C103_designs {c : ℝ} (hc : 0 < c) {l : ℝ} (hl : 0 < l) :
    (∀ junk a, held junk (c * l) a = (held junk l a).scaled c) ∧
    (∀ junk a, papadakis junk (c * l) a = (papadakis junk l a).scaled c) ∧
    (∀ junk a, simoncelli junk (c * l) a = (simoncelli junk l a).scaled c) ∧
    (∀ degree, regular (c * l) degree = (regular l degree).scaled c) ∧
    (∀ Nf scales, meyer (c * l) Nf (Option.map (List.map (· / c)) scales) = (meyer l Nf scales).map (Bank.scaled c)) ∧
    (∀ Nf scales, simpleTight (c * l) Nf (Option.map (List.map (· / c)) scales) = (simpleTight l Nf scales).map (Bank.scaled c)) ∧
    (∀ Nf, halfCosine (c * l) Nf = (halfCosine l Nf).map (Bank.scaled c)) ∧
    (∀ Nf overlap, itersine (c * l) Nf overlap = (itersine l Nf overlap).scaled c) ∧
    (∀ scale e, heat (c * l) scale (Option.map (fun e : Σ k, Fin k → ℝ => ⟨e.1, fun j => c * e.2 j⟩) e) = (heat l scale e).scaled c) ∧
    (∀ time speed, wave (c * l) time speed = (wave l time speed).map (Bank.scaled c)) ∧
    (∀ lo hi slope, expwin (c * l) lo hi slope = (expwin l lo hi slope).scaled c) ∧
    (∀ lo hi, rectangular (c * l) lo hi = (rectangular l lo hi).scaled c) ∧
    (∀ Nf lpfactor scales, lpfactor ≠ 0 → mexicanHat (c * l) Nf lpfactor (Option.map (List.map (· / c)) scales) false =
      (mexicanHat l Nf lpfactor scales false).map (Bank.scaled c)) ∧
    (∀ xstar Nf lpfactor scales, lpfactor ≠ 0 → abspline xstar (c * l) Nf lpfactor (Option.map (List.map (· / c)) scales) =
      (abspline xstar l Nf lpfactor scales).scaled c) := by
  have hx : ∀ x : ℝ, x * 2 / (c * l) = x / c * 2 / l := fun x => by ring
  refine ⟨fun junk a => ?_, fun junk a => ?_, fun junk a => ?_, fun degree => ?_, fun Nf scales => ?_, fun Nf scales => ?_, fun Nf => ?_, fun Nf overlap => ?_,
    fun scale e => ?_, fun time speed => ?_, fun lo hi slope => ?_, fun lo hi => ?_, fun Nf lpfactor scales hlp => ?_, fun xstar Nf lpfactor scales hlp => ?_⟩
  · unfold held
    rw [← scaled_withComplement, scaled_onEmpty]
    simp only [hx]
  · unfold papadakis
    rw [← scaled_withComplement, scaled_onEmpty]
    simp only [hx]
  · unfold simoncelli
    rw [← scaled_withComplement, scaled_onEmpty]
    simp only [hx]
  · unfold regular
    rw [← scaled_withComplement, scaled_pointwise]
    simp only [hx]
  · unfold meyer
    rw [← scaled_waveletBank]
    congr 1
    cases scales with
    | none => simp only [Option.map_none, Option.getD_none]; rw [← dyadicScales_div]; congr 1; ring
    | some _ => rfl
  · unfold simpleTight
    simp only
    rw [← scaled_waveletBank]
    have : dyadicScales (1 / (2 * (c * l))) Nf = (dyadicScales (1 / (2 * l)) Nf).map (· / c) := by rw [← dyadicScales_div]; congr 1; ring
    rcases scales with _ | _ | ⟨s, r⟩
    · simp only [Option.map_none, this]
    · simp only [Option.map_some, List.map_nil, this]
    · simp only [Option.map_some, List.map_cons]
  · unfold halfCosine
    split
    · rfl
    · simp only [Except.map, scaled_many, List.map_map]
      refine congrArg (fun z => Except.ok (Bank.ofArg (KernelArg.many z))) (List.map_congr_left fun i _ => ?_)
      simp only [Function.comp, scaled_pointwise]
      refine congrArg Kernel.pointwise (funext fun x => ?_)
      have hd : c * l * 3 / ((Nf : ℝ) - 2) = c * (l * 3 / ((Nf : ℝ) - 2)) := by ring
      simp only [hd]
      generalize l * 3 / ((Nf : ℝ) - 2) = d
      have e1 : x - c * d / 3 * ((i : ℝ) - 2) = c * (x / c - d / 3 * ((i : ℝ) - 2)) := by field_simp
      rw [e1]
      generalize x / c - d / 3 * ((i : ℝ) - 2) = u
      rw [mul_div_mul_left _ _ hc.ne']
      have e2 : (c * u ≥ 0) = (u ≥ 0) := propext (mul_nonneg_iff_of_pos_left hc)
      have e3 : (c * u ≤ c * d) = (u ≤ d) := propext (mul_le_mul_iff_right₀ hc)
      simp only [e2, e3]
  · unfold itersine
    simp only [scaled_many, List.map_map]
    refine congrArg (fun z => Bank.ofArg (KernelArg.many z)) (List.map_congr_left fun i _ => ?_)
    simp only [Function.comp, scaled_pointwise]
    have : ∀ x : ℝ, x / (c * l / ((Nf : ℝ) - overlap + 1) * overlap) = x / c / (l / ((Nf : ℝ) - overlap + 1) * overlap) := fun x => by
      rw [div_div, ← mul_assoc, mul_div_assoc]
    simp only [this]
  · unfold heat
    simp only [scaled_many, List.map_map]
    refine congrArg (fun z => Bank.ofArg (KernelArg.many z)) (List.map_congr_left fun s _ => ?_)
    simp only [Function.comp, scaled_pointwise]
    have hk : ∀ x, heatKernel (c * l) s x = heatKernel l s (x / c) := fun x => by unfold heatKernel; congr 2; ring
    refine congrArg Kernel.pointwise (funext fun x => ?_)
    rw [hk]
    cases e with
    | none => rfl
    | some e => simp only [Option.map_some, hk, mul_div_cancel_left₀ _ hc.ne']
  · unfold wave
    cases broadcast time speed with
    | error e => rfl
    | ok p =>
      obtain ⟨time, speed⟩ := p
      simp only
      split
      · rfl
      · simp only [Except.map, scaled_many, List.map_map]
        refine congrArg (fun z => Except.ok (Bank.ofArg (KernelArg.many z))) (List.map_congr_left fun p _ => ?_)
        simp only [Function.comp, scaled_orNaN]
        refine congrArg Kernel.orNaN (funext fun x => ?_)
        unfold waveKernel
        have : 1 - p.2 ^ 2 * x / (c * l) / 2 = 1 - p.2 ^ 2 * (x / c) / l / 2 := by ring
        simp only [this]
  · unfold expwin
    rw [scaled_one, scaled_pointwise]
    refine congrArg (fun z => Bank.ofArg (KernelArg.one (Kernel.pointwise z))) (funext fun x => ?_)
    unfold bandKernel
    simp only [div_div]
  · unfold rectangular
    rw [scaled_one, scaled_pointwise]
    refine congrArg (fun z => Bank.ofArg (KernelArg.one (Kernel.pointwise z))) (funext fun x => ?_)
    unfold bandKernel
    simp only [div_div]
  · unfold mexicanHat
    have hsc : (Option.map (List.map (· / c)) scales).getD (logScales (c * l / lpfactor) (c * l) (Nf - 1) 1 2) =
        (scales.getD (logScales (l / lpfactor) l (Nf - 1) 1 2)).map (· / c) := by
      cases scales with
      | none =>
        simp only [Option.map_none, Option.getD_none]
        rw [mul_div_assoc, logScales_scale hc (div_ne_zero hl.ne' hlp) hl.ne' one_ne_zero two_ne_zero]
      | some _ => rfl
    simp only [hsc, List.length_map]
    split
    · rfl
    · simp only [Except.map, scaled_many, List.map_cons, List.map_map]
      refine congrArg (fun z => Except.ok (Bank.ofArg (KernelArg.many z))) (congrArg₂ List.cons ?_ (List.map_congr_left fun s _ => ?_))
      · rw [scaled_pointwise]
        refine congrArg Kernel.pointwise (funext fun x => ?_)
        congr 4
        ring
      · simp only [Function.comp, scaled_pointwise]
        refine congrArg Kernel.pointwise (funext fun x => ?_)
        have : s / c * x = s * (x / c) := by ring
        rw [this]
        simp
  · unfold abspline
    have hsc : (Option.map (List.map (· / c)) scales).getD (logScales (c * l / lpfactor) (c * l) (Nf - 1) 1 2) =
        (scales.getD (logScales (l / lpfactor) l (Nf - 1) 1 2)).map (· / c) := by
      cases scales with
      | none =>
        simp only [Option.map_none, Option.getD_none]
        rw [mul_div_assoc, logScales_scale hc (div_ne_zero hl.ne' hlp) hl.ne' one_ne_zero two_ne_zero]
      | some _ => rfl
    simp only [hsc, scaled_many, List.map_cons, List.map_map]
    refine congrArg (fun z => Bank.ofArg (KernelArg.many z)) (congrArg₂ List.cons ?_ (List.map_congr_left fun i _ => ?_))
    · rw [scaled_pointwise]
      refine congrArg Kernel.pointwise (funext fun x => ?_)
      congr 4
      ring
    · simp only [Function.comp, List.getElem?_map]
      cases (scales.getD (logScales (l / lpfactor) l (Nf - 1) 1 2))[i]? with
      | none => rfl
      | some s =>
        simp only [Option.map_some, scaled_pointwise]
        refine congrArg Kernel.pointwise (funext fun x => ?_)
        congr 1
        ring

/-- two graph objects whose weights are in proportion 5, with linked vertices -/
example : ∃ (S S' : Solvers 2) (g g' : Graph 2 ℝ) (s s' : GState 2), Ready S g s ∧ Ready S' g' s' ∧
    (∀ i j, g'.W.dense i j = 5 * g.W.dense i j) ∧ s'.lapType = s.lapType ∧ s.lapType = .combinatorial ∧ s.basis = none ∧ s'.basis = none ∧ Connected g.W.dense := by
  set M : Matrix (Fin 2) (Fin 2) ℝ := !![0, 3; 3, 0] with hM
  have hnn : NonnegW M := by intro i j; fin_cases i <;> fin_cases j <;> simp [hM]
  obtain ⟨S, g, s, h1, h2, h3, h4⟩ := exists_ready M hnn (by norm_num)
  obtain ⟨S', g', s', h1', h2', h3', h4'⟩ := exists_ready ((5 : ℝ) • M) (fun i j => mul_nonneg (by norm_num) (hnn i j)) (by norm_num)
  refine ⟨S, S', g, g', s, s', h2, h2', fun i j => by rw [h1, h1']; rfl, by rw [h3, h3'], h3, h4, h4', ?_⟩
  rw [h1]
  intro i j
  fin_cases i <;> fin_cases j
  exacts [.refl, .single (.inl (by simp [hM])), .single (.inl (by simp [hM])), .refl]

end PyGSP
