import Verif.Props.Bands

/-!
# C51: Gabor and Modulation
-/

namespace PyGSP

open Matrix Spec GState Real Design

variable {n : ℕ}

/-- What is accepted: exactly one mother filter, built on the same graph. -/
theorem C51_checks (e : Σ k, Fin k → ℝ) (mother : Bank) (same : Bool) :
    ((mother.Nf ≠ 1 ∨ same = false) → gabor n e mother same = .error .valueError ∧
      modulationCheck mother same = .error .valueError) ∧
    (mother.Nf = 1 → same = true → modulationCheck mother same = .ok () ∧
      ∃ f, gabor n e mother same = .ok f ∧ f.Nf = n) := by
  constructor
  · intro h
    unfold gabor modulationCheck
    by_cases h1 : mother.Nf ≠ 1
    · rw [if_pos h1, if_pos h1]; exact ⟨rfl, rfl⟩
    · have : same = false := h.resolve_left h1
      rw [if_neg h1, if_neg h1, this]; exact ⟨rfl, rfl⟩
  · intro h h'
    unfold gabor modulationCheck
    rw [if_neg (not_not.2 h), if_neg (not_not.2 h), h']
    exact ⟨rfl, _, rfl, by simp [Bank.ofArg, Bank.Nf]⟩

/-- The values of a Gabor filter bank: filter `i` is the mother kernel translated to the eigenvalue `e i`. -/
theorem gabor_evaluate {f : Bank} {e : Fin n → ℝ} {h : ℝ → ℝ}
    (hf : gabor n ⟨n, e⟩ (Bank.ofArg (.one (Kernel.pointwise h))) true = .ok f) (hN : f.Nf = n) {k : ℕ} (x : Fin k → ℝ) :
    f.evaluate x = .ok fun i j => h (x j - e (i.cast hN)) := by
  obtain rfl := Except.ok.inj hf
  unfold Bank.evaluate
  rw [seqFin_ok]
  intro i
  have hi : i.1 < n := i.2.trans_eq (by simp [Bank.ofArg, Bank.Nf])
  have hk : (Bank.ofArg (.many ((List.finRange n).map fun i : Fin n => (fun _ x =>
    if h' : i.1 < (⟨n, e⟩ : Σ k, Fin k → ℝ).1 then
      match (Bank.ofArg (.one (Kernel.pointwise h))).evaluate fun j => x j - (⟨n, e⟩ : Σ k, Fin k → ℝ).2 ⟨i, h'⟩ with
      | .error er => .error er
      | .ok y => if h0 : 0 < (Bank.ofArg (.one (Kernel.pointwise h))).Nf then .ok (y ⟨0, h0⟩) else .error .indexError
    else .error .indexError : Kernel)))).kernels.get i = _ := List.getElem_map _ (h := i.2)
  refine (congrFun (congrFun hk k) x).trans ?_
  simp only [List.getElem_finRange, Fin.val_cast, dif_pos hi]
  have hev : seqFin (Bank.ofArg (.one (Kernel.pointwise h))).Nf (fun i_1 =>
      (Bank.ofArg (.one (Kernel.pointwise h))).kernels.get i_1 k fun j => x j - e ⟨i.1, hi⟩) =
      .ok fun _ j => h (x j - e ⟨i.1, hi⟩) := by
    rw [seqFin_ok]
    intro i0
    have : i0 = ⟨0, by show 0 < 1; norm_num⟩ := Fin.ext (Nat.lt_one_iff.1 i0.2)
    subst this
    rfl
  rw [hev]
  rfl

/-- **Gabor filtering**: whatever `method` is asked, the transform at vertex `v` and frequency `k` is the value at `v` of
the signal filtered by the kernel centred on the `k`-th eigenvalue, i.e. `∑_w g_{v,k}(w) x(w)` with
`g_{v,k} = ∑_j U[v,j] h(e_j - e_k) U[:,j]`. -/
theorem C51_gabor {S : Solvers n} (hS : Sound S) {g : Graph n ℝ} (hg : g.Built) (hist : List (Op n)) {s : GState n}
    (hs : s = runAll S hist (GState.ofGraph g)) (hW : NonnegW g.W.dense) (hn : 2 ≤ n) (hk : Known s.lapType)
    (hcomplete : ∀ b, s.basis = some b → b.k = n) (h : ℝ → ℝ) (method : FMethod) (order : ℕ) (x : Fin n → ℝ) :
    ∃ (e : Fin n → ℝ) (U : Matrix (Fin n) (Fin n) ℝ) (f : Bank), IsEigenPairs s.L e U ∧
      (s.getBasis S).1 = .ok (some ⟨n, e, U⟩) ∧
      gabor n ⟨n, e⟩ (Bank.ofArg (.one (Kernel.pointwise h))) true = .ok f ∧
      (gaborFilter S f (Arr.of1 x) method order s).1 =
        .ok (Arr.of2 fun v k : Fin n => ∑ w, (∑ j, U v j * h (e j - e k) * U w j) * x w) := by
  obtain ⟨e, U, he, h0, hbas, -⟩ := single_setup hS hg hist hs hW hn hk hcomplete
  obtain ⟨-, f, hf, hN⟩ := (C51_checks (n := n) ⟨n, e⟩ (Bank.ofArg (.one (Kernel.pointwise h))) true).2 rfl rfl
  refine ⟨e, U, f, he, hbas, hf, ?_⟩
  unfold gaborFilter
  rw [C28_one_signal S f s _ hbas rfl _ (gabor_evaluate hf hN e) 30 x]
  refine congrArg Except.ok ?_
  rw [(C28_shapes (by omega) _).2.2.1 rfl (by rw [hN]; omega)]
  have := of2_cast (m := n) hN.symm fun v i => ∑ w, (∑ j, U v j * h (e j - e (i.cast hN)) * U w j) * x w
  refine Eq.trans ?_ (this.trans ?_)
  · refine congrArg Arr.of2 ?_
    funext v i
    simp only [Matrix.mulVec, dotProduct, spectralOp_apply]
  · rfl

/-! ### Modulation -/

/-- The response of filter `k` of `Modulation` at the `l`-th eigenvalue, when the eigenvalues are distinct:
`√N ∑_v U[v,l] U[v,k] ĝ(v)`, the GFT of the mother kernel multiplied by the `k`-th eigenvector. -/
theorem C51_modulation_evaluate {e : Fin n → ℝ} (he : Function.Injective e) (U : Matrix (Fin n) (Fin n) ℝ) (y : Fin n → ℝ) :
    ∃ z, (modulationBank e U y).evaluate e = .ok z ∧ (modulationBank e U y).Nf = n ∧
      ∀ (i : Fin (modulationBank e U y).Nf) (k : Fin n), i.1 = k.1 → ∀ l,
        z i l = ∑ v, U v l * (√n * U v k * ∑ j, U v j * y j) := by
  have hN : (modulationBank e U y).Nf = n := by simp [modulationBank, Bank.Nf]
  refine ⟨fun i l => modulationCoef U y l (i.cast hN), ?_, hN, ?_⟩
  · unfold Bank.evaluate
    rw [seqFin_ok]
    intro i
    have hk : (modulationBank e U y).kernels.get i = _ := List.getElem_map _ (h := i.2)
    refine (congrFun (congrFun hk n) e).trans ?_
    refine orNaN_ok fun l => ?_
    have : ((List.finRange n).find? fun l' => decide (e l = e l')) = some l := by
      rw [List.find?_eq_some_iff_getElem]
      refine ⟨by simp, l.1, by simp, by simp, fun j hj => ?_⟩
      simp only [List.getElem_finRange, Bool.not_eq_true', decide_eq_false_iff_not]
      intro h
      have := congrArg Fin.val (he h)
      simp at this
      omega
    simp only [this, Option.map_some]
    refine congrArg (fun t => some (modulationCoef U y l t)) ?_
    simp
    rfl
  · intro i k hik l
    have : i.cast hN = k := Fin.ext hik
    simp only [this]
    unfold modulationCoef
    simp only [Matrix.mul_apply, Matrix.transpose_apply, Matrix.of_apply, Matrix.mulVec, dotProduct]

/-- When an eigenvalue is repeated, all the filters have the same value at its copies, although the modulated kernel does
not: the coefficients of the first copy replace the others. -/
theorem C51_modulation_repeated_violated {e : Fin n → ℝ} (U : Matrix (Fin n) (Fin n) ℝ) (y : Fin n → ℝ) (a b : Fin n)
    (hab : e a = e b) : ∃ z, (modulationBank e U y).evaluate e = .ok z ∧ ∀ i, z i a = z i b := by
  have hN : (modulationBank e U y).Nf = n := by simp [modulationBank, Bank.Nf]
  have hsome : ∀ l, ∃ l', ((List.finRange n).find? fun l' => decide (e l = e l')) = some l' := by
    intro l
    rw [← Option.isSome_iff_exists, List.find?_isSome]
    exact ⟨l, by simp, by simp⟩
  choose first hfirst using hsome
  refine ⟨fun i l => modulationCoef U y (first l) (i.cast hN), ?_, fun i => ?_⟩
  · unfold Bank.evaluate
    rw [seqFin_ok]
    intro i
    have hk : (modulationBank e U y).kernels.get i = _ := List.getElem_map _ (h := i.2)
    refine (congrFun (congrFun hk n) e).trans ?_
    refine orNaN_ok fun l => ?_
    simp only [hfirst l, Option.map_some]
    refine congrArg (fun t => some (modulationCoef U y (first l) t)) ?_
    simp
    rfl
  · have h1 := hfirst a
    rw [hab, hfirst b] at h1
    simp only [Option.some.inj h1]

/-- Modulating by a constant eigenvector (the first one, on a connected graph with the combinatorial Laplacian) gives
back the mother kernel. -/
theorem C51_modulation_zero {e : Fin n → ℝ} (he : Function.Injective e) {U : Matrix (Fin n) (Fin n) ℝ} (ho : Uᵀ * U = 1)
    (y : Fin n → ℝ) (k : Fin n) (hconst : ∀ v, U v k = 1 / √n) :
    ∃ z, (modulationBank e U y).evaluate e = .ok z ∧
      ∀ i : Fin (modulationBank e U y).Nf, i.1 = k.1 → ∀ l, z i l = y l := by
  obtain ⟨z, hz, -, h⟩ := C51_modulation_evaluate he U y
  refine ⟨z, hz, fun i hi l => ?_⟩
  rw [h i k hi l]
  have hn : (0 : ℝ) < √n := by
    have : 0 < n := k.pos
    exact sqrt_pos.2 (by exact_mod_cast this)
  have h1 : Uᵀ *ᵥ (U *ᵥ y) = y := by rw [Matrix.mulVec_mulVec, ho, Matrix.one_mulVec]
  have h2 := congrFun h1 l
  rw [← h2]
  simp only [Matrix.mulVec, dotProduct, Matrix.transpose_apply]
  refine Finset.sum_congr rfl fun v _ => ?_
  rw [hconst v]
  field_simp

/-- the loop, when the basis and the operator are available without changing the state -/
theorem modulationLoop_eq {S : Solvers n} (hn : 2 ≤ n) {mother : Bank} (hm : mother.Nf = 1) {s : GState n} {M}
    (hM : mother.ops S .chebyshev 30 s = (.ok M, s)) {e : Fin n → ℝ} {U : Matrix (Fin n) (Fin n) ℝ}
    (hb : s.getBasis S = (.ok (some ⟨n, e, U⟩), s)) (x : Fin n → ℝ) :
    ∀ (l : List (Fin n)) (y : Fin n → Fin n → ℝ), modulationLoop S mother x l y s =
      (.ok fun i => if i ∈ l then fun k => √n * ∑ v, U v k * (x v * (√n * M ⟨0, by omega⟩ v i)) else y i, s) := by
  have hloc : ∀ i, mother.localize S i .chebyshev 30 s = (.ok (Arr.of1 fun v => √n * M ⟨0, by omega⟩ v i), s) := by
    intro i
    unfold Bank.localize
    rw [Bank.filter_eq, parse_of1]
    simp only [hM]
    refine congrArg (fun t => (Except.ok t, s)) ?_
    have hsq := (C28_shapes (n := n) (by omega) (fun v (j : Fin 1) i' => (M i' * Matrix.of fun v (_ : Fin 1) =>
      if v = i then (1 : ℝ) else 0) v j)).2.2.2 rfl hm
    refine (congrArg (Arr.smul (√n)) hsq).trans ?_
    unfold Arr.smul Arr.of1
    refine Arr.ext_iff.2 ⟨rfl, ?_⟩
    funext idx
    simp only
    rcases idx with _ | ⟨a, _ | ⟨b, l⟩⟩
    · simp
    · simp only
      split
      · rename_i ha
        congr 1
        rw [Matrix.mul_apply]
        simp
      · simp
    · simp
  intro l
  induction l with
  | nil => intro y; simp [modulationLoop]
  | cons i rest ih =>
    intro y
    unfold modulationLoop
    rw [hloc i]
    simp only
    rw [gft_eq hb]
    simp only
    refine (dif_pos trivial).trans ?_
    rw [ih]
    refine congrArg (fun t => (Except.ok t, s)) ?_
    funext i'
    by_cases h1 : i' ∈ rest
    · rw [if_pos h1, if_pos (List.mem_cons_of_mem _ h1)]
    · by_cases h2 : i' = i
      · subst h2
        rw [if_neg h1, if_pos rfl, if_pos (List.mem_cons_self)]
        funext k
        simp only [Fin.cast_eq_self, smul_eq_mul, Arr.of1, Fin.eta, Fin.is_lt, dif_pos, reduceCtorEq, if_false]
      · rw [if_neg h1, if_neg h2, if_neg (by simp [h1, h2])]

/-- **The windowed graph Fourier transform** (`modulation_first=False`), once the Fourier basis and `lmax` are computed
(so that reading them does not change the state): entry `(i, k)` is `√N ⟨x ∘ T_i g, u_k⟩`, where `T_i g` is what
`localize(i)` returns; its total energy is `N ∑_v x_v² ‖T_v g‖²`. -/
theorem C51_windowed_transform {S : Solvers n} (hS : Sound S) {g : Graph n ℝ} (hg : g.Built) (hist : List (Op n))
    {s : GState n} (hs : s = runAll S hist (GState.ofGraph g)) (hn : 2 ≤ n) {mother : Bank} (hm : mother.Nf = 1)
    (hlocal : ∀ i, ∃ t, mother.localize S i .chebyshev 30 s = (.ok t, s)) {e : Fin n → ℝ} {U : Matrix (Fin n) (Fin n) ℝ}
    (hb : s.getBasis S = (.ok (some ⟨n, e, U⟩), s)) (x : Fin n → ℝ) (y0 : Fin n → Fin n → ℝ) :
    ∃ (T y : Fin n → Fin n → ℝ), (∀ i, mother.localize S i .chebyshev 30 s = (.ok (Arr.of1 (T i)), s)) ∧
      modulationLoop S mother x (List.finRange n) y0 s = (.ok y, s) ∧
      (∀ i k, y i k = √n * ∑ v, (x v * T i v) * U v k) ∧
      ∑ i, ∑ k, y i k ^ 2 = n * ∑ v, x v ^ 2 * ∑ w, T v w ^ 2 := by
  obtain ⟨hi, -, -⟩ := reach_inv hS hg hist
  rw [← hs] at hi
  have hn0 : 0 < n := by omega
  obtain ⟨M, hM⟩ : ∃ M, mother.ops S .chebyshev 30 s = (.ok M, s) := by
    obtain ⟨t, ht⟩ := hlocal ⟨0, hn0⟩
    unfold Bank.localize at ht
    rw [Bank.filter_eq, parse_of1] at ht
    simp only at ht
    rcases ho : mother.ops S .chebyshev 30 s with ⟨_ | M, s'⟩
    · rw [ho] at ht; simp at ht
    · rw [ho] at ht
      simp only [Prod.mk.injEq] at ht
      exact ⟨M, by rw [ht.2]⟩
  have hsym := Bank.ops_symm hi hM ⟨0, by omega⟩
  have hcol : ∀ v i, M ⟨0, by omega⟩ v i = M ⟨0, by omega⟩ i v := fun v i => by
    have := congrFun (congrFun hsym i) v
    rw [Matrix.transpose_apply] at this
    exact this
  refine ⟨fun i v => √n * M ⟨0, by omega⟩ v i, _, ?_, modulationLoop_eq hn hm hM hb x _ y0, ?_, ?_⟩
  · intro i
    unfold Bank.localize
    rw [Bank.filter_eq, parse_of1]
    simp only [hM]
    refine congrArg (fun t => (Except.ok t, s)) ?_
    have hsq := (C28_shapes (n := n) (by omega) (fun v (j : Fin 1) i' => (M i' * Matrix.of fun v (_ : Fin 1) =>
      if v = i then (1 : ℝ) else 0) v j)).2.2.2 rfl hm
    refine (congrArg (Arr.smul (√n)) hsq).trans ?_
    unfold Arr.smul Arr.of1
    refine Arr.ext_iff.2 ⟨rfl, ?_⟩
    funext idx
    simp only
    rcases idx with _ | ⟨a, _ | ⟨b, l⟩⟩
    · simp
    · simp only
      split
      · rename_i ha
        congr 1
        rw [Matrix.mul_apply]
        simp
      · simp
    · simp
  · intro i k
    simp only [List.mem_finRange, if_true]
    congr 1
    exact Finset.sum_congr rfl fun v _ => mul_comm _ _
  · have hUo : Uᵀ * U = 1 := (readable_orthonormal hS hg hist hs (congrArg Prod.fst hb)).1
    simp only [List.mem_finRange, if_true, mul_pow]
    have hsn : √(n : ℝ) ^ 2 = n := sq_sqrt (Nat.cast_nonneg n)
    simp only [hsn]
    have hpars : ∀ w : Fin n → ℝ, ∑ k, (∑ v, U v k * w v) ^ 2 = ∑ v, w v ^ 2 := fun w => energy_gft hUo w
    have : ∀ i, ∑ k, (n : ℝ) * (∑ v, U v k * (x v * (√n * M ⟨0, by omega⟩ v i))) ^ 2 =
        n * ∑ v, x v ^ 2 * (n * M ⟨0, by omega⟩ v i ^ 2) := by
      intro i
      rw [← Finset.mul_sum, hpars]
      simp only [mul_pow, hsn]
    simp only [this]
    rw [← Finset.mul_sum, Finset.sum_comm]
    congr 1
    refine Finset.sum_congr rfl fun v _ => ?_
    rw [Finset.mul_sum]
    exact Finset.sum_congr rfl fun i _ => by rw [hcol v i]

end PyGSP
