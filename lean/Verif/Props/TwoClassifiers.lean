import Verif.Props.Regularisation

/-!
# C139: the two classifiers, one class against the others, merged classes
-/

namespace PyGSP

open Matrix Spec GState Learning

variable {n : ℕ} {S : Solvers n} {g : Graph n ℝ} {s : GState n}
  {cg : Matrix (Fin n) (Fin n) ℝ → (Fin n → ℝ) → Fin n → ℝ} {m : Fin n → Bool} {tau : ℝ}

/-- The indicator of a class. -/
def Spec.inClass (y : Fin n → ℕ) (j : ℕ) (v : Fin n) : ℝ := if y v = j then 1 else 0

/-- `∑ over the labelled vertices of ‖row of W‖² + tau tr(Wᵀ L W)`. -/
noncomputable def Spec.energy {d : ℕ} (L : Matrix (Fin n) (Fin n) ℝ) (m : Fin n → Bool) (tau : ℝ) (W : Matrix (Fin n) (Fin d) ℝ) : ℝ :=
  ∑ j, ((∑ v, if m v then (W v j) ^ 2 else 0) + tau * smoothness L fun v => W v j)

theorem regression1_congr (L : Matrix (Fin n) (Fin n) ℝ) {y y' : Fin n → ℝ} (hy : ∀ v, m v = true → y v = y' v) :
    regression1 cg false L y m tau = regression1 cg false L y' m tau := by
  have h1 : mask m y = mask m y' := by
    funext v
    unfold mask
    split
    · exact hy v ‹_›
    · rfl
  have h2 : solveUnlabelled L m y = solveUnlabelled L m y' := by
    have e : (fun v : { v : Fin n // m v = true } => y v.1) = fun v => y' v.1 := funext fun v => hy v.1 v.2
    unfold solveUnlabelled
    rw [e]
  have h3 : ∀ part, fill false m y part = fill false m y' part := by
    intro part
    funext v
    unfold fill
    split
    · rfl
    · exact hy v (by simpa using ‹¬ m v = false›)
  unfold regression1
  simp only [dite_true, Fin.cast_eq_self, h1, h2, h3]

/-- the columns of `regression2` -/
theorem regression2_column {L : Matrix (Fin n) (Fin n) ℝ} {k : ℕ} {Y X : Fin n → Fin k → ℝ} (h : regression2 cg L Y m tau = .ok X) (j : Fin k) :
    regression1 cg false L (fun v => Y v j) m tau = .ok fun v => X v j := by
  unfold regression2 at h
  unfold regression1
  by_cases ht : tau > 0
  · rw [if_pos ht] at h ⊢
    simp only [dite_true, Fin.cast_eq_self, Except.ok.injEq] at h ⊢
    rw [← h]
  · rw [if_neg ht] at h ⊢
    simp only [dite_true, Fin.cast_eq_self] at h ⊢
    by_cases hk : k = 0
    · rw [if_pos hk] at h; cases h
    rw [if_neg hk] at h
    rcases hs : seqFin k fun j => solveUnlabelled L m fun v => Y v j with e | part
    · rw [hs] at h; cases h
    · rw [hs] at h
      dsimp only at h
      split at h
      · cases h
      · rw [seqFin_ok] at hs
        rw [hs j]
        simp only [Except.ok.injEq] at h ⊢
        rw [← h]

/-- what a result of the classification says: the classes, and every column -/
theorem classification_inv {L : Matrix (Fin n) (Fin n) ℝ} {y : Fin n → ℕ} {k : ℕ} {X : Fin n → Fin k → ℝ}
    (h : classification cg L (fun v => (y v : ℤ)) m tau = .ok ⟨k, X⟩) :
    (∀ v, m v = true → y v < k) ∧ (∃ v, (if m v then y v else 0) + 1 = k) ∧
      ∀ j : Fin k, regression1 cg false L (inClass y j) m tau = .ok fun v => X v j := by
  have hn : 0 < n := by
    rcases Nat.eq_zero_or_pos n with rfl | hn
    · exfalso
      unfold classification at h
      simp only [dite_true, toLogits, intMax, lt_irrefl, dite_false] at h
      cases h
    · exact hn
  obtain ⟨k', Y, hY, hlt, hmx, hval⟩ := C60_logits hn fun v => if m v then y v else 0
  unfold classification at h
  rw [dif_pos rfl] at h
  have e : (fun v => if m (v.cast rfl) = true then (y v : ℤ) else 0) = fun v => (((if m v then y v else 0 : ℕ)) : ℤ) := by
    funext v
    simp only [Fin.cast_eq_self]
    split <;> simp
  rw [e, hY] at h
  dsimp only at h
  rcases hr : regression2 cg L Y m tau with e' | X'
  · rw [hr] at h; cases h
  · rw [hr] at h
    simp only [Except.ok.injEq, Sigma.mk.injEq] at h
    obtain ⟨rfl, h⟩ := h
    obtain rfl := eq_of_heq h
    refine ⟨fun v hv => by have := hlt v; rwa [if_pos hv] at this, hmx, fun j => ?_⟩
    rw [← regression2_column hr j]
    refine regression1_congr L fun v hv => ?_
    rw [hval, if_pos hv]
    unfold inClass
    by_cases hj : y v = j
    · rw [if_pos hj, if_pos hj.symm]
    · rw [if_neg hj, if_neg fun e => hj e.symm]

/-- **C139** One class against the others: the column of a class is what `regression_tikhonov` gives for the indicator of this class (any Laplacian, any `tau`, whatever the solver
does). -/
theorem C139_one_vs_rest {L : Matrix (Fin n) (Fin n) ℝ} {y : Fin n → ℕ} {k : ℕ} {X : Fin n → Fin k → ℝ}
    (h : classification cg L (fun v => (y v : ℤ)) m tau = .ok ⟨k, X⟩) (j : Fin k) :
    regression1 cg false L (fun v => if y v = j then 1 else 0) m tau = .ok fun v => X v j := (classification_inv h).2.2 j

/-- **C139** With the labels 0 and 1, the second column is what `regression_tikhonov` gives for the labels themselves. -/
theorem C139_two_classes {L : Matrix (Fin n) (Fin n) ℝ} {y : Fin n → ℕ} (hy : ∀ v, m v = true → y v ≤ 1) {X : Fin n → Fin 2 → ℝ}
    (h : classification cg L (fun v => (y v : ℤ)) m tau = .ok ⟨2, X⟩) :
    regression1 cg false L (fun v => (y v : ℝ)) m tau = .ok fun v => X v 1 := by
  rw [← C139_one_vs_rest h 1]
  refine regression1_congr L fun v hv => ?_
  have := hy v hv
  interval_cases h0 : y v <;> simp

/-- the regression is additive -/
theorem regression1_sum (h : Ready S g s) (hl : s.lapType = .combinatorial) (ha : Anchored g.W.dense m) (hcg : ExactCG cg) {ι : Type} (A : Finset ι)
    {y : ι → Fin n → ℝ} {x : ι → Fin n → ℝ} (hx : ∀ i ∈ A, regression1 cg false s.L (y i) m tau = .ok (x i)) {y' x' : Fin n → ℝ}
    (hx' : regression1 cg false s.L y' m tau = .ok x') (hy : ∀ v, m v = true → y' v = ∑ i ∈ A, y i v) (v : Fin n) : x' v = ∑ i ∈ A, x i v := by
  have hL := h.comb hl
  have hfun : (fun v => ∑ i ∈ A, x i v) = ∑ i ∈ A, x i := by funext v; simp
  rcases lt_or_ge 0 tau with ht | ht
  · have h1 := normal_eq h hcg ht hx'
    have h3 : penalised (combLap g.W.dense) m tau *ᵥ (x' - fun v => ∑ i ∈ A, x i v) = mask m (fun _ => 0) := by
      rw [← hL, Matrix.mulVec_sub, h1, hfun, Matrix.mulVec_sum, Finset.sum_congr rfl fun i hi => normal_eq h hcg ht (hx i hi)]
      funext w
      simp only [mask, Pi.sub_apply, Finset.sum_apply]
      by_cases hw : m w = true
      · simp only [hw, if_true, hy w hw, sub_self]
      · simp [hw]
    obtain ⟨c, -, h5⟩ := penalised_le h.nonneg ha ht h3 v
    obtain ⟨c', -, h6⟩ := penalised_ge h.nonneg ha ht h3 v
    simp only [Pi.sub_apply] at h5 h6
    linarith
  · obtain ⟨b1, b2⟩ := interpolation_spec ht hx'
    rw [hL] at b2
    have hharm : ∀ w, ¬ m w = true → (combLap g.W.dense *ᵥ (x' - fun v => ∑ i ∈ A, x i v)) w = 0 := by
      intro w hw
      have hw' : m w = false := by simpa using hw
      rw [Matrix.mulVec_sub, Pi.sub_apply, b2 w hw', hfun, Matrix.mulVec_sum, Finset.sum_apply, Finset.sum_eq_zero, sub_zero]
      intro i hi
      have := (interpolation_spec ht (hx i hi)).2 w hw'
      rwa [hL] at this
    have hlab : ∀ c, m c = true → x' c - ∑ i ∈ A, x i c = 0 := by
      intro c hc
      rw [b1 c hc, hy c hc, Finset.sum_congr rfl fun i hi => (interpolation_spec ht (hx i hi)).1 c hc, sub_self]
    obtain ⟨c, hc, h4⟩ := max_principle h.nonneg (fun w => m w = true) ha _ (fun w hw => (hharm w hw).le) v
    obtain ⟨c', hc', h5⟩ := min_principle h.nonneg (fun w => m w = true) ha _ (fun w hw => (hharm w hw).ge) v
    simp only [Pi.sub_apply, hlab c hc, hlab c' hc'] at h4 h5
    linarith

/-- **C139** Merging (or renaming) classes by `f` before the classification is the same as adding up their columns after it. -/
theorem C139_merge (h : Ready S g s) (hl : s.lapType = .combinatorial) (ha : Anchored g.W.dense m) (hcg : ExactCG cg) {y : Fin n → ℕ} (f : ℕ → ℕ)
    {k k' : ℕ} {X : Fin n → Fin k → ℝ} {X' : Fin n → Fin k' → ℝ} (hX : classification cg s.L (fun v => (y v : ℤ)) m tau = .ok ⟨k, X⟩)
    (hX' : classification cg s.L (fun v => (f (y v) : ℤ)) m tau = .ok ⟨k', X'⟩) (v : Fin n) (j' : Fin k') :
    X' v j' = ∑ j : Fin k, if f j = j' then X v j else 0 := by
  obtain ⟨hlt, -, hcol⟩ := classification_inv hX
  obtain ⟨-, -, hcol'⟩ := classification_inv (y := fun v => f (y v)) hX'
  rw [← Finset.sum_filter]
  refine regression1_sum h hl ha hcg (Finset.univ.filter fun j : Fin k => f j = j') (y := fun j => inClass y j) (fun j _ => hcol j) (hcol' j') (fun u hu => ?_) v
  rw [Finset.sum_filter]
  unfold inClass
  rw [Finset.sum_eq_single ⟨y u, hlt u hu⟩]
  · simp
  · intro j _ hj
    split
    · rw [if_neg]
      intro e
      exact hj (Fin.ext e.symm)
    · rfl
  · simp

/-- **C139** So giving other numbers to the classes permutes the columns. -/
theorem C139_rename (h : Ready S g s) (hl : s.lapType = .combinatorial) (ha : Anchored g.W.dense m) (hcg : ExactCG cg) {y : Fin n → ℕ} {f : ℕ → ℕ}
    (hf : Function.Injective f) {k k' : ℕ} {X : Fin n → Fin k → ℝ} {X' : Fin n → Fin k' → ℝ} (hX : classification cg s.L (fun v => (y v : ℤ)) m tau = .ok ⟨k, X⟩)
    (hX' : classification cg s.L (fun v => (f (y v) : ℤ)) m tau = .ok ⟨k', X'⟩) (v : Fin n) (j : Fin k) (j' : Fin k') (hj : f j = j') : X' v j' = X v j := by
  rw [C139_merge h hl ha hcg f hX hX' v j', Finset.sum_eq_single j]
  · rw [if_pos hj]
  · intro i _ hi
    rw [if_neg]
    intro e
    exact hi (Fin.ext (hf (e.trans hj.symm)))
  · simp

/-! ### The two classifiers -/

section Both

variable (h : Ready S g s) (hl : s.lapType = .combinatorial) (ha : Anchored g.W.dense m) (hcg : ExactCG cg) (ht : 0 < tau) {y : Fin n → ℕ}
  {k : ℕ} {X : Matrix (Fin n) (Fin k) ℝ} (hX : classification cg s.L (fun v => (y v : ℤ)) m tau = .ok ⟨k, X⟩)

/-- the matrix which `classification_tikhonov_simplex` fits -/
def Spec.fitted (y : Fin n → ℕ) (m : Fin n → Bool) (k : ℕ) : Matrix (Fin n) (Fin k) ℝ := fun v j => if m v = true ∧ (j.1 : ℤ) = y v then 1 else 0

theorem mask_fitted (y : Fin n → ℕ) (j : Fin k) : mask m (fun v => fitted y m k v j) = mask m (inClass y j) := by
  funext v
  unfold mask fitted inClass
  by_cases hv : m v = true
  · simp only [hv, if_true, true_and]
    by_cases hj : y v = j
    · rw [if_pos (by rw [hj]), if_pos hj]
    · rw [if_neg (by intro e; exact hj (by exact_mod_cast e.symm)), if_neg hj]
  · simp [hv]

include h hcg ht hX in
theorem column_normal (j : Fin k) : penalised s.L m tau *ᵥ (fun v => X v j) = mask m fun v => fitted y m k v j := by
  rw [mask_fitted]
  exact normal_eq h hcg ht ((classification_inv hX).2.2 j)

include h hcg ht hX in
theorem classObjective_gap (Z : Matrix (Fin n) (Fin k) ℝ) :
    classObjective s.L m (fitted y m k) tau Z = classObjective s.L m (fitted y m k) tau X + energy s.L m tau (Z - X) := by
  unfold classObjective energy
  rw [← Finset.sum_add_distrib]
  refine Finset.sum_congr rfl fun j _ => ?_
  rw [objective_eq (ready_lap h).1 (column_normal h hcg ht hX j) fun v => Z v j]
  rfl

include h hl ha ht in
theorem energy_pos {d : ℕ} {W : Matrix (Fin n) (Fin d) ℝ} : 0 ≤ energy s.L m tau W ∧ (energy s.L m tau W = 0 → W = 0) := by
  obtain ⟨hsym, hpsd⟩ := ready_lap h
  have hterm : ∀ j : Fin d, 0 ≤ (∑ v, if m v then (W v j) ^ 2 else 0) := fun j => Finset.sum_nonneg fun v _ => by split <;> positivity
  have hterm2 : ∀ j : Fin d, 0 ≤ tau * smoothness s.L fun v => W v j := fun j => mul_nonneg ht.le (hpsd _)
  refine ⟨Finset.sum_nonneg fun j _ => add_nonneg (hterm j) (hterm2 j), fun h0 => ?_⟩
  have h1 := (Finset.sum_eq_zero_iff_of_nonneg fun j _ => add_nonneg (hterm j) (hterm2 j)).1 h0
  ext v j
  have h2 := h1 j (Finset.mem_univ j)
  have h3 : ∑ v, (if m v then (W v j) ^ 2 else 0) = 0 := by linarith [hterm j, hterm2 j]
  have h4 : smoothness (combLap g.W.dense) (fun v => W v j) = 0 := by
    rw [← h.comb hl]
    exact (mul_eq_zero.1 (by linarith [hterm j, hterm2 j] : tau * smoothness s.L (fun v => W v j) = 0)).resolve_left ht.ne'
  obtain ⟨b, hb, hlk⟩ := ha v
  have h5 := quad_zero_linked h.nonneg h4 hlk
  have h6 := (Finset.sum_eq_zero_iff_of_nonneg fun v _ => by split <;> positivity).1 h3 b (Finset.mem_univ b)
  rw [if_pos hb] at h6
  have h7 : W b j = 0 := by simpa using h6
  simp only [Matrix.zero_apply]
  rw [← h7]
  exact h5

include h hl ha hcg ht hX in
/-- **C139** Both classifiers solve the same problem: for `tau > 0`, `classification_tikhonov_simplex` fits as many classes, and among all matrices, so also among those whose rows
are probability vectors, the result of `classification_tikhonov` is the only one with the smallest value of the function it minimises. -/
theorem C139_same_problem : simplexSetup (fun v => (y v : ℤ)) m tau = .ok ⟨k, fitted y m k⟩ ∧ 0 < k ∧ RowsInSimplex X ∧
    ∀ Z : Matrix (Fin n) (Fin k) ℝ, classObjective s.L m (fitted y m k) tau X ≤ classObjective s.L m (fitted y m k) tau Z ∧
      (classObjective s.L m (fitted y m k) tau Z = classObjective s.L m (fitted y m k) tau X → Z = X) := by
  obtain ⟨hlt, ⟨v0, hv0⟩, -⟩ := classification_inv hX
  refine ⟨?_, by omega, ?_, fun Z => ?_⟩
  · obtain ⟨k', Y, h1, -, h2⟩ := (C61_setup h.pos (fun v => (y v : ℤ)) m tau).2 ht fun v _ => by positivity
    have hk : k' = k := by
      obtain ⟨k2, Y2, h3, -, ⟨v2, hv2⟩, -⟩ := C60_logits h.pos fun v => if m v then y v else 0
      have e : (fun v => if m v = true then (y v : ℤ) else 0) = fun v => (((if m v then y v else 0 : ℕ)) : ℤ) := by
        funext v; split <;> simp
      unfold simplexSetup at h1
      rw [if_neg (not_le.2 ht), e, h3] at h1
      simp only [Except.ok.injEq, Sigma.mk.injEq] at h1
      have hX2 := hX
      unfold classification at hX2
      rw [dif_pos rfl] at hX2
      simp only [Fin.cast_eq_self] at hX2
      rw [e, h3] at hX2
      dsimp only at hX2
      rcases hr : regression2 cg s.L Y2 m tau with e' | X'
      · rw [hr] at hX2; cases hX2
      · rw [hr] at hX2
        have hX3 := congrArg Sigma.fst (Except.ok.inj hX2)
        dsimp only at hX3
        rw [← h1.1, hX3]
    subst hk
    rw [h1]
    congr 2
    funext v j
    rw [h2]
    rfl
  · have hcol := column_normal h hcg ht hX
    rw [h.comb hl] at hcol
    intro v
    refine ⟨fun j => ?_, ?_⟩
    · obtain ⟨b, -, hb⟩ := penalised_ge h.nonneg ha ht (hcol j) v
      refine le_trans ?_ hb
      unfold fitted
      split <;> norm_num
    · have hsum : penalised (combLap g.W.dense) m tau *ᵥ (fun v => ∑ j, X v j) = mask m fun _ => 1 := by
        have e : (fun v => ∑ j, X v j) = ∑ j, fun v => X v j := by funext v; simp
        rw [e, Matrix.mulVec_sum, Finset.sum_congr rfl fun j _ => hcol j]
        funext u
        rw [Finset.sum_apply]
        unfold mask fitted
        by_cases hu : m u = true
        · simp only [hu, if_true, true_and]
          rw [Finset.sum_eq_single ⟨y u, hlt u hu⟩]
          · simp
          · intro j _ hj
            rw [if_neg]
            intro e
            exact hj (Fin.ext (by exact_mod_cast e))
          · simp
        · simp [hu]
      obtain ⟨b, hb, h1⟩ := penalised_le h.nonneg ha ht hsum v
      obtain ⟨b', hb', h2⟩ := penalised_ge h.nonneg ha ht hsum v
      exact le_antisymm h1 h2
  · have hgap := classObjective_gap h hcg ht hX Z
    obtain ⟨e1, e2⟩ := energy_pos h hl ha ht (W := Z - X)
    exact ⟨by linarith, fun e => sub_eq_zero.1 (e2 (by linarith))⟩

variable {idx : (Fin k → ℝ) → Fin k → Fin k} (hidx : IsArgsort idx) {lmax : ℝ} (h0 : 0 ≤ lmax) (hmax : ∀ l, IsEigenvalue s.L l → l ≤ lmax)

include h hl ha hcg ht hX hidx h0 hmax in
/-- **C139** The solver of `classification_tikhonov_simplex` stays where it is at the result of `classification_tikhonov`, and only there. -/
theorem C139_fixed_point (Z : Matrix (Fin n) (Fin k) ℝ) : fbStep idx s.L m (fitted y m k) tau lmax Z = .ok Z ↔ Z = X := by
  obtain ⟨-, hk, hXs, hmin⟩ := C139_same_problem h hl ha hcg ht hX
  obtain ⟨hist, hs⟩ := h.reached
  constructor
  · intro hZ
    obtain ⟨-, h2⟩ := C61_fixed_point h.sound h.built hist hs h.nonneg hidx hk h0 hmax m (fitted y m k) ht Z hZ
    exact (hmin Z).2 (le_antisymm (h2 X hXs) (hmin Z).1)
  · rintro rfl
    obtain ⟨X', h1, h2, h3, -⟩ := C61_step h.sound h.built hist hs h.nonneg hidx hk h0 hmax m (fitted y m k) ht Z
    rw [h1]
    congr 1
    exact (hmin X').2 (le_antisymm (h3 hXs) (hmin X').1)

include h in
theorem energy_ge {mu : ℝ} (hmu : ∀ l, IsEigenvalue (Matrix.diagonal (fun v => if m v then 1 else 0) + tau • s.L) l → mu ≤ l) {d : ℕ} (Z X : Matrix (Fin n) (Fin d) ℝ) :
    mu * sqDist X Z ≤ energy s.L m tau (Z - X) := by
  have hsym := (ready_lap h).1
  have key : ∀ w : Fin n → ℝ, mu * (w ⬝ᵥ w) ≤ w ⬝ᵥ (penalised s.L m tau *ᵥ w) := by
    intro w
    have hps := penalised_symm (m := m) hsym tau
    have := quad_le_of_eig_le (L := -penalised s.L m tau) (B := -mu)
      (fun i j => by
        rw [Matrix.neg_apply, Matrix.neg_apply]
        exact congrArg Neg.neg (congrFun (congrFun hps i) j).symm)
      (fun l ⟨x, hx0, hx⟩ => by
        have h1 : mu ≤ -l := hmu (-l) ⟨x, hx0, by
          have : penalised s.L m tau *ᵥ x = (-l) • x := by
            rw [neg_smul, ← hx, Matrix.neg_mulVec, neg_neg]
          exact this⟩
        linarith) w
    rw [Matrix.neg_mulVec, dotProduct_neg] at this
    linarith
  unfold sqDist energy
  rw [Finset.sum_comm, Finset.mul_sum]
  refine Finset.sum_le_sum fun j _ => ?_
  have h1 := key fun v => (Z - X) v j
  rw [penalised_quad] at h1
  refine le_trans (le_of_eq ?_) h1
  congr 1
  refine Finset.sum_congr rfl fun v _ => ?_
  simp only [Matrix.sub_apply]
  ring

include h hl ha hcg ht hX hidx h0 hmax in
/-- **C139** And it goes there at a linear rate, from any starting point: with `mu` under the eigenvalues of the matrix `M + tau L` which `classification_tikhonov` inverts and
`c = 1 + tau lmax`, every iteration divides the squared distance to the result of `classification_tikhonov` by at least `1 + mu / c`. -/
theorem C139_rate {mu : ℝ} (hm0 : 0 ≤ mu) (hmu : ∀ l, IsEigenvalue (Matrix.diagonal (fun v => if m v then 1 else 0) + tau • s.L) l → mu ≤ l)
    (X0 : Matrix (Fin n) (Fin k) ℝ) (i : ℕ) :
    ∃ Xi, fbIter idx s.L m (fitted y m k) tau lmax X0 i = .ok Xi ∧ sqDist X Xi ≤ ((1 + tau * lmax) / (1 + tau * lmax + mu)) ^ i * sqDist X X0 := by
  obtain ⟨-, hk, hXs, hmin⟩ := C139_same_problem h hl ha hcg ht hX
  obtain ⟨hist, hs⟩ := h.reached
  have hc : 0 < 1 + tau * lmax := by have := mul_nonneg ht.le h0; linarith
  have hcm : 0 < 1 + tau * lmax + mu := by linarith
  induction i with
  | zero => exact ⟨X0, rfl, by simp⟩
  | succ i ih =>
    obtain ⟨Xi, i1, i2⟩ := ih
    obtain ⟨X', h1, h2, -, h4⟩ := C61_step h.sound h.built hist hs h.nonneg hidx hk h0 hmax m (fitted y m k) ht Xi
    refine ⟨X', ?_, ?_⟩
    · unfold fbIter
      rw [i1]
      exact h1
    · have h5 := h4 X hXs
      have h6 := classObjective_gap h hcg ht hX X'
      have h7 := energy_ge (m := m) (tau := tau) h hmu X' X
      have h8 : (1 + tau * lmax + mu) * sqDist X X' ≤ (1 + tau * lmax) * sqDist X Xi := by linarith
      have h9 : sqDist X X' ≤ (1 + tau * lmax) / (1 + tau * lmax + mu) * sqDist X Xi := by
        rw [div_mul_eq_mul_div, le_div_iff₀ hcm]
        linarith
      refine h9.trans ?_
      rw [pow_succ, mul_comm (_ ^ i), mul_assoc]
      exact mul_le_mul_of_nonneg_left i2 (by positivity)

include h hl ha ht in
/-- there is such a `mu` -/
theorem exists_mu : ∃ mu : ℝ, 0 < mu ∧ ∀ l, IsEigenvalue (Matrix.diagonal (fun v => if m v then 1 else 0) + tau • s.L) l → mu ≤ l := by
  obtain ⟨hsym, hpsd⟩ := ready_lap h
  have hps := penalised_symm (m := m) hsym tau
  have hposd : ∀ x : Fin n → ℝ, x ≠ 0 → 0 < x ⬝ᵥ (penalised s.L m tau *ᵥ x) := by
    intro x hx
    obtain ⟨e1, e2⟩ := energy_pos h hl ha ht (W := Matrix.of fun v (_ : Fin 1) => x v)
    have e3 : energy s.L m tau (Matrix.of fun v (_ : Fin 1) => x v) = x ⬝ᵥ (penalised s.L m tau *ᵥ x) := by
      rw [penalised_quad]
      unfold energy
      simp
    rw [← e3]
    refine lt_of_le_of_ne e1 fun e => hx ?_
    have := e2 e.symm
    funext v
    exact congrFun (congrFun this v) 0
  obtain ⟨e, U, hE, -⟩ := exists_eigh (penalised s.L m tau) fun i j => (congrFun (congrFun hps i) j).symm
  have heig : ∀ l, IsEigenvalue (penalised s.L m tau) l → 0 < l := by
    rintro l ⟨x, hx0, hx⟩
    have h1 := hposd x hx0
    rw [hx, dotProduct_smul, smul_eq_mul] at h1
    have h2 : 0 ≤ x ⬝ᵥ x := Finset.sum_nonneg fun v _ => mul_self_nonneg _
    by_contra hneg
    push Not at hneg
    nlinarith
  have hne : (Finset.univ : Finset (Fin n)).Nonempty := ⟨⟨0, h.pos⟩, Finset.mem_univ _⟩
  refine ⟨Finset.univ.inf' hne e, ?_, fun l hl' => ?_⟩
  · rw [Finset.lt_inf'_iff]
    intro j _
    exact heig _ (hE.isEigenvalue j)
  · obtain ⟨j, hj⟩ := hE.complete (fun i j => (congrFun (congrFun hps i) j).symm) hl'
    rw [← hj]
    exact Finset.inf'_le _ (Finset.mem_univ j)

include h hl ha hcg ht hX hidx h0 hmax in
/-- **C139** So from the starting point of the code every entry converges to that of `classification_tikhonov`. -/
theorem C139_limit {ε : ℝ} (hε : 0 < ε) : ∃ K : ℕ, ∀ i, K ≤ i → ∃ Xi, fbIter idx s.L m (fitted y m k) tau lmax (fitted y m k) i = .ok Xi ∧
    ∀ v j, |Xi v j - X v j| < ε := by
  obtain ⟨mu, hm0, hmu⟩ := exists_mu h hl ha ht
  have hc : 0 < 1 + tau * lmax := by have := mul_nonneg ht.le h0; linarith
  set ρ := (1 + tau * lmax) / (1 + tau * lmax + mu) with hρ
  have hρ0 : 0 ≤ ρ := by positivity
  have hρ1 : ρ < 1 := by rw [hρ, div_lt_one (by linarith)]; linarith
  set D := sqDist X (fitted y m k)
  have hD : 0 ≤ D := Finset.sum_nonneg fun v _ => Finset.sum_nonneg fun j _ => sq_nonneg _
  obtain ⟨K, hK⟩ := exists_pow_lt_of_lt_one (by positivity : 0 < ε ^ 2 / (D + 1)) hρ1
  refine ⟨K, fun i hi => ?_⟩
  obtain ⟨Xi, h1, h2⟩ := C139_rate h hl ha hcg ht hX hidx h0 hmax hm0.le hmu (fitted y m k) i
  refine ⟨Xi, h1, fun v j => ?_⟩
  have h3 : (X v j - Xi v j) ^ 2 ≤ sqDist X Xi := by
    refine le_trans ?_ (Finset.single_le_sum (f := fun v => ∑ j, (X v j - Xi v j) ^ 2) (fun v _ => Finset.sum_nonneg fun j _ => sq_nonneg _) (Finset.mem_univ v))
    exact Finset.single_le_sum (f := fun j => (X v j - Xi v j) ^ 2) (fun j _ => sq_nonneg _) (Finset.mem_univ j)
  have h4 : ρ ^ i ≤ ρ ^ K := pow_le_pow_of_le_one hρ0 hρ1.le hi
  have h5 : ρ ^ i * D < ε ^ 2 := by
    have h6 : ρ ^ i * D ≤ ρ ^ K * D := mul_le_mul_of_nonneg_right h4 hD
    have h7 : ρ ^ K * (D + 1) < ε ^ 2 := by rwa [lt_div_iff₀ (by linarith)] at hK
    have h8 : 0 ≤ ρ ^ K := by positivity
    nlinarith
  rw [abs_sub_comm]
  exact abs_lt_of_sq_lt_sq (by linarith) hε.le

end Both

/-- **C139** (the normalized Laplacian) The two classifiers differ: on every graph with two linked vertices of different degrees, when all the labels are the same the rows of
`classification_tikhonov` are not all probability vectors, whereas every iteration of `classification_tikhonov_simplex` gives the class the probability 1 everywhere. -/
theorem C139_normalized_violated (h : Ready S g s) (hl : s.lapType = .normalized) {i j : Fin n} (hij : Linked g.W.dense i j)
    (hdeg : wdeg g.W.dense i ≠ wdeg g.W.dense j) (hcg : ExactCG cg) (ht : 0 < tau) (m : Fin n → Bool) :
    (∃ X : Matrix (Fin n) (Fin 1) ℝ, classification cg s.L (fun _ => 0) m tau = .ok ⟨1, X⟩ ∧ ¬ RowsInSimplex X) ∧
      ∃ Y : Matrix (Fin n) (Fin 1) ℝ, simplexSetup (fun _ : Fin n => 0) m tau = .ok ⟨1, Y⟩ ∧
        ∀ (idx : (Fin 1 → ℝ) → Fin 1 → Fin 1) (lmax : ℝ), IsArgsort idx → 0 ≤ lmax → (∀ l, IsEigenvalue s.L l → l ≤ lmax) → ∀ Z,
          fbStep idx s.L m Y tau lmax Z = .ok fun _ _ => 1 := by
  obtain ⟨k, Y, hY, -, ⟨v0, hv0⟩, hval⟩ := C60_logits h.pos fun _ => 0
  simp only [zero_add] at hv0
  subst hv0
  have hY' : toLogits (fun v => (((if m v then (fun _ => 0) v else 0 : ℕ)) : ℤ)) = .ok ⟨1, Y⟩ := by simpa using hY
  constructor
  · have hr : regression2 cg s.L Y m tau = .ok fun v j => cg (penalised s.L m tau) (mask m fun v => Y v j) v := by
      unfold regression2
      rw [if_pos ht, dif_pos rfl]
      rfl
    have hc := classification_eq cg s.L (fun _ => 0) m tau hY' hr
    refine ⟨_, by simpa using hc, fun hsimp => ?_⟩
    have h1 := normal_eq h hcg ht (regression2_column hr 0)
    have hone : (fun v => cg (penalised s.L m tau) (mask m fun v => Y v 0) v) = fun _ => 1 := by
      funext v
      have := (hsimp v).2
      simpa using this
    rw [hone] at h1
    have h2 : ∀ v, (s.L *ᵥ fun _ => 1) v = 0 := by
      intro v
      have h3 := congrFun h1 v
      rw [penalised_mulVec] at h3
      have h4 : Y v 0 = 1 := by rw [hval]; simp
      unfold mask at h3
      simp only [h4] at h3
      have h5 : tau * (s.L *ᵥ fun _ => 1) v = 0 := by linarith
      exact (mul_eq_zero.1 h5).resolve_left ht.ne'
    have hlap := h.lap
    rw [hl, laplacian_norm _ h.nonneg] at hlap
    have hL := (Except.ok.inj hlap).symm
    have h3 : smoothness (combLap g.W.dense) (fun v => nscale g.W.dense v) = 0 := by
      have h4 := scaled_quad (nscale g.W.dense) (combLap g.W.dense) fun _ => 1
      simp only [mul_one] at h4
      unfold smoothness
      rw [← h4, ← hL, show (s.L *ᵥ fun _ => (1 : ℝ)) = 0 from funext h2, dotProduct_zero]
    have h4 := quad_zero_linked h.nonneg h3 hij
    have h5 := nscale_sq _ h.nonneg i
    have h6 := nscale_sq _ h.nonneg j
    rw [h4] at h5
    by_cases hi : wdeg g.W.dense i = 0
    · have hj : wdeg g.W.dense j ≠ 0 := fun e => hdeg (hi.trans e.symm)
      rw [if_neg hj] at h6
      have : nscale g.W.dense i = 0 := by simp [nscale, hi]
      rw [h4] at this
      rw [this] at h6
      simp at h6
    · rw [if_neg hi] at h5
      by_cases hj : wdeg g.W.dense j = 0
      · have : nscale g.W.dense j = 0 := by simp [nscale, hj]
        rw [this] at h5
        simp at h5
      · rw [if_neg hj] at h6
        have h7 : nscale g.W.dense j * nscale g.W.dense j ≠ 0 := fun e => by rw [e] at h6; simp at h6
        exact hdeg (mul_left_cancel₀ h7 (h5.trans h6.symm))
  · refine ⟨fun v j => if m v then Y v j else 0, ?_, fun idx lmax hidx h0 hmax Z => ?_⟩
    · unfold simplexSetup
      rw [if_neg (not_le.2 ht)]
      have e : (fun v => if m v = true then (0 : ℤ) else 0) = fun _ : Fin n => (0 : ℤ) := by funext v; simp
      have hY2 : toLogits (fun _ : Fin n => (0 : ℤ)) = .ok ⟨1, Y⟩ := by simpa using hY
      rw [e, hY2]
    · obtain ⟨hist, hs⟩ := h.reached
      obtain ⟨X', h1, h2, -⟩ := C61_step h.sound h.built hist hs h.nonneg hidx Nat.one_pos h0 hmax m (fun v j => if m v then Y v j else 0) ht Z
      rw [h1]
      congr 1
      ext v j
      have := (h2 v).2
      rw [Fin.eq_zero j]
      simpa using this

/-- A reachable case of the agreement: three classes on the path with four vertices (one label missing). -/
example : ∃ (g : Graph 4 ℝ) (S : Solvers 4) (s : GState 4) (cg : Matrix (Fin 4) (Fin 4) ℝ → (Fin 4 → ℝ) → Fin 4 → ℝ) (X : Matrix (Fin 4) (Fin 3) ℝ)
    (X' : Matrix (Fin 4) (Fin 2) ℝ) (idx : (Fin 3 → ℝ) → Fin 3 → Fin 3) (l : ℝ),
    Ready S g s ∧ s.lapType = .combinatorial ∧ Anchored g.W.dense ![true, false, true, true] ∧ ExactCG cg ∧
    classification cg s.L (fun v => ((![0, 7, 2, 1] : Fin 4 → ℕ) v : ℤ)) ![true, false, true, true] 2 = .ok ⟨3, X⟩ ∧
    classification cg s.L (fun v => (((![0, 7, 2, 1] : Fin 4 → ℕ) v % 2 : ℕ) : ℤ)) ![true, false, true, true] 2 = .ok ⟨2, X'⟩ ∧
    IsArgsort idx ∧ 0 ≤ l ∧ ∀ v, IsEigenvalue s.L v → v ≤ l := by
  obtain ⟨S, g, s, hd, h, hl, -⟩ := exists_ready path4 path4_nonneg (by norm_num)
  obtain ⟨cg, hcg⟩ := exists_cg 4
  obtain ⟨idx, hidx⟩ := exists_argsort 3
  obtain ⟨hist, hs⟩ := h.reached
  have ha : Anchored g.W.dense ![true, false, true, true] := fun v => ⟨0, rfl, by rw [hd]; exact path4_connected v 0⟩
  obtain ⟨k, X, hX, h1, ⟨v, hv, h2⟩, -⟩ := C60_classification h.sound h.built hist hs h.nonneg hl hcg (by norm_num) ![0, 7, 2, 1] ![true, false, true, true] ha ⟨1, rfl⟩
    ⟨2, rfl, by simp⟩ 2
  obtain ⟨k', X', hX', h1', ⟨v', hv', h2'⟩, -⟩ := C60_classification h.sound h.built hist hs h.nonneg hl hcg (by norm_num) (fun v => (![0, 7, 2, 1] : Fin 4 → ℕ) v % 2)
    ![true, false, true, true] ha ⟨1, rfl⟩ ⟨3, rfl, by simp⟩ 2
  have hk : k = 3 := by
    have h3 : 2 < k := h1 2 rfl
    have h4 : (![0, 7, 2, 1] : Fin 4 → ℕ) v ≤ 2 := by
      fin_cases v
      · simp
      · simp at hv
      · simp
      · simp
    omega
  have hk' : k' = 2 := by
    have h3 : 1 < k' := h1' 3 rfl
    have h4 : (![0, 7, 2, 1] : Fin 4 → ℕ) v' % 2 < 2 := Nat.mod_lt _ (by norm_num)
    omega
  subst hk hk'
  obtain ⟨e, U, hE, hm⟩ := exists_eigh s.L fun i j => (congrFun (congrFun (ready_lap h).1 i) j).symm
  refine ⟨g, S, s, cg, X, X', idx, e 3, h, hl, ha, hcg, hX, hX', hidx, h.eig_nonneg (hE.isEigenvalue 3), fun v hv => ?_⟩
  obtain ⟨j, rfl⟩ := hE.complete (fun i j => (congrFun (congrFun (ready_lap h).1 i) j).symm) hv
  exact hm (Fin.le_last j)

/-- A reachable case of the difference: the same path, its ends have a smaller degree. -/
example : ∃ (g : Graph 4 ℝ) (S : Solvers 4) (s : GState 4) (cg : Matrix (Fin 4) (Fin 4) ℝ → (Fin 4 → ℝ) → Fin 4 → ℝ),
    Ready S g s ∧ s.lapType = .normalized ∧ Linked g.W.dense 0 1 ∧ wdeg g.W.dense 0 ≠ wdeg g.W.dense 1 ∧ ExactCG cg := by
  obtain ⟨S, g, s, -, hr, -, -⟩ := exists_ready path4 path4_nonneg (by norm_num)
  obtain ⟨g', hg', hd', hlt⟩ := Graph.exists_built (K := ℝ) path4 .normalized
  have h0 := GState.ofGraph_inv (S := S) g' hg'
  have hl' : (GState.ofGraph g').lapType = .normalized := by rw [h0.2.2.1, hlt]
  have hr' : Ready S g' (GState.ofGraph g') := ⟨hr.sound, hg', by rw [hd']; exact path4_nonneg, by norm_num, ⟨[], rfl⟩, .inr hl', by
    rw [h0.2.2.2.2.2]; intro b hb; cases hb⟩
  obtain ⟨cg, hcg⟩ := exists_cg 4
  refine ⟨g', S, _, cg, hr', hl', by rw [hd']; exact path4_connected 0 1, ?_, hcg⟩
  rw [hd']
  simp [wdeg, path4, Fin.sum_univ_four]

end PyGSP
