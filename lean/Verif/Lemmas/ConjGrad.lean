import Verif.Model.ConjGrad
import Verif.Lemmas.Learning
import Verif.Lemmas.Rounding

/-! # The conjugate gradient converges -/

namespace PyGSP.ConjGrad

open Matrix Spec Learning

variable {n : ℕ}

/-- the state before iteration `k` -/
noncomputable def iter (A : Matrix (Fin n) (Fin n) ℝ) (b : Fin n → ℝ) : ℕ → CGState n
  | 0 => ⟨0, b, 0, 0⟩
  | k + 1 => cgStep A k (iter A b k)

variable {A : Matrix (Fin n) (Fin n) ℝ} {b : Fin n → ℝ}

/-- the residual before iteration `k` -/
noncomputable abbrev R (A : Matrix (Fin n) (Fin n) ℝ) (b : Fin n → ℝ) (k : ℕ) : Fin n → ℝ := (iter A b k).r

/-- the direction of iteration `k` -/
noncomputable abbrev P (A : Matrix (Fin n) (Fin n) ℝ) (b : Fin n → ℝ) (k : ℕ) : Fin n → ℝ := (iter A b (k + 1)).p

/-- the step of iteration `k` -/
noncomputable def al (A : Matrix (Fin n) (Fin n) ℝ) (b : Fin n → ℝ) (k : ℕ) : ℝ := (R A b k ⬝ᵥ R A b k) / (P A b k ⬝ᵥ (A *ᵥ P A b k))

theorem P_zero : P A b 0 = b := by simp [P, iter, cgStep]

theorem P_succ (k : ℕ) : P A b (k + 1) = ((R A b (k + 1) ⬝ᵥ R A b (k + 1)) / (R A b k ⬝ᵥ R A b k)) • P A b k + R A b (k + 1) := by
  have h : ∀ st : CGState n, (cgStep A (k + 1) st).p = ((st.r ⬝ᵥ st.r) / st.rho) • st.p + st.r := fun st => by simp [cgStep]
  have h2 : ∀ st : CGState n, (cgStep A k st).rho = st.r ⬝ᵥ st.r := fun st => by simp [cgStep]
  change (cgStep A (k + 1) (iter A b (k + 1))).p = _
  rw [h]
  have h3 : (iter A b (k + 1)).rho = R A b k ⬝ᵥ R A b k := h2 _
  rw [h3]

theorem R_succ (k : ℕ) : R A b (k + 1) = R A b k - al A b k • (A *ᵥ P A b k) := rfl

theorem x_succ (k : ℕ) : (iter A b (k + 1)).x = (iter A b k).x + al A b k • P A b k := rfl

theorem residual (k : ℕ) : R A b k = b - A *ᵥ (iter A b k).x := by
  induction k with
  | zero => simp [R, iter]
  | succ k ih => rw [R_succ, ih, x_succ, Matrix.mulVec_add, Matrix.mulVec_smul]; abel

theorem dot_symm (hA : Aᵀ = A) (x y : Fin n → ℝ) : x ⬝ᵥ (A *ᵥ y) = (A *ᵥ x) ⬝ᵥ y := by
  rw [Matrix.dotProduct_mulVec, ← Matrix.mulVec_transpose, hA]

theorem psd_kernel (hA : Aᵀ = A) (hp : PSD A) {x : Fin n → ℝ} (h : x ⬝ᵥ (A *ᵥ x) = 0) : A *ᵥ x = 0 := by
  have h4 : ∀ t : ℝ, 0 ≤ (A *ᵥ x ⬝ᵥ (A *ᵥ (A *ᵥ x))) * (t * t) + (2 * (A *ᵥ x ⬝ᵥ A *ᵥ x)) * t + 0 := by
    intro t
    have := hp (x + t • (A *ᵥ x))
    rw [Matrix.mulVec_add, Matrix.mulVec_smul, dotProduct_add, add_dotProduct, add_dotProduct, smul_dotProduct, smul_dotProduct,
      dotProduct_smul, dotProduct_smul, h, dot_symm hA x] at this
    simp only [smul_eq_mul] at this
    linarith
  have := discrim_le_zero h4
  unfold discrim at this
  have h5 : (A *ᵥ x ⬝ᵥ A *ᵥ x) = 0 := by nlinarith [sq_nonneg (A *ᵥ x ⬝ᵥ A *ᵥ x)]
  exact dotProduct_self_eq_zero.1 h5

theorem range_R (hb : ∃ x, A *ᵥ x = b) (k : ℕ) : ∃ x, A *ᵥ x = R A b k := by
  obtain ⟨x, hx⟩ := hb
  exact ⟨x - (iter A b k).x, by rw [residual, Matrix.mulVec_sub, hx]⟩

theorem range_P (hb : ∃ x, A *ᵥ x = b) (k : ℕ) : ∃ x, A *ᵥ x = P A b k := by
  induction k with
  | zero => rw [P_zero]; exact hb
  | succ k ih =>
    obtain ⟨x, hx⟩ := ih
    obtain ⟨y, hy⟩ := range_R hb (k + 1)
    exact ⟨((R A b (k + 1) ⬝ᵥ R A b (k + 1)) / (R A b k ⬝ᵥ R A b k)) • x + y, by rw [P_succ, Matrix.mulVec_add, Matrix.mulVec_smul, hx, hy]⟩

/-- The invariant of the conjugate gradient. -/
structure Inv (A : Matrix (Fin n) (Fin n) ℝ) (b : Fin n → ℝ) (k : ℕ) : Prop where
  rr : ∀ i j, i < j → j ≤ k → R A b i ⬝ᵥ R A b j = 0
  pp : ∀ i j, i < j → j ≤ k → P A b i ⬝ᵥ (A *ᵥ P A b j) = 0
  pr : ∀ i j, i < j → j ≤ k → P A b i ⬝ᵥ R A b j = 0

theorem Inv.self (h : Inv A b k) : P A b k ⬝ᵥ R A b k = R A b k ⬝ᵥ R A b k := by
  cases k with
  | zero => rw [P_zero]; rfl
  | succ k => rw [P_succ, add_dotProduct, smul_dotProduct, h.pr k (k + 1) (by omega) le_rfl]; simp

theorem Inv.pos (hA : Aᵀ = A) (hp : PSD A) (hb : ∃ x, A *ᵥ x = b) (h : Inv A b k) (hr : R A b k ≠ 0) : 0 < P A b k ⬝ᵥ (A *ᵥ P A b k) := by
  refine lt_of_le_of_ne (hp _) fun h0 => hr ?_
  have h1 := psd_kernel hA hp h0.symm
  obtain ⟨z, hz⟩ := range_P (A := A) hb k
  have h2 : P A b k ⬝ᵥ P A b k = 0 := by
    nth_rewrite 1 [← hz]
    rw [← dot_symm hA, h1, dotProduct_zero]
  have h3 : P A b k = 0 := dotProduct_self_eq_zero.1 h2
  have h4 := h.self
  rw [h3, zero_dotProduct] at h4
  exact dotProduct_self_eq_zero.1 h4.symm

theorem Inv.mono {k l : ℕ} (h : Inv A b k) (hl : l ≤ k) : Inv A b l :=
  ⟨fun i j a c => h.rr i j a (c.trans hl), fun i j a c => h.pp i j a (c.trans hl), fun i j a c => h.pr i j a (c.trans hl)⟩

theorem rho_pos {k : ℕ} (hr : R A b k ≠ 0) : 0 < R A b k ⬝ᵥ R A b k :=
  lt_of_le_of_ne (by rw [dotProduct]; exact Finset.sum_nonneg fun v _ => mul_self_nonneg _) fun h => hr (dotProduct_self_eq_zero.1 h.symm)

theorem al_pos (hA : Aᵀ = A) (hp : PSD A) (hb : ∃ x, A *ᵥ x = b) (h : Inv A b k) (hr : R A b k ≠ 0) : 0 < al A b k :=
  div_pos (rho_pos hr) (h.pos hA hp hb hr)

theorem Inv.succ (hA : Aᵀ = A) (hp : PSD A) (hb : ∃ x, A *ᵥ x = b) (h : Inv A b k) (hr : ∀ i ≤ k, R A b i ≠ 0) : Inv A b (k + 1) := by
  have hpos := h.pos hA hp hb (hr k le_rfl)
  have hρ := rho_pos (hr k le_rfl)
  have pr : ∀ i ≤ k, P A b i ⬝ᵥ R A b (k + 1) = 0 := by
    intro i hi
    rw [R_succ, dotProduct_sub, dotProduct_smul]
    rcases hi.lt_or_eq with hi | rfl
    · rw [h.pr i k hi le_rfl, h.pp i k hi le_rfl]; simp
    · rw [h.self]; unfold al; rw [smul_eq_mul, div_mul_cancel₀ _ hpos.ne', sub_self]
  have rr : ∀ i ≤ k, R A b i ⬝ᵥ R A b (k + 1) = 0 := by
    intro i hi
    cases i with
    | zero => have := pr 0 hi; rwa [P_zero] at this
    | succ i =>
      have h1 := pr (i + 1) hi
      rw [P_succ, add_dotProduct, smul_dotProduct, pr i (by omega), smul_zero, zero_add] at h1
      exact h1
  have key : ∀ i ≤ k, P A b i ⬝ᵥ (A *ᵥ R A b (k + 1)) = (R A b i ⬝ᵥ R A b (k + 1) - R A b (i + 1) ⬝ᵥ R A b (k + 1)) / al A b i := by
    intro i hi
    have ha := al_pos hA hp hb (h.mono hi) (hr i hi)
    rw [dot_symm hA, eq_div_iff ha.ne', R_succ i, sub_dotProduct, smul_dotProduct, smul_eq_mul]
    ring
  have pp : ∀ i ≤ k, P A b i ⬝ᵥ (A *ᵥ P A b (k + 1)) = 0 := by
    intro i hi
    rw [P_succ, Matrix.mulVec_add, Matrix.mulVec_smul, dotProduct_add, dotProduct_smul, key i hi, rr i hi]
    rcases hi.lt_or_eq with hi | rfl
    · rw [h.pp i k hi le_rfl, rr (i + 1) hi]; simp
    · unfold al
      rw [smul_eq_mul]
      field_simp
      ring
  refine ⟨fun i j hij hj => ?_, fun i j hij hj => ?_, fun i j hij hj => ?_⟩ <;> rcases hj.lt_or_eq with hj | rfl
  · exact h.rr i j hij (by omega)
  · exact rr i (by omega)
  · exact h.pp i j hij (by omega)
  · exact pp i (by omega)
  · exact h.pr i j hij (by omega)
  · exact pr i (by omega)

theorem inv_of (hA : Aᵀ = A) (hp : PSD A) (hb : ∃ x, A *ᵥ x = b) (k : ℕ) (hr : ∀ i < k, R A b i ≠ 0) : Inv A b k := by
  induction k with
  | zero => exact ⟨fun i j h h' => by omega, fun i j h h' => by omega, fun i j h h' => by omega⟩
  | succ k ih => exact (ih fun i hi => hr i (by omega)).succ hA hp hb fun i hi => hr i (by omega)

/-- some residual among the first `n + 1` vanishes -/
theorem exists_zero (hA : Aᵀ = A) (hp : PSD A) (hb : ∃ x, A *ᵥ x = b) : ∃ k ≤ n, R A b k = 0 := by
  by_contra hcon
  push Not at hcon
  have hI := inv_of hA hp hb n fun i hi => hcon i hi.le
  have hli : LinearIndependent ℝ fun i : Fin (n + 1) => R A b i := by
    rw [Fintype.linearIndependent_iff]
    intro c hc i
    have h1 : (∑ j : Fin (n + 1), c j • R A b j) ⬝ᵥ R A b i = c i * (R A b i ⬝ᵥ R A b i) := by
      rw [sum_dotProduct, Finset.sum_eq_single i]
      · rw [smul_dotProduct, smul_eq_mul]
      · intro j _ hj
        rw [smul_dotProduct]
        rcases lt_or_gt_of_ne hj with h | h
        · rw [hI.rr j i h (by omega), smul_zero]
        · rw [dotProduct_comm, hI.rr i j h (by omega), smul_zero]
      · simp
    rw [hc, zero_dotProduct] at h1
    exact (mul_eq_zero.1 h1.symm).resolve_right (rho_pos (hcon i (by omega))).ne'
  have := hli.fintype_card_le_finrank
  simp at this

/-- what the loop returns -/
theorem loop_eq {tol : ℝ} {mx : ℕ} (j : ℕ) (hlt : ∀ i < j, tol ≤ len (R A b i)) (hj : len (R A b j) < tol) :
    ∀ todo k, k ≤ j → j < k + todo → cgLoop A tol mx todo k (iter A b k) = ((iter A b j).x, 0) := by
  intro todo
  induction todo with
  | zero => intro k h1 h2; omega
  | succ todo ih =>
    intro k h1 h2
    rw [cgLoop]
    rcases h1.lt_or_eq with h | rfl
    · rw [if_neg (by have := hlt k h; unfold len at this; exact not_lt.2 this)]
      exact ih (k + 1) h (by omega)
    · exact if_pos hj

theorem len_zero_iff (x : Fin n → ℝ) : len x = 0 ↔ x = 0 := by
  rw [Rounding.len_eq, norm_eq_zero]
  exact ⟨fun h => by simpa using congrArg WithLp.ofLp h, fun h => by rw [h]; rfl⟩

/-- The solver stops at the first iterate whose residual is small, before the limit of iterations. -/
theorem run_spec {ρ : ℝ} (hρ : 0 < ρ) (hA : Aᵀ = A) (hp : PSD A) (hb : ∃ x, A *ᵥ x = b) (hb0 : b ≠ 0) :
    ∃ j ≤ n, (∀ i < j, ρ * len b ≤ len (R A b i)) ∧ len (R A b j) < ρ * len b ∧ cgRun ρ A b = ((iter A b j).x, 0) := by
  classical
  have hl : len b ≠ 0 := fun h => hb0 ((len_zero_iff b).1 h)
  have hpos : 0 < ρ * len b := mul_pos hρ (lt_of_le_of_ne (Rounding.len_nonneg b) hl.symm)
  obtain ⟨k, hk, h0⟩ := exists_zero hA hp hb
  have hex : ∃ j, len (R A b j) < ρ * len b := ⟨k, by rw [h0, Rounding.len_zero]; exact hpos⟩
  have hjk : Nat.find hex ≤ k := Nat.find_min' hex (by rw [h0, Rounding.len_zero]; exact hpos)
  have hn : 0 < n := by
    rcases Nat.eq_zero_or_pos n with h | h
    · subst h; exact absurd (Subsingleton.elim b 0) hb0
    · exact h
  refine ⟨Nat.find hex, hjk.trans hk, fun i hi => not_lt.1 (Nat.find_min hex hi), Nat.find_spec hex, ?_⟩
  unfold cgRun
  have hl' : √(∑ v, b v ^ 2) ≠ 0 := hl
  simp only [hl', if_false]
  exact loop_eq (Nat.find hex) (fun i hi => not_lt.1 (Nat.find_min hex hi)) (Nat.find_spec hex) (n * 10) 0 (by omega) (by omega)

/-- the quadratic function that the conjugate gradient minimises -/
noncomputable def phi (A : Matrix (Fin n) (Fin n) ℝ) (b x : Fin n → ℝ) : ℝ := x ⬝ᵥ (A *ᵥ x) - 2 * (x ⬝ᵥ b)

theorem phi_step (hA : Aᵀ = A) (hp : PSD A) (hb : ∃ x, A *ᵥ x = b) {k : ℕ} (h : Inv A b k) (hr : R A b k ≠ 0) :
    phi A b (iter A b (k + 1)).x ≤ phi A b (iter A b k).x := by
  have h1 := h.self
  rw [residual, dotProduct_sub] at h1
  rw [← residual] at h1
  have hpos := h.pos hA hp hb hr
  have hρ := rho_pos hr
  have hal : al A b k * (P A b k ⬝ᵥ (A *ᵥ P A b k)) = R A b k ⬝ᵥ R A b k := by unfold al; exact div_mul_cancel₀ _ hpos.ne'
  have ha := al_pos hA hp hb h hr
  unfold phi
  rw [x_succ, Matrix.mulVec_add, Matrix.mulVec_smul, dotProduct_add, add_dotProduct, add_dotProduct, add_dotProduct, smul_dotProduct,
    smul_dotProduct, smul_dotProduct, dotProduct_smul, dotProduct_smul, dot_symm hA (iter A b k).x (P A b k), dotProduct_comm (A *ᵥ (iter A b k).x) (P A b k)]
  simp only [smul_eq_mul]
  have h3 : 0 ≤ al A b k * (R A b k ⬝ᵥ R A b k) := (mul_pos ha hρ).le
  have h4 := congrArg (fun t => al A b k * t) hal
  have h5 := congrArg (fun t => al A b k * t) h1
  beta_reduce at h4 h5
  rw [mul_sub] at h5
  linarith

theorem phi_le (hA : Aᵀ = A) (hp : PSD A) (hb : ∃ x, A *ᵥ x = b) (j : ℕ) (hr : ∀ i < j, R A b i ≠ 0) : phi A b (iter A b j).x ≤ 0 := by
  induction j with
  | zero => simp [phi, iter]
  | succ j ih =>
    exact (phi_step hA hp hb (inv_of hA hp hb j fun i hi => hr i (by omega)) (hr j (by omega))).trans (ih fun i hi => hr i (by omega))

/-! ### Symmetries of the solver -/

section
variable {A' : Matrix (Fin n) (Fin n) ℝ} (T : (Fin n → ℝ) →ₗ[ℝ] (Fin n → ℝ)) {γ : ℝ} (hγ : 0 < γ) (hdot : ∀ x y, T x ⬝ᵥ T y = γ * (x ⬝ᵥ y))
  (hT : ∀ x, A' *ᵥ T x = T (A *ᵥ x))

/-- the image of a state -/
noncomputable def mapState (T : (Fin n → ℝ) →ₗ[ℝ] (Fin n → ℝ)) (γ : ℝ) (st : CGState n) : CGState n := ⟨T st.x, T st.r, T st.p, γ * st.rho⟩

include hγ hdot hT in
theorem step_map (k : ℕ) (st : CGState n) : cgStep A' k (mapState T γ st) = mapState T γ (cgStep A k st) := by
  have hp : (cgStep A' k (mapState T γ st)).p = T (cgStep A k st).p := by
    unfold cgStep mapState
    dsimp only
    split
    · rfl
    · rw [hdot, map_add, map_smul, mul_div_mul_left _ _ hγ.ne']
  have e : ∀ (B : Matrix (Fin n) (Fin n) ℝ) (st : CGState n), cgStep B k st =
      ⟨st.x + ((st.r ⬝ᵥ st.r) / ((cgStep B k st).p ⬝ᵥ (B *ᵥ (cgStep B k st).p))) • (cgStep B k st).p,
        st.r - ((st.r ⬝ᵥ st.r) / ((cgStep B k st).p ⬝ᵥ (B *ᵥ (cgStep B k st).p))) • (B *ᵥ (cgStep B k st).p), (cgStep B k st).p, st.r ⬝ᵥ st.r⟩ := fun _ _ => rfl
  rw [e A', e A, hp]
  unfold mapState
  dsimp only
  rw [hT, hdot, hdot, mul_div_mul_left _ _ hγ.ne', map_add, map_sub, map_smul, map_smul]

include hγ hdot in
theorem norm_map (x : Fin n → ℝ) : √(∑ v, T x v ^ 2) = √γ * √(∑ v, x v ^ 2) := by
  rw [← Real.sqrt_mul hγ.le]
  congr 1
  have := hdot x x
  simp only [dotProduct, ← sq] at this
  exact this

include hγ hdot hT in
theorem loop_map (tol : ℝ) (mx : ℕ) : ∀ todo k st, cgLoop A' (√γ * tol) mx todo k (mapState T γ st) =
    (T (cgLoop A tol mx todo k st).1, (cgLoop A tol mx todo k st).2) := by
  intro todo
  induction todo with
  | zero => intro k st; rfl
  | succ todo ih =>
    intro k st
    rw [cgLoop, cgLoop, step_map T hγ hdot hT, ih]
    have e : (√(∑ v, (mapState T γ st).r v ^ 2) < √γ * tol) ↔ √(∑ v, st.r v ^ 2) < tol := by
      have : √(∑ v, (mapState T γ st).r v ^ 2) = √γ * √(∑ v, st.r v ^ 2) := norm_map T hγ hdot st.r
      rw [this]
      exact mul_lt_mul_iff_right₀ (Real.sqrt_pos.2 hγ)
    by_cases h : √(∑ v, st.r v ^ 2) < tol
    · rw [if_pos h, if_pos (e.2 h)]; rfl
    · rw [if_neg h, if_neg fun h' => h (e.1 h')]

include hγ hdot hT in
/-- The solver commutes with similarities. -/
theorem run_map (ρ : ℝ) (b : Fin n → ℝ) : cgRun ρ A' (T b) = (T (cgRun ρ A b).1, (cgRun ρ A b).2) := by
  unfold cgRun
  dsimp only
  rw [norm_map T hγ hdot]
  have hs : √γ ≠ 0 := (Real.sqrt_pos.2 hγ).ne'
  by_cases h : √(∑ v, b v ^ 2) = 0
  · rw [if_pos h, if_pos (by rw [h, mul_zero])]
  · rw [if_neg h, if_neg (mul_ne_zero hs h)]
    have e : ρ * (√γ * √(∑ v, b v ^ 2)) = √γ * (ρ * √(∑ v, b v ^ 2)) := by ring
    have e2 : (⟨0, T b, 0, 0⟩ : CGState n) = mapState T γ ⟨0, b, 0, 0⟩ := by simp [mapState]
    rw [e, e2, loop_map T hγ hdot hT]

end

end PyGSP.ConjGrad
