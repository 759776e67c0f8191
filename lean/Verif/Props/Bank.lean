import Verif.Props.Cheby

/-!
# C38 - C40: linearity of filtering, filter-bank algebra, validation
-/

namespace PyGSP

open Matrix Spec GState

variable {n : ℕ}

/-! ## C38 -/

/-- `c * a + d * b` on arrays of the same shape -/
def Arr.lin (c : ℝ) (a : Arr) (d : ℝ) (b : Arr) : Arr := ⟨a.shape, fun idx => c * a.val idx + d * b.val idx⟩

theorem Arr.lin_squeeze (c d : ℝ) {a b : Arr} (h : a.shape = b.shape) :
    (Arr.lin c a d b).squeeze = Arr.lin c a.squeeze d b.squeeze := by
  unfold Arr.lin Arr.squeeze
  simp only [h]

theorem Arr.lin_of3 (c d : ℝ) {m p q : ℕ} (x y : Fin m → Fin p → Fin q → ℝ) :
    Arr.of3 (fun i j k => c * x i j k + d * y i j k) = Arr.lin c (Arr.of3 x) d (Arr.of3 y) := by
  unfold Arr.of3 Arr.lin
  simp only [Arr.mk.injEq, true_and]
  funext idx
  split
  · split
    · rfl
    · simp
  · simp

/-- linearity of the action of matrices -/
theorem act_lin {q : ℕ} (M : Fin q → Matrix (Fin n) (Fin n) ℝ) (c d : ℝ) (a b : Arr) (h : a.shape = b.shape)
    {sa : Sig n q} (ha : parseSignal n q a = .ok sa) :
    ∃ sb sc, parseSignal n q b = .ok sb ∧ parseSignal n q (Arr.lin c a d b) = .ok sc ∧
      (Bank.act M sa).shape = (Bank.act M sb).shape ∧
      Bank.act M sc = Arr.lin c (Bank.act M sa) d (Bank.act M sb) := by
  have key : ∀ {ns : ℕ} (x y : Fin n → Fin ns → ℝ) i v j,
      (M i * Matrix.of fun v j => c * x v j + d * y v j) v j =
        c * (M i * Matrix.of x) v j + d * (M i * Matrix.of y) v j := by
    intro ns x y i v j
    simp only [Matrix.mul_apply, Matrix.of_apply, Finset.mul_sum, ← Finset.sum_add_distrib]
    exact Finset.sum_congr rfl fun w _ => by ring
  rcases parse_cases n q a with ⟨hs, -⟩ | ⟨-, hs⟩
  · rcases hs with h1 | ⟨k, h1⟩ | ⟨k, h1⟩ | ⟨k, h1⟩
    · rw [parse_dim1 q h1] at ha
      cases ha
      refine ⟨_, _, parse_dim1 q (h ▸ h1), parse_dim1 q (by exact h1), rfl, ?_⟩
      unfold Bank.act
      rw [← Arr.lin_of3]
      simp only [Arr.lin, key]
    · by_cases hk : k = 1 ∨ k ≠ q
      · rw [parse_dim2_analysis q h1 hk] at ha
        cases ha
        refine ⟨_, _, parse_dim2_analysis q (h ▸ h1) hk, parse_dim2_analysis q (by exact h1) hk, rfl, ?_⟩
        unfold Bank.act
        rw [← Arr.lin_of3]
        simp only [Arr.lin, key]
      · push Not at hk
        obtain ⟨h2, rfl⟩ := hk
        rw [parse_dim2_synthesis h1 h2] at ha
        cases ha
        refine ⟨_, _, parse_dim2_synthesis (h ▸ h1) h2, parse_dim2_synthesis (by exact h1) h2, rfl, ?_⟩
        unfold Bank.act
        rw [← Arr.lin_of3]
        simp only [Arr.lin, key, Finset.mul_sum, ← Finset.sum_add_distrib]
    · rw [parse_dim3_analysis q h1] at ha
      cases ha
      refine ⟨_, _, parse_dim3_analysis q (h ▸ h1), parse_dim3_analysis q (by exact h1), rfl, ?_⟩
      unfold Bank.act
      rw [← Arr.lin_of3]
      simp only [Arr.lin, key]
    · by_cases hk : q = 1
      · subst hk
        rw [parse_dim3_analysis 1 h1] at ha
        cases ha
        refine ⟨_, _, parse_dim3_analysis 1 (h ▸ h1), parse_dim3_analysis 1 (by exact h1), rfl, ?_⟩
        unfold Bank.act
        rw [← Arr.lin_of3]
        simp only [Arr.lin, key]
      · rw [parse_dim3_synthesis h1 hk] at ha
        cases ha
        refine ⟨_, _, parse_dim3_synthesis (h ▸ h1) hk, parse_dim3_synthesis (by exact h1) hk, rfl, ?_⟩
        unfold Bank.act
        rw [← Arr.lin_of3]
        simp only [Arr.lin, key, Finset.mul_sum, ← Finset.sum_add_distrib]
  · rw [hs] at ha; cases ha

/-- **Filtering is linear**, for both methods, every filter bank and every accepted shape: on arrays of the same shape,
either all of `filter(a)`, `filter(b)`, `filter(c a + d b)` succeed, and the third result is the same combination of the
first two, or all three raise the same exception. -/
theorem C38_linear (S : Solvers n) (f : Bank) (method : FMethod) (order : ℕ) (s : GState n) (a b : Arr)
    (h : a.shape = b.shape) (c d : ℝ) :
    (∃ y z s', f.filter S a method order s = (.ok y, s') ∧ f.filter S b method order s = (.ok z, s') ∧
      y.shape = z.shape ∧ f.filter S (Arr.lin c a d b) method order s = (.ok (Arr.lin c y d z), s')) ∨
    (∃ e s', f.filter S a method order s = (.error e, s') ∧ f.filter S b method order s = (.error e, s') ∧
      f.filter S (Arr.lin c a d b) method order s = (.error e, s')) := by
  simp only [Bank.filter_eq]
  cases hpa : parseSignal n f.Nf a with
  | error e =>
    right
    rcases parse_cases n f.Nf a with ⟨hs, _, hs'⟩ | ⟨hs, hs'⟩
    · rw [hs'] at hpa; cases hpa
    · have h1 : parseSignal n f.Nf b = .error e := by
        rcases parse_cases n f.Nf b with ⟨ht, -⟩ | ⟨-, ht⟩
        · exact absurd (h ▸ ht) hs
        · rw [ht, ← h, ← hs', hpa]
      have h2 : parseSignal n f.Nf (Arr.lin c a d b) = .error e := by
        rcases parse_cases n f.Nf (Arr.lin c a d b) with ⟨ht, -⟩ | ⟨-, ht⟩
        · exact absurd ht hs
        · rw [ht, ← hpa, hs']; rfl
      exact ⟨e, s, rfl, by rw [h1], by rw [h2]⟩
  | ok sa =>
    cases ho : f.ops S method order s with
    | mk r s' =>
      cases r with
      | error e =>
        right
        obtain ⟨sb, sc, hb, hc, -⟩ := act_lin (fun _ => 0) c d a b h hpa
        exact ⟨e, s', rfl, by rw [hb], by rw [hc]⟩
      | ok M =>
        left
        obtain ⟨sb, sc, hb, hc, h1, h2⟩ := act_lin M c d a b h hpa
        refine ⟨_, _, s', rfl, by rw [hb], by simp [Arr.squeeze, h1], ?_⟩
        rw [hc]
        simp only
        rw [h2, Arr.lin_squeeze _ _ h1]

/-- **Signals are processed independently**: for a 2-D input the `j`-th output is what `filter` returns for the `j`-th
column alone. -/
theorem C38_independent (S : Solvers n) (f : Bank) (method : FMethod) (order : ℕ) (s : GState n) {k : ℕ}
    (hk : k = 1 ∨ k ≠ f.Nf) (x : Fin n → Fin k → ℝ) {r} (hr : (f.filter S (Arr.of2 x) method order s).1 = .ok r) :
    ∃ y : Fin n → Fin k → Fin f.Nf → ℝ, r = (Arr.of3 y).squeeze ∧
      ∀ j, (f.filter S (Arr.of1 fun v => x v j) method order s).1 =
        .ok (Arr.of3 fun v (_ : Fin 1) i => y v j i).squeeze := by
  rw [Bank.filter_eq, parse_of2_analysis _ _ hk] at hr
  simp only at hr
  cases ho : f.ops S method order s with
  | mk r s' =>
    rw [ho] at hr
    cases r with
    | error e => cases hr
    | ok M =>
      cases hr
      refine ⟨_, rfl, fun j => ?_⟩
      rw [Bank.filter_eq, parse_of1]
      simp only [ho]
      rfl

/-- Filtering only fills caches of the graph: the state afterwards is one that reading `G.U` or `G.lmax` (or nothing)
produces, so everything proved about histories of calls applies to histories with filtering in between. -/
theorem C38_state (S : Solvers n) (f : Bank) (a : Arr) (method : FMethod) (order : ℕ) (s : GState n) :
    ∃ ops : List (Op n), (∀ op ∈ ops, op = .getBasis ∨ op = .getLmax) ∧
      (f.filter S a method order s).2 = runAll S ops s := by
  rw [Bank.filter_eq]
  cases parseSignal n f.Nf a with
  | error e => exact ⟨[], by simp, rfl⟩
  | ok sig =>
    have : (f.ops S method order s).2 = s ∨ (f.ops S method order s).2 = (s.getBasis S).2 ∨
        (f.ops S method order s).2 = (s.getLmax S).2 := by
      unfold Bank.ops
      split
      · right; left
        rcases s.getBasis S with ⟨_ | _ | b, s'⟩
        · rfl
        · rfl
        · simp only
          cases f.evaluate b.e with
          | error e => rfl
          | ok y => simp only; split <;> rfl
      · right; right
        have h : (Bank.lmaxNum S s).2 = (s.getLmax S).2 := by
          unfold Bank.lmaxNum
          rcases s.getLmax S with ⟨_ | _ | x, s'⟩
          · rfl
          · rfl
          · cases x <;> rfl
        rw [← h]
        rcases Bank.lmaxNum S s with ⟨_ | l, s'⟩
        · rfl
        · simp only
          split
          · rfl
          · cases f.evaluate (chebNode l (order + 1)) with
            | error e => rfl
            | ok y => simp only; split; · rfl
                      split <;> rfl
      · left; rfl
    simp only
    generalize f.ops S method order s = r at this
    obtain ⟨r, s'⟩ := r
    simp only at this
    have h2 : ∃ ops : List (Op n), (∀ op ∈ ops, op = .getBasis ∨ op = .getLmax) ∧ s' = runAll S ops s := by
      rcases this with h | h | h <;> rw [h]
      · exact ⟨[], by simp, rfl⟩
      · exact ⟨[.getBasis], by simp, rfl⟩
      · exact ⟨[.getLmax], by simp, rfl⟩
    cases r with
    | error e => exact h2
    | ok M => exact h2

/-! ## C39 -/

/-- `evaluate` of `f + g` stacks the responses of `f` and of `g`. -/
theorem C39_add_evaluate (f g : Bank) {k : ℕ} (x : Fin k → ℝ) :
    (f.add g).Nf = f.Nf + g.Nf ∧
    (∀ y w, f.evaluate x = .ok y → g.evaluate x = .ok w →
      ∃ z, (f.add g).evaluate x = .ok z ∧
        ∀ i j, z i j = if h : i.1 < f.Nf then y ⟨i, h⟩ j else w ⟨i - f.Nf, by have := i.2; have := Bank.Nf_add f g; omega⟩ j) ∧
    (∀ e, f.evaluate x = .error e → (f.add g).evaluate x = .error e) ∧
    (∀ y e, f.evaluate x = .ok y → g.evaluate x = .error e → (f.add g).evaluate x = .error e) := by
  refine ⟨Bank.Nf_add f g, fun y w hy hw => ⟨_, Bank.evaluate_add_ok f g x hy hw, fun i j => ?_⟩,
    fun e => Bank.evaluate_add_error_left f g x, fun y e => Bank.evaluate_add_error_right f g x⟩
  simp only [Fin.append, Fin.addCases, Fin.val_cast]
  split
  · rfl
  · simp only [eq_rec_constant]; rfl

/-- `f[i]` for an integer: entry `i`, or entry `n_filters + i` when `i` is negative, as a bank of one filter;
IndexError out of range. -/
theorem C39_getitem_int (f : Bank) (i : ℤ) :
    (∀ j : Fin f.Nf, (i = j ∨ i = (j : ℤ) - f.Nf) → f.getitem (.idx i) = .ok ⟨[f.kernels.get j]⟩) ∧
    ((i < -(f.Nf : ℤ) ∨ (f.Nf : ℤ) ≤ i) → f.getitem (.idx i) = .error .indexError) := by
  constructor
  · intro j hj
    have hj2 := j.2
    have e : (if i < 0 then i + (f.Nf : ℤ) else i) = j := by
      rcases hj with rfl | rfl
      · rw [if_neg (by omega)]
      · rw [if_pos (by omega)]; omega
    simp only [Bank.getitem, e]
    rw [if_neg (by omega), Int.toNat_natCast, List.getElem?_eq_getElem hj2]
    rfl
  · intro h
    simp only [Bank.getitem]
    by_cases hi : i < 0
    · rw [if_pos hi, if_pos (by omega)]
    · rw [if_neg hi, if_neg hi, List.getElem?_eq_none (by show f.Nf ≤ i.toNat; omega)]

/-- `f[lo:hi]` selects the filters `lo, ..., hi - 1`. -/
theorem C39_getitem_slice (f : Bank) (lo hi : ℕ) :
    ∃ h : Bank, f.getitem (.slice lo hi) = .ok h ∧ h.Nf = min hi f.Nf - lo ∧
      ∀ j : ℕ, h.kernels[j]? = if lo + j < hi then f.kernels[lo + j]? else none := by
  refine ⟨_, rfl, ?_, fun j => ?_⟩
  · simp [Bank.Nf, Bank.ofArg]
  · simp only [Bank.ofArg, List.getElem?_drop, List.getElem?_take]

theorem of3_cast {m p q q' : ℕ} (h : q = q') (x : Fin m → Fin p → Fin q → ℝ) (y : Fin m → Fin p → Fin q' → ℝ)
    (hxy : ∀ i j k, x i j k = y i j (k.cast h)) : Arr.of3 x = Arr.of3 y := by
  subst h
  exact congrArg Arr.of3 (funext fun i => funext fun j => funext fun k => hxy i j k)

/-- **`(f + g).filter`** concatenates the outputs of `f` and `g` along the last dimension (input with one feature). -/
theorem C39_add_filter (S : Solvers n) (f g : Bank) (method : FMethod) (order : ℕ) (s : GState n) {k : ℕ}
    (x : Fin n → Fin k → Fin 1 → ℝ) {rf rg sf sg} (hf : f.filter S (Arr.of3 x) method order s = (.ok rf, sf))
    (hg : g.filter S (Arr.of3 x) method order s = (.ok rg, sg)) :
    ∃ (yf : Fin n → Fin k → Fin f.Nf → ℝ) (yg : Fin n → Fin k → Fin g.Nf → ℝ),
      rf = (Arr.of3 yf).squeeze ∧ rg = (Arr.of3 yg).squeeze ∧
      (f.add g).filter S (Arr.of3 x) method order s = (.ok (Arr.of3 fun v j => Fin.append (yf v j) (yg v j)).squeeze, sf) := by
  rw [Bank.filter_eq, parse_of3_analysis] at hf hg ⊢
  simp only at hf hg ⊢
  cases hof : f.ops S method order s with
  | mk r s1 =>
    cases hog : g.ops S method order s with
    | mk r' s2 =>
      rw [hof] at hf
      rw [hog] at hg
      cases r with
      | error e => cases hf
      | ok M =>
        cases r' with
        | error e => cases hg
        | ok N =>
          cases hf; cases hg
          have hops : (f.add g).ops S method order s =
              (.ok fun i => Fin.append M N (i.cast (Bank.Nf_add f g)), sf) := by
            cases method with
            | exact =>
              obtain ⟨b, y, h1, h2, h3, rfl⟩ := Bank.ops_exact hof
              obtain ⟨b', y', h1', h2', h3', rfl⟩ := Bank.ops_exact hog
              rw [h1'] at h1
              cases h1
              rw [Bank.ops_exact_intro order h1' h2 (Bank.evaluate_add_ok f g _ h3 h3')]
              refine congrArg (fun z => (Except.ok z, sf)) ?_
              funext i
              generalize i.cast (Bank.Nf_add f g) = i'
              refine Fin.addCases (fun i => ?_) (fun i => ?_) i' <;> simp
            | chebyshev =>
              obtain ⟨l, y, h1, h2, h3, h4, h5, rfl⟩ := Bank.ops_cheb hof
              obtain ⟨l', y', h1', h2', h3', h4', h5', rfl⟩ := Bank.ops_cheb hog
              rw [h1'] at h1
              cases h1
              rw [Bank.ops_cheb_intro h1' (by rw [Bank.Nf_add]; omega) h3 h4 (Bank.evaluate_add_ok f g _ h5 h5')]
              refine congrArg (fun z => (Except.ok z, sf)) ?_
              funext i
              generalize i.cast (Bank.Nf_add f g) = i'
              refine Fin.addCases (fun i => ?_) (fun i => ?_) i' <;> simp
            | other nm => simp [Bank.ops] at hof
          refine ⟨_, _, rfl, rfl, ?_⟩
          rw [hops]
          refine congrArg (fun z => (Except.ok z, sf)) (congrArg Arr.squeeze ?_)
          unfold Bank.act
          refine of3_cast (Bank.Nf_add f g) _ _ fun v j i => ?_
          simp only
          generalize i.cast (Bank.Nf_add f g) = i'
          refine Fin.addCases (fun i => ?_) (fun i => ?_) i' <;> simp

/-- **`f[i].filter`** is the `i`-th output of `f.filter` (input with one feature). -/
theorem C39_getitem_filter (S : Solvers n) (f : Bank) (method : FMethod) (order : ℕ) (s : GState n) {k : ℕ}
    (x : Fin n → Fin k → Fin 1 → ℝ) {r s'} (hf : f.filter S (Arr.of3 x) method order s = (.ok r, s')) :
    ∃ y : Fin n → Fin k → Fin f.Nf → ℝ, r = (Arr.of3 y).squeeze ∧ ∀ i : Fin f.Nf, ∃ fi, f.getitem (.idx i) = .ok fi ∧
      fi.filter S (Arr.of3 x) method order s = (.ok (Arr.of3 fun v j (_ : Fin 1) => y v j i).squeeze, s') := by
  rw [Bank.filter_eq, parse_of3_analysis] at hf
  simp only at hf
  cases hof : f.ops S method order s with
  | mk r1 s1 =>
    rw [hof] at hf
    cases r1 with
    | error e => cases hf
    | ok M =>
      cases hf
      refine ⟨_, rfl, fun i => ⟨_, (C39_getitem_int f i).1 i (.inl rfl), ?_⟩⟩
      have hone : ∀ {k : ℕ} (x : Fin k → ℝ) {y}, f.evaluate x = .ok y →
          (⟨[f.kernels.get i]⟩ : Bank).evaluate x = .ok fun _ => y i := by
        intro k x y hy
        unfold Bank.evaluate at *
        rw [seqFin_ok] at *
        intro l
        have : l = ⟨0, Nat.one_pos⟩ := Fin.ext (by have := l.2; simp at this; simpa using this)
        rw [this]
        exact hy i
      rw [Bank.filter_eq, parse_of3_analysis]
      have hops : (⟨[f.kernels.get i]⟩ : Bank).ops S method order s = (.ok fun _ => M i, s') := by
        cases method with
        | exact =>
          obtain ⟨b, y, h1, h2, h3, rfl⟩ := Bank.ops_exact hof
          exact Bank.ops_exact_intro order h1 h2 (hone _ h3)
        | chebyshev =>
          obtain ⟨l, y, h1, h2, h3, h4, h5, rfl⟩ := Bank.ops_cheb hof
          exact Bank.ops_cheb_intro h1 (by simp [Bank.Nf]) h3 h4 (hone _ h5)
        | other nm => simp [Bank.ops] at hof
      simp only [hops]
      rfl

/-! ## C40 -/

/-- **Shape validation.**  `filter` on an array whose shape is not `(N,)`, `(N, k)`, `(N, k, 1)` or `(N, k, n_filters)`
raises (ValueError; IndexError for a scalar), whatever the method, and the graph is untouched. -/
theorem C40_shape (S : Solvers n) (f : Bank) (a : Arr) (method : FMethod) (order : ℕ) (s : GState n)
    (h1 : a.shape ≠ [n]) (h2 : ∀ k, a.shape ≠ [n, k]) (h3 : ∀ k, a.shape ≠ [n, k, 1]) (h4 : ∀ k, a.shape ≠ [n, k, f.Nf]) :
    f.filter S a method order s = (.error (if a.shape = [] then .indexError else .valueError), s) := by
  rw [Bank.filter_eq]
  rcases parse_cases n f.Nf a with ⟨h | ⟨k, h⟩ | ⟨k, h⟩ | ⟨k, h⟩, -⟩ | ⟨-, h⟩
  · exact absurd h h1
  · exact absurd h (h2 k)
  · exact absurd h (h3 k)
  · exact absurd h (h4 k)
  · rw [h]

/-- the shapes of the accepted signals and the shapes of the results (before `squeeze`): analysis unless the last
dimension of a 2-D or 3-D array is `n_filters ≠ 1` -/
theorem C40_accepted (S : Solvers n) (f : Bank) (a : Arr) (method : FMethod) (order : ℕ) (s : GState n) {r}
    (h : (f.filter S a method order s).1 = .ok r) :
    ∃ k, (((a.shape = [n] ∧ k = 1) ∨ (a.shape = [n, k] ∧ (k = 1 ∨ k ≠ f.Nf)) ∨ a.shape = [n, k, 1]) ∧
        r.shape = [n, k, f.Nf].filter (· ≠ 1)) ∨
      (f.Nf ≠ 1 ∧ ((a.shape = [n, f.Nf] ∧ k = 1) ∨ a.shape = [n, k, f.Nf]) ∧ r.shape = [n, k].filter (· ≠ 1)) := by
  rw [Bank.filter_eq] at h
  have hmatch : ∀ (sig : Sig n f.Nf), (match f.ops S method order s with
        | (.error e, s) => ((.error e, s) : Py Arr × GState n)
        | (.ok M, s) => (.ok (Bank.act M sig).squeeze, s)).1 = .ok r → ∃ M, r = (Bank.act M sig).squeeze := by
    intro sig hh
    generalize f.ops S method order s = r' at hh
    obtain ⟨r', s'⟩ := r'
    cases r' with
    | error e => cases hh
    | ok M => cases hh; exact ⟨M, rfl⟩
  rcases parse_cases n f.Nf a with ⟨h1 | ⟨k, h1⟩ | ⟨k, h1⟩ | ⟨k, h1⟩, -⟩ | ⟨-, h1⟩
  · rw [parse_dim1 _ h1] at h
    obtain ⟨M, rfl⟩ := hmatch _ h
    exact ⟨1, .inl ⟨.inl ⟨h1, rfl⟩, rfl⟩⟩
  · by_cases hk : k = 1 ∨ k ≠ f.Nf
    · rw [parse_dim2_analysis _ h1 hk] at h
      obtain ⟨M, rfl⟩ := hmatch _ h
      exact ⟨k, .inl ⟨.inr (.inl ⟨h1, hk⟩), rfl⟩⟩
    · push Not at hk
      rw [hk.2] at h1
      rw [parse_dim2_synthesis h1 (hk.2 ▸ hk.1)] at h
      obtain ⟨M, rfl⟩ := hmatch _ h
      exact ⟨1, .inr ⟨hk.2 ▸ hk.1, .inl ⟨h1, rfl⟩, by simp [Arr.squeeze, Bank.act, Arr.of3, List.filter_cons]⟩⟩
  · rw [parse_dim3_analysis _ h1] at h
    obtain ⟨M, rfl⟩ := hmatch _ h
    exact ⟨k, .inl ⟨.inr (.inr h1), rfl⟩⟩
  · by_cases hk : f.Nf = 1
    · rw [hk] at h1
      rw [parse_dim3_analysis _ h1] at h
      obtain ⟨M, rfl⟩ := hmatch _ h
      exact ⟨k, .inl ⟨.inr (.inr h1), rfl⟩⟩
    · rw [parse_dim3_synthesis h1 hk] at h
      obtain ⟨M, rfl⟩ := hmatch _ h
      exact ⟨k, .inr ⟨hk, .inr h1, by simp [Arr.squeeze, Bank.act, Arr.of3, List.filter_cons]⟩⟩
  · rw [h1] at h; cases h

/-- An unknown method raises ValueError and the graph is untouched, also through `analyze`. -/
theorem C40_method (S : Solvers n) (f : Bank) (a : Arr) (name : String) (order : ℕ) (s : GState n) (ha : a.shape ≠ []) :
    f.filter S a (.other name) order s = (.error .valueError, s) ∧
    f.analyze S a (.other name) order s = (.error .valueError, s) ∧
    f.synthesize S a (.other name) order s = (.error .valueError, s) := by
  have h : f.filter S a (.other name) order s = (.error .valueError, s) := by
    rw [Bank.filter_eq]
    rcases parse_cases n f.Nf a with ⟨-, sig, h⟩ | ⟨-, h⟩
    · rw [h]; rfl
    · rw [h, if_neg ha]
  refine ⟨h, ?_, ?_⟩
  · unfold Bank.analyze; split
    · rfl
    · exact h
  · unfold Bank.synthesize
    rw [if_neg (by simpa [Arr.ndim] using ha)]
    split
    · rfl
    · exact h

/-- `analyze` rejects 3-D arrays with more than one feature, `synthesize` rejects arrays whose last dimension is not the
number of filters; otherwise both are `filter`. -/
theorem C40_analyze_synthesize (S : Solvers n) (f : Bank) (method : FMethod) (order : ℕ) (s : GState n) (a : Arr) :
    (∀ m k q, a.shape = [m, k, q] → q ≠ 1 → f.analyze S a method order s = (.error .valueError, s)) ∧
    ((∀ m k q, a.shape = [m, k, q] → q = 1) → f.analyze S a method order s = f.filter S a method order s) ∧
    (∀ t q, a.shape = t ++ [q] → q ≠ f.Nf → f.synthesize S a method order s = (.error .valueError, s)) ∧
    (∀ t, a.shape = t ++ [f.Nf] → f.synthesize S a method order s = f.filter S a method order s) := by
  refine ⟨fun m k q h hq => ?_, fun h => ?_, fun t q h hq => ?_, fun t h => ?_⟩
  · unfold Bank.analyze
    rw [if_pos (by simp [Arr.ndim, Arr.last, h, hq])]
  · unfold Bank.analyze
    rw [if_neg]
    rintro ⟨h1, h2⟩
    unfold Arr.ndim at h1
    rcases hs : a.shape with _ | ⟨m, _ | ⟨k, _ | ⟨q, _ | ⟨r, t⟩⟩⟩⟩
    · simp [hs] at h1
    · simp [hs] at h1
    · simp [hs] at h1
    · exact h2 (by simp [Arr.last, hs, h m k q hs])
    · simp [hs] at h1
  · unfold Bank.synthesize
    rw [if_neg (by simp [Arr.ndim, h]), if_pos (by simpa [Arr.last, h] using hq)]
  · unfold Bank.synthesize
    rw [if_neg (by simp [Arr.ndim, h]), if_neg (by simp [Arr.last, h])]

/-- The Chebyshev method on an accepted signal: without kernels IndexError; a kernel that raises at the nodes; order `0`
TypeError; `lmax = 0` ZeroDivisionError; and otherwise it succeeds. -/
theorem C40_chebyshev (S : Solvers n) (f : Bank) (x : Fin n → ℝ) (order : ℕ) (s : GState n) {l : ℝ}
    (h : (s.getLmax S).1 = .ok (some (.fin l))) :
    (f.Nf = 0 → (f.filter S (Arr.of1 x) .chebyshev order s).1 = .error .indexError) ∧
    (f.Nf ≠ 0 → (∀ e, f.evaluate (chebNode l (order + 1)) = .error e →
        (f.filter S (Arr.of1 x) .chebyshev order s).1 = .error e) ∧
      ∀ y, f.evaluate (chebNode l (order + 1)) = .ok y →
        (order = 0 → (f.filter S (Arr.of1 x) .chebyshev order s).1 = .error .typeError) ∧
        (order ≠ 0 → l = 0 → (f.filter S (Arr.of1 x) .chebyshev order s).1 = .error .zeroDivisionError) ∧
        (order ≠ 0 → l ≠ 0 → ∃ r, (f.filter S (Arr.of1 x) .chebyshev order s).1 = .ok r)) := by
  simp only [Bank.filter_eq, parse_of1, Bank.ops, lmaxNum_of h]
  refine ⟨fun h0 => by rw [if_pos h0], fun h0 => ⟨fun e he => ?_, fun y hy => ⟨fun ho => ?_, fun ho hl => ?_, fun ho hl => ?_⟩⟩⟩
  · rw [if_neg h0]; simp only [he]
  · rw [if_neg h0]; simp only [hy]; rw [if_pos ho]
  · rw [if_neg h0]; simp only [hy]; rw [if_neg ho, if_pos hl]
  · rw [if_neg h0]; simp only [hy]; rw [if_neg ho, if_neg hl]; exact ⟨_, rfl⟩

end PyGSP
