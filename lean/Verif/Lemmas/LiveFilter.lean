import Verif.Model.LiveFilter
import Verif.Lemmas.FilterOps
import Verif.Lemmas.StateExtra

/-! # Filters bound to graph objects -/

namespace PyGSP

open GState

/-! ### reading `lmax` -/

section one

variable {n : ℕ}

theorem GState.getLmax_settled {S : Solvers n} {s s' : GState n} {v : PyNum ℝ} (h : s.getLmax S = (.ok (some v), s')) :
    s'.lmax = some v := by
  unfold getLmax at h
  cases hl : s.lmax with
  | some w => rw [hl] at h; simp only [Prod.mk.injEq, Except.ok.injEq, Option.some.injEq] at h; rw [← h.2, hl, h.1]
  | none =>
    rw [hl] at h
    simp only at h
    split at h
    · simp at h
    · simp only [Prod.mk.injEq, Except.ok.injEq] at h
      rw [← h.2, h.1]

theorem lmaxNum_lmax {S : Solvers n} {s s' : GState n} {l : ℝ} (h : Bank.lmaxNum S s = (.ok l, s')) : s'.lmax = some (.fin l) := by
  unfold Bank.lmaxNum at h
  split at h <;> try (simp at h; done)
  case h_3 l' s1 hg =>
    simp only [Prod.mk.injEq, Except.ok.injEq] at h
    rw [← h.2, ← h.1]
    exact getLmax_settled hg

theorem lmaxNum_of_lmax {S : Solvers n} {s : GState n} {l : ℝ} (h : s.lmax = some (.fin l)) : Bank.lmaxNum S s = (.ok l, s) := by
  unfold Bank.lmaxNum getLmax
  rw [h]

theorem lmaxNum_settled {S : Solvers n} {s s' : GState n} {l : ℝ} (h : Bank.lmaxNum S s = (.ok l, s')) :
    Bank.lmaxNum S s' = (.ok l, s') := lmaxNum_of_lmax (lmaxNum_lmax h)

theorem lmaxNum_state (S : Solvers n) (s : GState n) : (Bank.lmaxNum S s).2 = (s.getLmax S).2 := by
  unfold Bank.lmaxNum
  split <;> rename_i h <;> rw [h]

theorem estimateLmax_basis (S : Solvers n) (m : LmaxMethod) (s : GState n) : (s.estimateLmax S m).2.basis = s.basis := by
  have hdir : ∀ s : GState n, s.isDirected.2.basis = s.basis := fun s => by unfold GState.isDirected; split <;> rfl
  have hdw : ∀ s : GState n, s.getDw.2.basis = s.basis := fun s => by
    unfold getDw
    split
    · rfl
    · exact hdir s
  have heb : ∀ (s : GState n) dw, (s.edgeBounds dw).2.basis = s.basis := fun s dw => by
    unfold edgeBounds
    split
    · have he : s.getEdgeList.2.basis = s.basis := hdir s
      simp only
      split
      · exact he
      · split <;> exact he
    · rfl
  have hub : ∀ s : GState n, s.upperBound.2.basis = s.basis := fun s => by
    unfold upperBound
    split
    · rfl
    · simp only
      split
      · rfl
      · split
        · exact hdw s
        · split
          · rw [heb, hdw]
          · split <;> simp only [hdir, heb, hdw]
    · rfl
  unfold estimateLmax
  split
  · rfl
  · simp only
    split
    · split
      · rfl
      · split
        · rfl
        · split
          · rw [hub]
          · split <;> simp only [hub]
    · split <;> rw [hub]
    · rfl

theorem getLmax_basis (S : Solvers n) (s : GState n) : (s.getLmax S).2.basis = s.basis := by
  unfold getLmax
  split
  · rfl
  · simp only
    split <;> exact estimateLmax_basis S _ s

theorem lmaxNum_basis (S : Solvers n) (s : GState n) : (Bank.lmaxNum S s).2.basis = s.basis := by
  rw [lmaxNum_state, getLmax_basis]

theorem getBasis_settled {S : Solvers n} {s s' : GState n} {b : Basis n} (h : s.getBasis S = (.ok (some b), s')) : s'.basis = some b := by
  unfold getBasis at h
  cases hl : s.basis with
  | some w => rw [hl] at h; simp only [Prod.mk.injEq, Except.ok.injEq, Option.some.injEq] at h; rw [← h.2, hl, h.1]
  | none =>
    rw [hl] at h
    simp only at h
    split at h
    · simp at h
    · simp only [Prod.mk.injEq, Except.ok.injEq] at h
      rw [← h.2, h.1]

theorem getBasis_of {S : Solvers n} {s : GState n} {b : Basis n} (h : s.basis = some b) : s.getBasis S = (.ok (some b), s) := by
  unfold getBasis
  rw [h]

/-- once the basis is there, exact filtering does not depend on the rest of the state -/
theorem gft_indep {S : Solvers n} {R : Type} [AddCommGroup R] [Module ℝ R] (x : Rows R) {s t : GState n} {b : Basis n}
    (hs : s.basis = some b) (ht : t.basis = some b) : (s.gft S x).1 = (t.gft S x).1 ∧ (s.gft S x).2 = s := by
  unfold gft
  rw [getBasis_of hs, getBasis_of ht]
  split <;> exact ⟨rfl, rfl⟩

theorem igft_indep {S : Solvers n} {R : Type} [AddCommGroup R] [Module ℝ R] (x : Rows R) {s t : GState n} {b : Basis n}
    (hs : s.basis = some b) (ht : t.basis = some b) : (s.igft S x).1 = (t.igft S x).1 ∧ (s.igft S x).2 = s := by
  unfold igft
  rw [getBasis_of hs, getBasis_of ht]
  split
  · exact ⟨rfl, rfl⟩
  · simp only
    split <;> exact ⟨rfl, rfl⟩

theorem exactAnalysisWith_indep {S : Solvers n} {ns q : ℕ} {s t : GState n} {b : Basis n} (hs : s.basis = some b) (ht : t.basis = some b)
    (y : Fin q → Fin b.k → ℝ) (x : Fin n → Fin ns → ℝ) :
    (Bank.exactAnalysisWith S b y x s).1 = (Bank.exactAnalysisWith S b y x t).1 ∧ (Bank.exactAnalysisWith S b y x s).2 = s := by
  unfold Bank.exactAnalysisWith
  split
  · exact ⟨rfl, rfl⟩
  · have h1 := fun z : Rows (Fin ns → Fin 1 → ℝ) => gft_indep (S := S) z hs ht
    have h2 := fun z : Rows (Fin ns → Fin 1 → ℝ) => gft_indep (S := S) z ht hs
    set z := (⟨n, fun i j (_ : Fin 1) => x i j⟩ : Rows (Fin ns → Fin 1 → ℝ))
    rw [show s.gft S z = ((t.gft S z).1, s) from Prod.ext (h1 z).1 (h1 z).2, show t.gft S z = ((t.gft S z).1, t) from Prod.ext rfl (h2 z).2]
    cases (t.gft S z).1 with
    | error e => exact ⟨rfl, rfl⟩
    | ok xh =>
      simp only
      split
      · have h3 := fun z : Rows (Fin ns → Fin q → ℝ) => igft_indep (S := S) z hs ht
        have h4 := fun z : Rows (Fin ns → Fin q → ℝ) => igft_indep (S := S) z ht hs
        set w := (⟨xh.len, _⟩ : Rows (Fin ns → Fin q → ℝ))
        rw [show s.igft S w = ((t.igft S w).1, s) from Prod.ext (h3 w).1 (h3 w).2,
          show t.igft S w = ((t.igft S w).1, t) from Prod.ext rfl (h4 w).2]
        cases (t.igft S w).1 with
        | error e => exact ⟨rfl, rfl⟩
        | ok r =>
          simp only
          split <;> exact ⟨rfl, rfl⟩
      · exact ⟨rfl, rfl⟩

theorem exactSynthesisWith_indep {S : Solvers n} {ns q : ℕ} {s t : GState n} {b : Basis n} (hs : s.basis = some b) (ht : t.basis = some b)
    (y : Fin q → Fin b.k → ℝ) (x : Fin n → Fin ns → Fin q → ℝ) :
    (Bank.exactSynthesisWith S b y x s).1 = (Bank.exactSynthesisWith S b y x t).1 ∧ (Bank.exactSynthesisWith S b y x s).2 = s := by
  unfold Bank.exactSynthesisWith
  split
  · exact ⟨rfl, rfl⟩
  · have h1 := fun z : Rows (Fin ns → Fin q → ℝ) => gft_indep (S := S) z hs ht
    have h2 := fun z : Rows (Fin ns → Fin q → ℝ) => gft_indep (S := S) z ht hs
    set z := (⟨n, x⟩ : Rows (Fin ns → Fin q → ℝ))
    rw [show s.gft S z = ((t.gft S z).1, s) from Prod.ext (h1 z).1 (h1 z).2, show t.gft S z = ((t.gft S z).1, t) from Prod.ext rfl (h2 z).2]
    cases (t.gft S z).1 with
    | error e => exact ⟨rfl, rfl⟩
    | ok xh =>
      simp only
      split
      · have h3 := fun z : Rows (Fin ns → Fin 1 → ℝ) => igft_indep (S := S) z hs ht
        have h4 := fun z : Rows (Fin ns → Fin 1 → ℝ) => igft_indep (S := S) z ht hs
        set w := (⟨xh.len, _⟩ : Rows (Fin ns → Fin 1 → ℝ))
        rw [show s.igft S w = ((t.igft S w).1, s) from Prod.ext (h3 w).1 (h3 w).2,
          show t.igft S w = ((t.igft S w).1, t) from Prod.ext rfl (h4 w).2]
        cases (t.igft S w).1 with
        | error e => exact ⟨rfl, rfl⟩
        | ok r =>
          simp only
          split <;> exact ⟨rfl, rfl⟩
      · exact ⟨rfl, rfl⟩

/-! ### a bank given by a family of kernels -/

/-- `Bank.filter` for a family of kernels -/
noncomputable def filterFn (S : Solvers n) {q : ℕ} (gs : Fin q → Kernel) (a : Arr) (method : FMethod) (order : ℕ) (s : GState n) :
    Py Arr × GState n :=
  match parseSignal n q a with
  | .error e => (.error e, s)
  | .ok sig =>
    match method with
    | .exact =>
      match s.getBasis S with
      | (.error e, s) => (.error e, s)
      | (.ok none, s) => (.error .typeError, s)
      | (.ok (some b), s) =>
        match seqFin q fun i => gs i b.k b.e with
        | .error e => (.error e, s)
        | .ok y =>
          match sig with
          | .analysis _ x => squeezeResult (Bank.exactAnalysisWith S b y x s)
          | .synthesis _ x => squeezeResult (Bank.exactSynthesisWith S b y x s)
    | .chebyshev =>
      match Bank.lmaxNum S s with
      | (.error e, s) => (.error e, s)
      | (.ok l, s) =>
        if q = 0 then (.error .indexError, s)
        else
          match seqFin q fun i => PyGSP.chebCoeff1 (gs i) l order (order + 1) with
          | .error e => (.error e, s)
          | .ok c =>
            match sig with
            | .analysis _ x => squeezeResult (Bank.chebAnalysisWith S c x s)
            | .synthesis _ x => squeezeResult (Bank.chebSynthesisWith S c x s)
    | .other _ => (.error .valueError, s)

theorem filter_eq_filterFn (S : Solvers n) (B : Bank) (a : Arr) (method : FMethod) (order : ℕ) (s : GState n) :
    B.filter S a method order s = filterFn S B.kernels.get a method order s := by
  unfold Bank.filter filterFn
  cases parseSignal n B.Nf a with
  | error e => rfl
  | ok sig =>
    have hN : ∀ m : ℕ, (if (none : Option ℕ).getD 0 = 0 then m + 1 else (none : Option ℕ).getD 0) = m + 1 := fun m => rfl
    cases sig with
    | analysis ns x =>
      cases method with
      | other _ => rfl
      | exact =>
        simp only [Bank.exactAnalysis, Bank.evaluate]
        cases s.getBasis S with
        | mk r s1 =>
          cases r with
          | error e => rfl
          | ok o =>
            cases o with
            | none => rfl
            | some b =>
              simp only
              cases seqFin B.Nf fun i => B.kernels.get i b.k b.e <;> rfl
      | chebyshev =>
        simp only [Bank.chebAnalysis, chebCoeffs, hN]
        cases Bank.lmaxNum S s with
        | mk r s1 =>
          cases r with
          | error e => rfl
          | ok l =>
            simp only
            by_cases hq : B.Nf = 0
            · have hq' : B.kernels.length = 0 := hq
              simp only [hq, hq', if_true, squeezeResult]
            · have hq' : ¬ B.kernels.length = 0 := hq
              simp only [hq, hq', if_false]
              cases seqFin B.Nf fun i => PyGSP.chebCoeff1 (B.kernels.get i) l order (order + 1) <;> rfl
    | synthesis ns x =>
      cases method with
      | other _ => rfl
      | exact =>
        simp only [Bank.exactSynthesis, Bank.evaluate]
        cases s.getBasis S with
        | mk r s1 =>
          cases r with
          | error e => rfl
          | ok o =>
            cases o with
            | none => rfl
            | some b =>
              simp only
              cases seqFin B.Nf fun i => B.kernels.get i b.k b.e <;> rfl
      | chebyshev =>
        simp only [Bank.chebSynthesis, chebCoeffs, hN]
        cases Bank.lmaxNum S s with
        | mk r s1 =>
          cases r with
          | error e => rfl
          | ok l =>
            simp only
            by_cases hq : B.Nf = 0
            · have hq' : B.kernels.length = 0 := hq
              simp only [hq, hq', if_true, squeezeResult]
            · have hq' : ¬ B.kernels.length = 0 := hq
              simp only [hq, hq', if_false]
              cases seqFin B.Nf fun i => PyGSP.chebCoeff1 (B.kernels.get i) l order (order + 1) <;> rfl

theorem filterFn_cast (S : Solvers n) {q q' : ℕ} (hq : q = q') (gs : Fin q → Kernel) (gs' : Fin q' → Kernel)
    (h : ∀ i, gs' (i.cast hq) = gs i) (a : Arr) (method : FMethod) (order : ℕ) (s : GState n) :
    filterFn S gs a method order s = filterFn S gs' a method order s := by
  subst hq
  congr 1
  funext i
  exact (h i).symm

theorem seqFin_cast {α : Type} {q q' : ℕ} (hq : q = q') (f : Fin q → Py α) (f' : Fin q' → Py α) (h : ∀ i, f' (i.cast hq) = f i) :
    (seqFin q f).map List.ofFn = (seqFin q' f').map List.ofFn := by
  subst hq
  congr 2
  funext i
  exact (h i).symm

end one

/-! ### kernels that follow the `lmax` of a graph -/

section heap

variable {p : ℕ} {size : Fin p → ℕ} {S : Sols size}

/-- a kernel that computes `G l` for the current value `l` of `lmax` of graph `i`, and does nothing else to the memory than reading it -/
def Follows (S : Sols size) (i : Fin p) (k : LKernel size) (G : ℝ → Kernel) : Prop :=
  ∀ (h : Heap size) (l : ℝ) (s' : GState (size i)), Bank.lmaxNum (S i) (h i) = (.ok l, s') → ∀ (m : ℕ) (x : Fin m → ℝ),
    (k h m x).1 = G l m x ∧ ((k h m x).2 = h ∨ (k h m x).2 = Function.update h i s')

theorem follows_fixed (i : Fin p) (g : Kernel) : Follows S i (LKernel.fixed g) fun _ => g :=
  fun _ _ _ _ _ _ => ⟨rfl, .inl rfl⟩

theorem reads_ok {i : Fin p} {h : Heap size} {l : ℝ} {s' : GState (size i)} (hl : Bank.lmaxNum (S i) (h i) = (.ok l, s')) (g : ℝ → Kernel)
    (m : ℕ) (x : Fin m → ℝ) : LKernel.reads S i g h m x = (g l m x, Function.update h i s') := by
  unfold LKernel.reads Heap.at
  rw [hl]

theorem follows_reads (i : Fin p) (g : ℝ → Kernel) : Follows S i (LKernel.reads S i g) g := by
  intro h l s' hl m x
  rw [reads_ok hl]
  exact ⟨rfl, .inr rfl⟩

/-- the two memories in which a reading of `lmax` may leave the program are equivalent for the next reading -/
theorem follows_next {i : Fin p} {h h1 : Heap size} {l : ℝ} {s' : GState (size i)} (hl : Bank.lmaxNum (S i) (h i) = (.ok l, s'))
    (h1e : h1 = h ∨ h1 = Function.update h i s') :
    Bank.lmaxNum (S i) (h1 i) = (.ok l, s') ∧ ∀ h2, (h2 = h1 ∨ h2 = Function.update h1 i s') → h2 = h ∨ h2 = Function.update h i s' := by
  rcases h1e with rfl | rfl
  · exact ⟨hl, fun _ h => h⟩
  · refine ⟨by rw [Function.update_self]; exact lmaxNum_settled hl, fun h2 h => ?_⟩
    rcases h with rfl | rfl
    · exact .inr rfl
    · exact .inr (Function.update_idem _ _ _)

theorem seqHeap_follows {α : Type} (q : ℕ) (f : Fin q → Heap size → Py α × Heap size) (r : Fin q → Py α) (P : Heap size → Prop)
    (hf : ∀ i h, P h → (f i h).1 = r i ∧ P (f i h).2) {h : Heap size} (hh : P h) :
    (seqHeap q f h).1 = seqFin q r ∧ P (seqHeap q f h).2 := by
  induction q generalizing h with
  | zero => exact ⟨rfl, hh⟩
  | succ q ih =>
    unfold seqHeap seqFin
    obtain ⟨h1, h2⟩ := hf 0 h hh
    rw [← h1]
    revert h2
    cases hc : f 0 h with
    | mk a hp =>
      intro h2
      cases a with
      | error e => exact ⟨rfl, h2⟩
      | ok a =>
        simp only
        obtain ⟨h3, h4⟩ := ih (fun i => f i.succ) (fun i => r i.succ) (fun i h => hf i.succ h) h2
        rw [← h3]
        revert h4
        cases hd : seqHeap q (fun i => f i.succ) hp with
        | mk b hq =>
          intro h4
          cases b <;> exact ⟨rfl, h4⟩

theorem evaluate_follows {i : Fin p} (f : LFilter size) (G : Fin f.Nf → ℝ → Kernel) (hF : ∀ a, Follows S i (f.kernels.get a) (G a))
    {h : Heap size} {l : ℝ} {s' : GState (size i)} (hl : Bank.lmaxNum (S i) (h i) = (.ok l, s')) {m : ℕ} (x : Fin m → ℝ) :
    (f.evaluate h x).1 = seqFin f.Nf (fun a => G a l m x) ∧ ((f.evaluate h x).2 = h ∨ (f.evaluate h x).2 = Function.update h i s') := by
  refine seqHeap_follows (P := fun h' => h' = h ∨ h' = Function.update h i s') f.Nf _ _ (fun a h1 h1e => ?_) (.inl rfl)
  obtain ⟨h2, h3⟩ := follows_next hl h1e
  obtain ⟨h4, h5⟩ := hF a h1 l s' h2 m x
  exact ⟨h4, h3 _ h5⟩

theorem complementOf_bank (B : Bank) (b : Option ℝ) (m : ℕ) (x : Fin m → ℝ) :
    B.complementKernel b m x = (B.evaluate x).bind (LFilter.complementOf b) := by
  unfold Bank.complementKernel Bank.sumSquares
  cases B.evaluate x with
  | error e => rfl
  | ok y =>
    simp only [Except.bind, LFilter.complementOf]
    rfl

theorem follows_complement {i g : Fin p} {k : LKernel size} {G : ℝ → Kernel} (hk : Follows S i k G) (b : Option ℝ) :
    Follows S i ((⟨g, [k]⟩ : LFilter size).complementKernel b) fun l => (Bank.ofArg (.one (G l))).complementKernel b := by
  intro h l s' hl m x
  have hF : ∀ a : Fin (⟨g, [k]⟩ : LFilter size).Nf, Follows S i ((⟨g, [k]⟩ : LFilter size).kernels.get a) G := by
    intro a
    have : a = 0 := Fin.ext (by have h1 : a.1 < 1 := a.2; show a.1 = 0; omega)
    subst this
    exact hk
  obtain ⟨h1, h2⟩ := evaluate_follows ⟨g, [k]⟩ (fun _ => G) hF hl x
  unfold LFilter.complementKernel
  have h3 : (Bank.ofArg (.one (G l))).evaluate x = seqFin 1 fun _ => G l m x := by
    unfold Bank.evaluate Bank.ofArg
    congr 1
    funext a
    have : a = 0 := Fin.ext (by have h1 : a.1 < 1 := a.2; show a.1 = 0; omega)
    subst this
    rfl
  have h4 : (Bank.ofArg (.one (G l))).complementKernel b m x =
      (seqFin 1 fun _ => G l m x).bind (LFilter.complementOf b) := by
    rw [complementOf_bank]
    exact congrArg (Except.bind · (LFilter.complementOf b)) h3
  dsimp only
  rw [h4]
  have h1' : ((⟨g, [k]⟩ : LFilter size).evaluate h x).1 = seqFin 1 fun _ => G l m x := h1
  revert h1' h2
  cases (⟨g, [k]⟩ : LFilter size).evaluate h x with
  | mk r hp =>
    intro h2 h1'
    rw [← h1']
    cases r with
    | error e => exact ⟨rfl, h2⟩
    | ok y => exact ⟨rfl, h2⟩

theorem follows_mul {i : Fin p} (a b : ℝ → ℝ → ℝ) : Follows S i (fun h k x =>
    match LKernel.reads S i (fun l => Kernel.pointwise (a l)) h k x with
    | (.error e, h) => (.error e, h)
    | (.ok y, h) =>
      match LKernel.reads S i (fun l => Kernel.pointwise (b l)) h k x with
      | (.error e, h) => (.error e, h)
      | (.ok z, h) => (.ok fun j => y j * z j, h)) fun l => Kernel.pointwise fun x => a l x * b l x := by
  intro h l s' hl m x
  dsimp only
  rw [reads_ok hl]
  simp only [Kernel.pointwise]
  rw [reads_ok (h := Function.update h i s') (s' := s') (l := l) (by rw [Function.update_self]; exact lmaxNum_settled hl)]
  exact ⟨rfl, .inr (Function.update_idem _ _ _)⟩

theorem follows_band (i : Fin p) (low high : ℝ → ℝ → ℝ → ℝ) (lo hi : Option ℝ) :
    Follows S i (LazyDesign.band S i low high lo hi) fun l => Kernel.pointwise (Design.bandKernel (low l) (high l) lo hi) := by
  cases lo with
  | none =>
    cases hi with
    | none => exact follows_fixed i _
    | some hi => exact follows_reads i _
  | some lo =>
    cases hi with
    | none => exact follows_reads i _
    | some hi => exact follows_mul (fun l => low l hi) fun l => high l lo

/-- the kernels of `f` follow those of the banks `B l` -/
def Tracks (S : Sols size) (i : Fin p) (f : LFilter size) (B : ℝ → Bank) : Prop :=
  ∃ ps : List (LKernel size × (ℝ → Kernel)), f.kernels = ps.map Prod.fst ∧ (∀ l, B l = ⟨ps.map fun q => q.2 l⟩) ∧
    ∀ q ∈ ps, Follows S i q.1 q.2

theorem Tracks.get {i : Fin p} {f : LFilter size} {B : ℝ → Bank} (h : Tracks S i f B) :
    ∃ G : Fin f.Nf → ℝ → Kernel, (∀ a, Follows S i (f.kernels.get a) (G a)) ∧
      ∀ l, ∃ hq : f.Nf = (B l).Nf, ∀ a, (B l).kernels.get (a.cast hq) = G a l := by
  obtain ⟨ps, h1, h2, h3⟩ := h
  obtain ⟨gr, ks⟩ := f
  simp only at h1
  subst h1
  refine ⟨fun a => (ps.get (a.cast (by simp [LFilter.Nf]))).2, fun a => ?_, fun l => ?_⟩
  · have := h3 _ (List.get_mem ps (a.cast (by simp [LFilter.Nf])))
    simp only [List.get_eq_getElem, List.getElem_map, Fin.val_cast] at this ⊢
    exact this
  · have hq : (⟨gr, ps.map Prod.fst⟩ : LFilter size).Nf = (B l).Nf := by rw [h2]; simp [LFilter.Nf, Bank.Nf]
    refine ⟨hq, fun a => ?_⟩
    have : (B l).kernels = ps.map fun q => q.2 l := by rw [h2]
    simp only [List.get_eq_getElem, Fin.val_cast]
    simp only [this, List.getElem_map]

theorem Tracks.on {i : Fin p} {f : LFilter size} {B : ℝ → Bank} (h : Tracks S i f B) (j : Fin p) : Tracks S i (f.on j) B := h

theorem tracks_withComplement (g i : Fin p) {k : LKernel size} {G : ℝ → Kernel} (hk : Follows S i k G) :
    Tracks S i (LazyDesign.withComplement g k) fun l => Design.withComplement (G l) := by
  refine ⟨[(k, G), ((⟨g, [k]⟩ : LFilter size).complementKernel (some 1), fun l => (Bank.ofArg (.one (G l))).complementKernel (some 1))],
    rfl, fun l => rfl, fun q hq => ?_⟩
  simp only [List.mem_cons, List.not_mem_nil, or_false] at hq
  rcases hq with rfl | rfl
  · exact hk
  · exact follows_complement hk _

theorem build_tracks {g : Fin p} {d : LazyDesign} {f : LFilter size} (h : d.build S g = .ok f) :
    f.graph = g ∧ ∃ B : ℝ → Bank, (∀ l, d.bank l = .ok (B l)) ∧ Tracks S g f B := by
  cases d with
  | held junk a =>
    have hf := Except.ok.inj h
    subst hf
    exact ⟨rfl, _, fun l => rfl, tracks_withComplement g g (follows_reads g _)⟩
  | papadakis junk a =>
    have hf := Except.ok.inj h
    subst hf
    exact ⟨rfl, _, fun l => rfl, tracks_withComplement g g (follows_reads g _)⟩
  | simoncelli junk a =>
    have hf := Except.ok.inj h
    subst hf
    exact ⟨rfl, _, fun l => rfl, tracks_withComplement g g (follows_reads g _)⟩
  | regular degree =>
    have hf := Except.ok.inj h
    subst hf
    exact ⟨rfl, _, fun l => rfl, tracks_withComplement g g (follows_reads g _)⟩
  | heat scale =>
    have hf := Except.ok.inj h
    subst hf
    refine ⟨rfl, _, fun l => rfl, scale.map fun s => (LKernel.reads S g fun l => Kernel.pointwise fun x => Design.heatKernel l s x / 1,
      fun l => Kernel.pointwise fun x => Design.heatKernel l s x / 1), ?_, fun l => ?_, fun q hq => ?_⟩
    · simp
    · simp [Design.heat, Bank.ofArg]
    · obtain ⟨s, -, rfl⟩ := List.mem_map.1 hq
      exact follows_reads g _
  | wave time speed =>
    simp only [LazyDesign.build] at h
    simp only [LazyDesign.bank, Design.wave]
    cases hb : Design.broadcast time speed with
    | error e => rw [hb] at h; simp at h
    | ok r =>
      obtain ⟨t, v⟩ := r
      rw [hb] at h
      simp only at h ⊢
      split at h
      · simp at h
      · rename_i hc
        have hf := Except.ok.inj h
        subst hf
        refine ⟨rfl, fun l => Bank.ofArg (.many ((t.zip v).map fun p => Kernel.orNaN (Design.waveKernel l p.1 p.2))), fun l => ?_,
          (t.zip v).map fun q => (LKernel.reads S g fun l => Kernel.orNaN (Design.waveKernel l q.1 q.2),
            fun l => Kernel.orNaN (Design.waveKernel l q.1 q.2)), ?_, fun l => ?_, fun q hq => ?_⟩
        · rw [if_neg hc]
        · simp
        · simp [Bank.ofArg]
        · obtain ⟨s, -, rfl⟩ := List.mem_map.1 hq
          exact follows_reads g _
  | expwin lo hi slope =>
    have hf := Except.ok.inj h
    subst hf
    refine ⟨rfl, _, fun l => rfl, [(_, _)], rfl, fun l => rfl, fun q hq => ?_⟩
    rw [List.mem_singleton] at hq
    subst hq
    exact follows_band g (fun l hi x => Design.expwinH slope (0.5 - x / l + hi)) (fun l lo x => Design.expwinH slope (0.5 + x / l - lo)) lo hi
  | rectangular lo hi =>
    have hf := Except.ok.inj h
    subst hf
    refine ⟨rfl, _, fun l => rfl, [(_, _)], rfl, fun l => rfl, fun q hq => ?_⟩
    rw [List.mem_singleton] at hq
    subst hq
    exact follows_band g (fun l hi x => if x / l ≤ hi then 1 else 0) (fun l lo x => if x / l ≥ lo then 1 else 0) lo hi

theorem Tracks.evaluate {i : Fin p} {f : LFilter size} {B : ℝ → Bank} (hT : Tracks S i f B) {h : Heap size} {l : ℝ} {s' : GState (size i)}
    (hl : Bank.lmaxNum (S i) (h i) = (.ok l, s')) {m : ℕ} (x : Fin m → ℝ) :
    (f.evaluate h x).1.map List.ofFn = ((B l).evaluate x).map List.ofFn ∧
      ((f.evaluate h x).2 = h ∨ (f.evaluate h x).2 = Function.update h i s') := by
  obtain ⟨G, hG, hB⟩ := hT.get
  obtain ⟨hq, hk⟩ := hB l
  obtain ⟨h1, h2⟩ := evaluate_follows f G hG hl x
  refine ⟨?_, h2⟩
  rw [h1]
  exact seqFin_cast hq _ _ fun a => by rw [hk a]

theorem squeezeHeap_at {m a b : ℕ} (h : Heap size) (j : Fin p) (f : GState (size j) → Py (Fin m → Fin a → Fin b → ℝ) × GState (size j)) :
    LFilter.squeezeHeap (h.at j f) = ((squeezeResult (f (h j))).1, Function.update h j (f (h j)).2) := by
  unfold Heap.at
  cases f (h j) with
  | mk r s => cases r <;> rfl

theorem squeezeResult_congr {n m a b : ℕ} {r r' : Py (Fin m → Fin a → Fin b → ℝ) × GState n} (h : r.1 = r'.1) :
    (squeezeResult r).1 = (squeezeResult r').1 := by
  cases r with
  | mk r s =>
    cases r' with
    | mk r' s' =>
      simp only at h
      subst h
      cases r <;> rfl

theorem Tracks.filter_exact {i : Fin p} {f : LFilter size} {B : ℝ → Bank} (hT : Tracks S i f B) {h : Heap size}
    {b : Basis (size f.graph)} {s1 : GState (size f.graph)} (hb : (h f.graph).getBasis (S f.graph) = (.ok (some b), s1))
    {l : ℝ} {si : GState (size i)} (hl : Bank.lmaxNum (S i) (Function.update h f.graph s1 i) = (.ok l, si)) (a : Arr) (order : ℕ) :
    (f.filter S a .exact order h).1 = ((B l).filter (S f.graph) a .exact order (h f.graph)).1 := by
  obtain ⟨G, hG, hB⟩ := hT.get
  obtain ⟨hq, hk⟩ := hB l
  rw [filter_eq_filterFn, ← filterFn_cast (S f.graph) hq (fun a => G a l) _ hk]
  unfold LFilter.filter filterFn
  cases parseSignal (size f.graph) f.Nf a with
  | error e => rfl
  | ok sig =>
    obtain ⟨h1, h2⟩ := evaluate_follows f G hG hl b.e
    have hbas : ((f.evaluate (Function.update h f.graph s1) b.e).2 f.graph).basis = some b := by
      have hs := getBasis_settled hb
      rcases h2 with h2 | h2
      · rw [h2, Function.update_self, hs]
      · rw [h2]
        by_cases hij : i = f.graph
        · subst hij
          rw [Function.update_self] at hl
          rw [Function.update_self]
          have := lmaxNum_basis (S f.graph) s1
          rw [hl] at this
          rw [this, hs]
        · rw [Function.update_of_ne (Ne.symm hij), Function.update_self, hs]
    have hsv : (f.spectralValues S h) = ((seqFin f.Nf fun a => G a l b.k b.e).map fun y => ⟨b, y⟩,
        (f.evaluate (Function.update h f.graph s1) b.e).2) := by
      unfold LFilter.spectralValues Heap.at
      dsimp only
      rw [hb]
      simp only
      rw [← h1]
      cases f.evaluate (Function.update h f.graph s1) b.e with
      | mk r h' => cases r <;> rfl
    have hs := getBasis_settled hb
    rw [hsv, hb]
    simp only
    cases seqFin f.Nf fun a => G a l b.k b.e with
    | error e => cases sig <;> rfl
    | ok y =>
      cases sig with
      | analysis ns x =>
        simp only [Except.map, squeezeHeap_at]
        exact squeezeResult_congr (exactAnalysisWith_indep hbas hs y x).1
      | synthesis ns x =>
        simp only [Except.map, squeezeHeap_at]
        exact squeezeResult_congr (exactSynthesisWith_indep hbas hs y x).1

theorem chebyOp_indep {n : ℕ} {S : Solvers n} {ns q M : ℕ} (c : Fin q → Fin M → ℝ) (X : Matrix (Fin n) (Fin ns) ℝ) {s s1 : GState n} {l : ℝ}
    (h : Bank.lmaxNum S s = (.ok l, s1)) :
    (chebyOp S c X s).1 = (chebyOp S c X s1).1 ∧ ((chebyOp S c X s).2 = s ∨ (chebyOp S c X s).2 = s1) := by
  unfold chebyOp
  split
  · exact ⟨rfl, .inl rfl⟩
  · rw [h, lmaxNum_settled h]
    dsimp only
    split <;> exact ⟨rfl, .inr rfl⟩

theorem chebyOp_settled {n : ℕ} {S : Solvers n} {ns q M : ℕ} (c : Fin q → Fin M → ℝ) (X : Matrix (Fin n) (Fin ns) ℝ) {s : GState n} {l : ℝ}
    (h : Bank.lmaxNum S s = (.ok l, s)) : (chebyOp S c X s).2 = s := by
  rcases (chebyOp_indep c X h).2 with h' | h' <;> exact h'

theorem chebAnalysisWith_indep {n : ℕ} {S : Solvers n} {ns q M : ℕ} (c : Fin q → Fin M → ℝ) (x : Fin n → Fin ns → ℝ) {s s1 : GState n} {l : ℝ}
    (h : Bank.lmaxNum S s = (.ok l, s1)) : (Bank.chebAnalysisWith S c x s).1 = (Bank.chebAnalysisWith S c x s1).1 := by
  unfold Bank.chebAnalysisWith
  have := (chebyOp_indep c (Matrix.of x) h).1
  revert this
  cases chebyOp S c (Matrix.of x) s with
  | mk r t =>
    cases chebyOp S c (Matrix.of x) s1 with
    | mk r' t' =>
      rintro ⟨⟩
      cases r <;> rfl

theorem chebSynthLoop_indep {n : ℕ} {S : Solvers n} {ns q M : ℕ} (c : Fin q → Fin M → ℝ) (x : Fin n → Fin ns → Fin q → ℝ) {s1 : GState n}
    {l : ℝ} (is : List (Fin q)) (acc : Matrix (Fin n) (Fin ns) ℝ) {s : GState n} (h : Bank.lmaxNum S s = (.ok l, s1)) :
    (Bank.chebSynthLoop S c x is acc s).1 = (Bank.chebSynthLoop S c x is acc s1).1 := by
  induction is generalizing acc s with
  | nil => rfl
  | cons i is ih =>
    unfold Bank.chebSynthLoop
    obtain ⟨h1, h2⟩ := chebyOp_indep (fun (_ : Fin 1) => c i) (Matrix.of fun v j => x v j i) h
    have h3 := chebyOp_settled (fun (_ : Fin 1) => c i) (Matrix.of fun v j => x v j i) (lmaxNum_settled h)
    revert h1 h2 h3
    cases chebyOp S (fun (_ : Fin 1) => c i) (Matrix.of fun v j => x v j i) s with
    | mk r t =>
      cases chebyOp S (fun (_ : Fin 1) => c i) (Matrix.of fun v j => x v j i) s1 with
      | mk r' t' =>
        rintro ⟨⟩ h2 h3
        simp only at h2 h3
        cases r with
        | error e => rfl
        | ok r =>
          simp only
          rw [h3]
          refine ih _ ?_
          rcases h2 with rfl | rfl
          · exact h
          · exact lmaxNum_settled h

theorem chebSynthesisWith_indep {n : ℕ} {S : Solvers n} {ns q M : ℕ} (c : Fin q → Fin M → ℝ) (x : Fin n → Fin ns → Fin q → ℝ)
    {s s1 : GState n} {l : ℝ} (h : Bank.lmaxNum S s = (.ok l, s1)) :
    (Bank.chebSynthesisWith S c x s).1 = (Bank.chebSynthesisWith S c x s1).1 := by
  unfold Bank.chebSynthesisWith
  have := chebSynthLoop_indep c x (List.finRange q) 0 h
  revert this
  cases Bank.chebSynthLoop S c x (List.finRange q) 0 s with
  | mk r t =>
    cases Bank.chebSynthLoop S c x (List.finRange q) 0 s1 with
    | mk r' t' =>
      rintro ⟨⟩
      cases r <;> rfl

/-- the coefficients of a filter whose kernels follow graph `i` -/
theorem chebCoeffs_follows {i : Fin p} (f : LFilter size) (G : Fin f.Nf → ℝ → Kernel) (hF : ∀ a, Follows S i (f.kernels.get a) (G a))
    (hq : f.Nf ≠ 0) {h : Heap size} {l lj : ℝ} {si : GState (size i)} {sj : GState (size f.graph)}
    (hl : Bank.lmaxNum (S i) (h i) = (.ok l, si)) (hj : Bank.lmaxNum (S f.graph) (h f.graph) = (.ok lj, sj)) (m : ℕ) :
    (f.chebCoeffs S m h).1 = seqFin f.Nf (fun a => PyGSP.chebCoeff1 (G a l) lj m (m + 1)) ∧
      Bank.lmaxNum (S f.graph) ((f.chebCoeffs S m h).2 f.graph) = (.ok lj, sj) := by
  unfold LFilter.chebCoeffs
  rw [if_neg hq]
  have key := seqHeap_follows (P := fun h' => Bank.lmaxNum (S f.graph) (h' f.graph) = (.ok lj, sj) ∧ Bank.lmaxNum (S i) (h' i) = (.ok l, si))
    f.Nf (fun a h => LFilter.chebCoeff1 S f m (f.kernels.get a) h) (fun a => PyGSP.chebCoeff1 (G a l) lj m (m + 1)) (fun a h' hP => ?_) ⟨hj, hl⟩
  · exact ⟨key.1, key.2.1⟩
  · obtain ⟨h1, h2⟩ := hP
    have hat : h'.at f.graph (Bank.lmaxNum (S f.graph)) = (.ok lj, Function.update h' f.graph sj) := by
      unfold Heap.at; rw [h1]
    have hj' : Bank.lmaxNum (S f.graph) (Function.update h' f.graph sj f.graph) = (.ok lj, sj) := by
      rw [Function.update_self]; exact lmaxNum_settled h1
    have hi' : Bank.lmaxNum (S i) (Function.update h' f.graph sj i) = (.ok l, si) := by
      by_cases hij : i = f.graph
      · subst hij
        rw [Function.update_self]
        rw [h1] at h2
        simp only [Prod.mk.injEq, Except.ok.injEq] at h2
        rw [← h2.1, ← h2.2]
        exact lmaxNum_settled h1
      · rw [Function.update_of_ne hij]; exact h2
    obtain ⟨h3, h4⟩ := hF a _ l si hi' (m + 1) (chebNode lj (m + 1))
    have hP2 : Bank.lmaxNum (S f.graph) ((f.kernels.get a (Function.update h' f.graph sj) (m + 1) (chebNode lj (m + 1))).2 f.graph)
        = (.ok lj, sj) ∧ Bank.lmaxNum (S i) ((f.kernels.get a (Function.update h' f.graph sj) (m + 1) (chebNode lj (m + 1))).2 i)
        = (.ok l, si) := by
      refine ⟨?_, (follows_next hi' h4).1⟩
      rcases h4 with h4 | h4
      · rw [h4]; exact hj'
      · rw [h4]
        by_cases hij : i = f.graph
        · subst hij
          rw [Function.update_self]
          rw [h1] at h2
          simp only [Prod.mk.injEq, Except.ok.injEq] at h2
          rw [← h2.2]
          exact lmaxNum_settled h1
        · rw [Function.update_of_ne (Ne.symm hij)]; exact hj'
    unfold LFilter.chebCoeff1
    rw [hat]
    simp only
    unfold PyGSP.chebCoeff1
    rw [← h3]
    revert hP2
    cases f.kernels.get a (Function.update h' f.graph sj) (m + 1) (chebNode lj (m + 1)) with
    | mk r h'' =>
      intro hP2
      cases r <;> exact ⟨rfl, hP2⟩

theorem Tracks.filter_cheb {i : Fin p} {f : LFilter size} {B : ℝ → Bank} (hT : Tracks S i f B) {h : Heap size}
    {l : ℝ} {si : GState (size i)} (hl : Bank.lmaxNum (S i) (h i) = (.ok l, si)) (a : Arr) (order : ℕ) :
    (f.filter S a .chebyshev order h).1 = ((B l).filter (S f.graph) a .chebyshev order (h f.graph)).1 := by
  obtain ⟨G, hG, hB⟩ := hT.get
  obtain ⟨hq, hk⟩ := hB l
  rw [filter_eq_filterFn, ← filterFn_cast (S f.graph) hq (fun a => G a l) _ hk]
  unfold LFilter.filter filterFn
  cases parseSignal (size f.graph) f.Nf a with
  | error e => rfl
  | ok sig =>
    simp only
    have herr : ∀ e sj, Bank.lmaxNum (S f.graph) (h f.graph) = (.error e, sj) → (f.chebCoeffs S order h).1 = .error e := by
      intro e sj hj
      have hat : h.at f.graph (Bank.lmaxNum (S f.graph)) = (.error e, Function.update h f.graph sj) := by
        unfold Heap.at; rw [hj]
      unfold LFilter.chebCoeffs
      split
      · rw [hat]
      · rename_i hq0
        obtain ⟨q, hq1⟩ := Nat.exists_eq_succ_of_ne_zero hq0
        have : ∀ (q : ℕ) (F : Fin q → Heap size → Py (Fin (order + 1) → ℝ) × Heap size) (_ : q ≠ 0)
            (_ : ∀ a, (F a h).1 = .error e), (seqHeap q F h).1 = .error e := by
          intro q F hq hF
          obtain ⟨q, rfl⟩ := Nat.exists_eq_succ_of_ne_zero hq
          unfold seqHeap
          have := hF 0
          revert this
          cases F 0 h with
          | mk r h' => rintro ⟨⟩; rfl
        refine this _ _ hq0 fun a => ?_
        unfold LFilter.chebCoeff1
        rw [hat]
    cases hj : Bank.lmaxNum (S f.graph) (h f.graph) with
    | mk r sj =>
      cases r with
      | error e =>
        have := herr e sj hj
        revert this
        cases f.chebCoeffs S order h with
        | mk r h' => rintro ⟨⟩; cases sig <;> rfl
      | ok lj =>
        simp only
        by_cases hq0 : f.Nf = 0
        · rw [if_pos hq0]
          have : (f.chebCoeffs S order h).1 = .error .indexError := by
            unfold LFilter.chebCoeffs
            rw [if_pos hq0]
            unfold Heap.at
            rw [hj]
          revert this
          cases f.chebCoeffs S order h with
          | mk r h' => rintro ⟨⟩; cases sig <;> rfl
        · rw [if_neg hq0]
          obtain ⟨h1, h2⟩ := chebCoeffs_follows f G hG hq0 hl hj order
          rw [← h1]
          revert h2
          cases f.chebCoeffs S order h with
          | mk r h' =>
            intro h2
            cases r with
            | error e => cases sig <;> rfl
            | ok c =>
              simp only at h2
              cases sig with
              | analysis ns x =>
                simp only [squeezeHeap_at]
                exact squeezeResult_congr (chebAnalysisWith_indep c x h2)
              | synthesis ns x =>
                simp only [squeezeHeap_at]
                exact squeezeResult_congr (chebSynthesisWith_indep c x h2)

end heap

end PyGSP
