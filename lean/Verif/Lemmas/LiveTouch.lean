import Verif.Lemmas.LiveFilter

/-!
# What evaluating and filtering do to the graphs in memory
-/

namespace PyGSP

open GState

/-- Reading `G.lmax` or `G.e` / `G.U`. -/
def Op.isRead {n : ℕ} : Op n → Bool
  | .getLmax => true
  | .getBasis => true
  | _ => false

section one
variable {n : ℕ} {S : Solvers n}

/-- the state changed only by reading lazy attributes -/
def Reads (S : Solvers n) (s s' : GState n) : Prop := ∃ ops : List (Op n), (∀ op ∈ ops, op.isRead = true) ∧ s' = runAll S ops s

theorem Reads.refl (s : GState n) : Reads S s s := ⟨[], by simp, rfl⟩

theorem Reads.trans {s t u : GState n} (h : Reads S s t) (h' : Reads S t u) : Reads S s u := by
  obtain ⟨a, ha, rfl⟩ := h
  obtain ⟨b, hb, rfl⟩ := h'
  refine ⟨a ++ b, fun op hop => ?_, ?_⟩
  · rcases List.mem_append.1 hop with h | h
    · exact ha _ h
    · exact hb _ h
  · unfold runAll; rw [List.foldl_append]

theorem reads_lmaxNum (s : GState n) : Reads S s (Bank.lmaxNum S s).2 :=
  ⟨[.getLmax], by simp [Op.isRead], by rw [lmaxNum_state]; rfl⟩

theorem reads_getBasis (s : GState n) : Reads S s (s.getBasis S).2 := ⟨[.getBasis], by simp [Op.isRead], rfl⟩

theorem reads_gft {R : Type} [AddCommGroup R] [Module ℝ R] (x : Rows R) (s : GState n) : Reads S s (s.gft S x).2 := by
  have := reads_getBasis (S := S) s
  unfold gft
  split
  · exact .refl s
  · revert this
    cases s.getBasis S with
    | mk r t =>
      intro h
      rcases r with _ | _ | b
      · exact h
      · exact h
      · first | exact h | (dsimp only; split <;> exact h)

theorem reads_igft {R : Type} [AddCommGroup R] [Module ℝ R] (x : Rows R) (s : GState n) : Reads S s (s.igft S x).2 := by
  have := reads_getBasis (S := S) s
  unfold igft
  split
  · exact .refl s
  · revert this
    cases s.getBasis S with
    | mk r t =>
      intro h
      rcases r with _ | _ | b
      · exact h
      · exact h
      · first | exact h | (dsimp only; split <;> exact h)

theorem reads_exactAnalysisWith {ns q : ℕ} (b : Basis n) (y : Fin q → Fin b.k → ℝ) (x : Fin n → Fin ns → ℝ) (s : GState n) :
    Reads S s (Bank.exactAnalysisWith S b y x s).2 := by
  unfold Bank.exactAnalysisWith
  split
  · exact .refl s
  · have h1 := reads_gft (S := S) (⟨n, fun i j (_ : Fin 1) => x i j⟩ : Rows (Fin ns → Fin 1 → ℝ)) s
    revert h1
    cases s.gft S (⟨n, fun i j (_ : Fin 1) => x i j⟩ : Rows (Fin ns → Fin 1 → ℝ)) with
    | mk r t =>
      intro h1
      cases r with
      | error e => exact h1
      | ok xh =>
        dsimp only
        split
        · rename_i h
          have h2 := reads_igft (S := S) (⟨xh.len, fun l j i => xh.row l j 0 * y i (l.cast h)⟩ : Rows (Fin ns → Fin q → ℝ)) t
          revert h2
          cases t.igft S (⟨xh.len, fun l j i => xh.row l j 0 * y i (l.cast h)⟩ : Rows (Fin ns → Fin q → ℝ)) with
          | mk r u =>
            intro h2
            cases r with
            | error e => exact h1.trans h2
            | ok r => dsimp only; split <;> exact h1.trans h2
        · exact h1

theorem reads_exactSynthesisWith {ns q : ℕ} (b : Basis n) (y : Fin q → Fin b.k → ℝ) (x : Fin n → Fin ns → Fin q → ℝ) (s : GState n) :
    Reads S s (Bank.exactSynthesisWith S b y x s).2 := by
  unfold Bank.exactSynthesisWith
  split
  · exact .refl s
  · have h1 := reads_gft (S := S) (⟨n, x⟩ : Rows (Fin ns → Fin q → ℝ)) s
    revert h1
    cases s.gft S (⟨n, x⟩ : Rows (Fin ns → Fin q → ℝ)) with
    | mk r t =>
      intro h1
      cases r with
      | error e => exact h1
      | ok xh =>
        dsimp only
        split
        · rename_i h
          have h2 := reads_igft (S := S) (⟨xh.len, fun l j _ => ∑ i, xh.row l j i * y i (l.cast h)⟩ : Rows (Fin ns → Fin 1 → ℝ)) t
          revert h2
          cases t.igft S (⟨xh.len, fun l j _ => ∑ i, xh.row l j i * y i (l.cast h)⟩ : Rows (Fin ns → Fin 1 → ℝ)) with
          | mk r u =>
            intro h2
            cases r with
            | error e => exact h1.trans h2
            | ok r => dsimp only; split <;> exact h1.trans h2
        · exact h1

theorem reads_chebyOp {ns q M : ℕ} (c : Fin q → Fin M → ℝ) (X : Matrix (Fin n) (Fin ns) ℝ) (s : GState n) :
    Reads S s (chebyOp S c X s).2 := by
  unfold chebyOp
  split
  · exact .refl s
  · have := reads_lmaxNum (S := S) s
    revert this
    cases Bank.lmaxNum S s with
    | mk r t =>
      intro h
      cases r with
      | error e => exact h
      | ok l => dsimp only; split <;> exact h

theorem reads_chebAnalysisWith {ns q M : ℕ} (c : Fin q → Fin M → ℝ) (x : Fin n → Fin ns → ℝ) (s : GState n) :
    Reads S s (Bank.chebAnalysisWith S c x s).2 := by
  have := reads_chebyOp (S := S) c (Matrix.of x) s
  unfold Bank.chebAnalysisWith
  revert this
  cases chebyOp S c (Matrix.of x) s with
  | mk r t => intro h; cases r <;> exact h

theorem reads_chebSynthLoop {ns q M : ℕ} (c : Fin q → Fin M → ℝ) (x : Fin n → Fin ns → Fin q → ℝ) (is : List (Fin q))
    (acc : Matrix (Fin n) (Fin ns) ℝ) (s : GState n) : Reads S s (Bank.chebSynthLoop S c x is acc s).2 := by
  induction is generalizing acc s with
  | nil => exact .refl s
  | cons i is ih =>
    have := reads_chebyOp (S := S) (fun (_ : Fin 1) => c i) (Matrix.of fun v j => x v j i) s
    unfold Bank.chebSynthLoop
    revert this
    cases chebyOp S (fun (_ : Fin 1) => c i) (Matrix.of fun v j => x v j i) s with
    | mk r t =>
      intro h
      cases r with
      | error e => exact h
      | ok r => exact h.trans (ih _ _)

theorem reads_chebSynthesisWith {ns q M : ℕ} (c : Fin q → Fin M → ℝ) (x : Fin n → Fin ns → Fin q → ℝ) (s : GState n) :
    Reads S s (Bank.chebSynthesisWith S c x s).2 := by
  have := reads_chebSynthLoop (S := S) c x (List.finRange q) 0 s
  unfold Bank.chebSynthesisWith
  revert this
  cases Bank.chebSynthLoop S c x (List.finRange q) 0 s with
  | mk r t => intro h; cases r <;> exact h

end one

variable {p : ℕ} {size : Fin p → ℕ} {S : Sols size}

/-- the memory changed only by reading lazy attributes of graphs -/
def HReads (S : Sols size) (h h' : Heap size) : Prop := ∀ i, Reads (S i) (h i) (h' i)

theorem HReads.refl (h : Heap size) : HReads S h h := fun i => .refl _

theorem HReads.trans {h h' h'' : Heap size} (a : HReads S h h') (b : HReads S h' h'') : HReads S h h'' := fun i => (a i).trans (b i)

theorem hreads_at {α : Type} (h : Heap size) (i : Fin p) (m : GState (size i) → Py α × GState (size i))
    (hm : Reads (S i) (h i) (m (h i)).2) : HReads S h (h.at i m).2 := by
  intro j
  unfold Heap.at
  by_cases hij : j = i
  · subst hij; simp only [Function.update_self]; exact hm
  · simp only [Function.update_of_ne hij]; exact .refl _

theorem hreads_seqHeap {α : Type} (q : ℕ) (f : Fin q → Heap size → Py α × Heap size) (hf : ∀ a h, HReads S h (f a h).2) (h : Heap size) :
    HReads S h (seqHeap q f h).2 := by
  induction q generalizing h with
  | zero => exact .refl h
  | succ q ih =>
    unfold seqHeap
    have h1 := hf 0 h
    revert h1
    cases f 0 h with
    | mk r t =>
      intro h1
      cases r with
      | error e => exact h1
      | ok a =>
        have h2 := ih (fun i => f i.succ) (fun a h => hf a.succ h) t
        dsimp only
        revert h2
        cases seqHeap q (fun i => f i.succ) t with
        | mk r u => intro h2; cases r <;> exact h1.trans h2

/-- the kernels only read lazy attributes of graphs -/
def Clean (S : Sols size) (f : LFilter size) : Prop := ∀ k ∈ f.kernels, ∀ (h : Heap size) (m : ℕ) (x : Fin m → ℝ), HReads S h (k h m x).2

theorem hreads_reads (i : Fin p) (g : ℝ → Kernel) (h : Heap size) (m : ℕ) (x : Fin m → ℝ) : HReads S h (LKernel.reads S i g h m x).2 := by
  have := hreads_at (S := S) h i (Bank.lmaxNum (S i)) (reads_lmaxNum _)
  unfold LKernel.reads
  revert this
  cases h.at i (Bank.lmaxNum (S i)) with
  | mk r t => intro h; cases r <;> exact h

theorem Clean.evaluate {f : LFilter size} (hf : Clean S f) (h : Heap size) {m : ℕ} (x : Fin m → ℝ) : HReads S h (f.evaluate h x).2 :=
  hreads_seqHeap _ _ (fun a h => hf _ (List.get_mem _ _) h m x) h

theorem Clean.complementKernel {f : LFilter size} (hf : Clean S f) (b : Option ℝ) (h : Heap size) (m : ℕ) (x : Fin m → ℝ) :
    HReads S h (f.complementKernel b h m x).2 := by
  have := hf.evaluate h x
  unfold LFilter.complementKernel
  revert this
  cases f.evaluate h x with
  | mk r t => intro h; cases r <;> exact h

theorem clean_withComplement {g : Fin p} {k : LKernel size} (hk : ∀ (h : Heap size) (m : ℕ) (x : Fin m → ℝ), HReads S h (k h m x).2) :
    Clean S (LazyDesign.withComplement g k) := by
  have h1 : Clean S (⟨g, [k]⟩ : LFilter size) := by
    intro k' hk'
    simp only [List.mem_singleton] at hk'
    subst hk'
    exact hk
  intro k' hk'
  simp only [LazyDesign.withComplement, LFilter.complement, List.mem_append, List.mem_singleton] at hk'
  rcases hk' with rfl | rfl
  · exact hk
  · exact h1.complementKernel _

theorem hreads_band (g : Fin p) (low high : ℝ → ℝ → ℝ → ℝ) (lo hi : Option ℝ) (h : Heap size) (m : ℕ) (x : Fin m → ℝ) :
    HReads S h (LazyDesign.band S g low high lo hi h m x).2 := by
  rcases lo with _ | lo <;> rcases hi with _ | hi
  · exact .refl h
  · exact hreads_reads _ _ _ _ _
  · exact hreads_reads _ _ _ _ _
  · unfold LazyDesign.band
    have h1 := hreads_reads (S := S) g (fun l => Kernel.pointwise (low l hi)) h m x
    dsimp only
    revert h1
    cases LKernel.reads S g (fun l => Kernel.pointwise (low l hi)) h m x with
    | mk r t =>
      intro h1
      cases r with
      | error e => exact h1
      | ok y =>
        have h2 := hreads_reads (S := S) g (fun l => Kernel.pointwise (high l lo)) t m x
        dsimp only
        revert h2
        cases LKernel.reads S g (fun l => Kernel.pointwise (high l lo)) t m x with
        | mk r u => intro h2; cases r <;> exact h1.trans h2

theorem clean_lazy {g : Fin p} {d : LazyDesign} {f : LFilter size} (h : d.build S g = .ok f) : Clean S f := by
  cases d with
  | held junk a => have := Except.ok.inj h; subst this; exact clean_withComplement (hreads_reads _ _)
  | papadakis junk a => have := Except.ok.inj h; subst this; exact clean_withComplement (hreads_reads _ _)
  | simoncelli junk a => have := Except.ok.inj h; subst this; exact clean_withComplement (hreads_reads _ _)
  | regular degree => have := Except.ok.inj h; subst this; exact clean_withComplement (hreads_reads _ _)
  | heat scale =>
    have := Except.ok.inj h; subst this
    intro k hk
    obtain ⟨s, -, rfl⟩ := List.mem_map.1 hk
    exact hreads_reads _ _
  | wave time speed =>
    simp only [LazyDesign.build] at h
    cases hb : Design.broadcast time speed with
    | error e => rw [hb] at h; simp at h
    | ok q =>
      rw [hb] at h
      dsimp only at h
      split at h
      · simp at h
      · have := Except.ok.inj h; subst this
        intro k hk
        obtain ⟨s, -, rfl⟩ := List.mem_map.1 hk
        exact hreads_reads _ _
  | expwin lo hi slope =>
    have := Except.ok.inj h; subst this
    intro k hk
    simp only [List.mem_singleton] at hk
    subst hk
    exact hreads_band _ _ _ _ _
  | rectangular lo hi =>
    have := Except.ok.inj h; subst this
    intro k hk
    simp only [List.mem_singleton] at hk
    subst hk
    exact hreads_band _ _ _ _ _

theorem clean_fixed (g : Fin p) (ks : List Kernel) : Clean S (⟨g, ks.map LKernel.fixed⟩ : LFilter size) := by
  intro k hk
  obtain ⟨s, -, rfl⟩ := List.mem_map.1 hk
  exact fun h _ _ => .refl h

theorem clean_getitem {f f' : LFilter size} (hf : Clean S f) (key : Bank.Key) (h : f.getitem key = .ok f') : Clean S f' := by
  cases key with
  | idx i =>
    simp only [LFilter.getitem] at h
    generalize (if i < 0 then i + (f.Nf : ℤ) else i) = j at h
    split at h
    · simp at h
    · split at h
      · rename_i g hg
        have := Except.ok.inj h; subst this
        intro k hk
        simp only [List.mem_singleton] at hk
        subst hk
        exact hf _ (List.mem_of_getElem? hg)
      · simp at h
  | slice lo hi =>
    have := Except.ok.inj h; subst this
    exact fun k hk => hf k (List.mem_of_mem_take (List.mem_of_mem_drop hk))

theorem Clean.spectralValues {f : LFilter size} (hf : Clean S f) (h : Heap size) : HReads S h (f.spectralValues S h).2 := by
  have h1 := hreads_at (S := S) h f.graph (fun s => s.getBasis (S f.graph)) (reads_getBasis _)
  unfold LFilter.spectralValues
  revert h1
  cases h.at f.graph (fun s => s.getBasis (S f.graph)) with
  | mk r t =>
    intro h1
    rcases r with _ | _ | b
    · exact h1
    · exact h1
    · have h2 := hf.evaluate t b.e
      dsimp only
      revert h2
      cases f.evaluate t b.e with
      | mk r u => intro h2; cases r <;> exact h1.trans h2

theorem Clean.chebCoeffs {f : LFilter size} (hf : Clean S f) (m : ℕ) (h : Heap size) : HReads S h (f.chebCoeffs S m h).2 := by
  have h0 := fun h : Heap size => hreads_at (S := S) h f.graph (Bank.lmaxNum (S f.graph)) (reads_lmaxNum _)
  unfold LFilter.chebCoeffs
  split
  · have h1 := h0 h
    revert h1
    cases h.at f.graph (Bank.lmaxNum (S f.graph)) with
    | mk r t => intro h1; cases r <;> exact h1
  · refine hreads_seqHeap _ _ (fun a h => ?_) h
    have h1 := h0 h
    unfold LFilter.chebCoeff1
    revert h1
    cases h.at f.graph (Bank.lmaxNum (S f.graph)) with
    | mk r t =>
      intro h1
      cases r with
      | error e => exact h1
      | ok l =>
        have h2 := hf _ (List.get_mem f.kernels a) t (m + 1) (chebNode l (m + 1))
        dsimp only
        revert h2
        cases f.kernels.get a t (m + 1) (chebNode l (m + 1)) with
        | mk r u => intro h2; cases r <;> exact h1.trans h2

theorem squeezeHeap_heap {m a b : ℕ} (r : Py (Fin m → Fin a → Fin b → ℝ) × Heap size) : (LFilter.squeezeHeap r).2 = r.2 := by
  obtain ⟨r, h⟩ := r
  cases r <;> rfl

theorem Clean.filter {f : LFilter size} (hf : Clean S f) (a : Arr) (method : FMethod) (order : ℕ) (h : Heap size) :
    HReads S h (f.filter S a method order h).2 := by
  have h1 := hf.spectralValues h
  have h2 := hf.chebCoeffs order h
  unfold LFilter.filter
  cases parseSignal (size f.graph) f.Nf a with
  | error e => exact .refl h
  | ok sig =>
    cases sig with
    | analysis ns x =>
      cases method with
      | exact =>
        dsimp only
        revert h1
        cases f.spectralValues S h with
        | mk r t =>
          intro h1
          rcases r with e | ⟨b, y⟩
          · exact h1
          · dsimp only
            rw [squeezeHeap_heap]
            exact h1.trans (hreads_at _ _ _ (reads_exactAnalysisWith _ _ _ _))
      | chebyshev =>
        dsimp only
        revert h2
        cases f.chebCoeffs S order h with
        | mk r t =>
          intro h2
          rcases r with e | c
          · exact h2
          · dsimp only
            rw [squeezeHeap_heap]
            exact h2.trans (hreads_at _ _ _ (reads_chebAnalysisWith _ _ _))
      | other nm => exact .refl h
    | synthesis ns x =>
      cases method with
      | exact =>
        dsimp only
        revert h1
        cases f.spectralValues S h with
        | mk r t =>
          intro h1
          rcases r with e | ⟨b, y⟩
          · exact h1
          · dsimp only
            rw [squeezeHeap_heap]
            exact h1.trans (hreads_at _ _ _ (reads_exactSynthesisWith _ _ _ _))
      | chebyshev =>
        dsimp only
        revert h2
        cases f.chebCoeffs S order h with
        | mk r t =>
          intro h2
          rcases r with e | c
          · exact h2
          · dsimp only
            rw [squeezeHeap_heap]
            exact h2.trans (hreads_at _ _ _ (reads_chebSynthesisWith _ _ _))
      | other nm => exact .refl h

end PyGSP
