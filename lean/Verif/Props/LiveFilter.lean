import Verif.Lemmas.LiveTouch
import Verif.Props.State
import Verif.Props.Cheby

/-!
# C99: filters are bound to graph objects, not to their spectrum

Most designs keep a reference to the graph and read `G.lmax` each time a kernel is called; the others read it once, in the constructor.
-/

namespace PyGSP

open GState Spec

section solver
variable {n : ℕ}

/-- Eigensolvers as required exist, including an exact largest eigenvalue. -/
theorem exists_exact (n : ℕ) (hn : 0 < n) : ∃ S : Solvers n, Sound S ∧ Converges S ∧ ExactLM S := by
  obtain ⟨S, hS, hc⟩ := exists_sound n
  refine ⟨⟨S.eigh, S.eigshSM, fun t L => some ((S.eigh t L).1 ⟨n - 1, by omega⟩)⟩, ⟨hS.eigh, hS.eigshSM, ?_⟩, ⟨fun _ _ => rfl, hc.2⟩, ?_⟩
  · intro _ t L hL r hr
    have hr := Option.some.inj hr
    subst hr
    obtain ⟨h1, -⟩ := hS.eigh t L hL
    refine ⟨_, h1.col_ne_zero ⟨n - 1, by omega⟩, ?_⟩
    rw [h1.mulVec, dotProduct_smul, smul_eq_mul]
  · intro t L hL r hr _
    have hr := Option.some.inj hr
    subst hr
    obtain ⟨h1, h2⟩ := hS.eigh t L hL
    refine ⟨h1.isEigenvalue _, fun l hl => ?_⟩
    obtain ⟨j, hj⟩ := h1.complete hL hl
    rw [← hj]
    exact h2 (Fin.le_def.2 (by have := j.2; simp only; omega))

/-- the value read on a fresh graph -/
theorem fresh_lmax {S : Solvers n} (hS : Sound S) (hc : ∀ t L, (S.eigshLM t L).isSome) {g : Graph n ℝ} (hg : g.Built)
    (hW : NonnegW g.W.dense) (hn : 2 ≤ n) :
    ∃ r t, S.eigshLM t (ofGraph g).L = some r ∧ ((ofGraph g).getLmax S).1 = .ok (some (.fin (r * (101 / 100)))) := by
  obtain ⟨hi, hb0, hl0, hm0, hmm0, -⟩ := ofGraph_inv (S := S) g hg
  have hW0 : NonnegW (ofGraph g).W.dense := by unfold GState.W; rw [hb0]; exact hW
  have hk0 : Known (ofGraph g).lapType := by rw [hl0]; exact hg.lapType_known
  set s := ofGraph g with hs
  obtain ⟨B, hB1, hB2⟩ := hi.bound hW0 (by omega) hk0
  obtain ⟨r, hr'⟩ := Option.isSome_iff_exists.1 (hc s.calls s.L)
  refine ⟨r, s.calls, hr', ?_⟩
  unfold getLmax
  rw [hm0]
  have key : s.estimateLmax S .lanczos = (.ok (), { (({ s with lmaxMethod := some .lanczos, calls := s.calls + 1 } : GState n).upperBound).2 with
      lmax := some (.fin (r * (101 / 100))) }) := by
    unfold estimateLmax
    rw [if_neg (by rw [hmm0]; simp)]
    simp only
    rw [if_neg (by omega)]
    rw [hr']
    simp only
    set s2 : GState n := { s with lmaxMethod := some .lanczos, calls := s.calls + 1 } with hs2
    obtain ⟨hu1, hu2⟩ := upperBound_spec (s := s2) ⟨hi.2.1, hi.2.2, hi.2.3, hi.2.4, hi.2.5⟩
    rw [hu1, show s2.cur = s.cur from rfl, hB1]
    simp only
    obtain ⟨x, hx, hq⟩ := hS.eigshLM (by omega) _ _ hi.L_symm _ hr'
    have hle : r ≤ B := by
      have := quad_le_of_eig_le hi.L_symm hB2 x
      rw [hq] at this
      exact le_of_mul_le_mul_right this (dot_self_pos hx)
    have hle2 : PyNum.le (.fin r) (PyNum.fin B + .fin (1 / 10 ^ 12)) = true := by
      show decide (r ≤ B + 1 / 10 ^ 12) = true
      rw [decide_eq_true_eq]
      have : (0 : ℝ) < 1 / 10 ^ 12 := by positivity
      linarith
    rw [if_pos hle2]
  rw [key]

/-- operations that keep `lmax` once a complete basis is stored -/
def Op.keepsLmax : Op n → Bool
  | .computeLaplacian _ => false
  | .estimateLmax _ => false
  | _ => true

/-- the two attributes -/
def GState.lb (s : GState n) : Option (PyNum ℝ) × Option (Basis n) := (s.lmax, s.basis)

theorem isDirected_lb (s : GState n) : s.isDirected.2.lb = s.lb := by
  unfold GState.isDirected; split <;> rfl

theorem getDw_lb (s : GState n) : s.getDw.2.lb = s.lb := by
  unfold GState.getDw
  split
  · rfl
  · exact isDirected_lb s

theorem computeDiff_lb (s : GState n) : s.computeDiff.2.lb = s.lb := by
  unfold GState.computeDiff
  have h1 : s.getEdgeList.2.lb = s.lb := isDirected_lb s
  revert h1
  cases s.getEdgeList with
  | mk r t =>
    intro h1
    cases r with
    | error e => exact h1
    | ok es =>
      dsimp only
      cases t.lapType with
      | other nm => exact h1
      | combinatorial => exact (isDirected_lb t).trans h1
      | normalized => exact (isDirected_lb _).trans ((getDw_lb t).trans h1)

theorem run_keeps (S : Solvers n) {op : Op n} (hop : op.keepsLmax = true) {s : GState n} {v : PyNum ℝ} {b : Basis n} (hl : s.lmax = some v)
    (hb : s.basis = some b) (hk : b.k = n) : (op.run S s).2.lb = s.lb := by
  have hcfb : ∀ k : Option ℕ, k.getD n ≤ b.k → s.computeFourierBasis S k = (.ok (), s) := fun k h => C20_cached S s b hb k h
  cases op with
  | isDirected => exact isDirected_lb s
  | isConnected pop =>
    show (s.isConnected pop).2.lb = s.lb
    unfold GState.isConnected
    split
    · rfl
    · dsimp only
      split
      · exact isDirected_lb s
      · exact isDirected_lb s
  | getA => show s.getA.2.lb = s.lb; unfold GState.getA; split <;> rfl
  | getD =>
    show s.getD.2.lb = s.lb
    unfold GState.getD
    split
    · rfl
    · exact isDirected_lb s
  | getDw => exact getDw_lb s
  | getEdgeList => exact isDirected_lb s
  | computeLaplacian lt => simp [Op.keepsLmax] at hop
  | estimateLmax m => simp [Op.keepsLmax] at hop
  | getLmax => show (s.getLmax S).2.lb = s.lb; unfold GState.getLmax; rw [hl]
  | computeFourierBasis k =>
    show (s.computeFourierBasis S k).2.lb = s.lb
    by_cases h : k.getD n ≤ b.k
    · rw [hcfb k h]
    · -- more eigenvectors than vertices: `eigsh` raises
      unfold GState.computeFourierBasis
      dsimp only
      have h1 : s.hasBasis (k.getD n) = false := by unfold GState.hasBasis; rw [hb]; simpa using h
      have h2 : s.decompose S (k.getD n) = .error .typeError := by
        unfold GState.decompose
        rw [if_neg (by omega), if_neg (by omega), if_pos (by omega)]
      rw [h1, h2]
      rfl
  | getBasis => show (s.getBasis S).2.lb = s.lb; unfold GState.getBasis; rw [hb]
  | getCoherence =>
    show (s.getCoherence S).2.lb = s.lb
    unfold GState.getCoherence
    rw [hcfb none (by simp [hk])]
    split <;> rfl
  | computeDiff => exact computeDiff_lb s
  | getDiff =>
    show s.getDiff.2.lb = s.lb
    unfold GState.getDiff
    split
    · rfl
    · have := computeDiff_lb s
      revert this
      cases s.computeDiff with
      | mk r t => intro h; cases r <;> exact h
  | setW M => rfl

theorem runAll_keeps (S : Solvers n) (ops : List (Op n)) (hops : ∀ op ∈ ops, op.keepsLmax = true) {s : GState n} {v : PyNum ℝ} {b : Basis n}
    (hl : s.lmax = some v) (hb : s.basis = some b) (hk : b.k = n) :
    (runAll S ops s).lmax = some v ∧ (runAll S ops s).basis = some b := by
  induction ops generalizing s with
  | nil => exact ⟨hl, hb⟩
  | cons op ops ih =>
    have h := run_keeps S (hops op (by simp)) hl hb hk
    unfold GState.lb at h
    simp only [Prod.mk.injEq] at h
    exact ih (fun o ho => hops o (List.mem_cons_of_mem _ ho)) (h.1.trans hl) (h.2.trans hb)

end solver

variable {p : ℕ} {size : Fin p → ℕ} {S : Sols size}

/-! ### The filters of a program -/

namespace Spec

/-- The filters a user obtains from the designs, from functions, and by slicing, adding, complementing or moving to another graph. -/
inductive Obtained (S : Sols size) : LFilter size → Prop
  | custom (g : Fin p) (ks : List Kernel) : Obtained S ⟨g, ks.map LKernel.fixed⟩
  | lazy {d : LazyDesign} {g : Fin p} {f : LFilter size} (h : d.build S g = .ok f) : Obtained S f
  | eager {d : EagerDesign} {g : Fin p} {h : Heap size} {f : LFilter size} (hf : (d.build S g h).1 = .ok f) : Obtained S f
  | getitem {f f' : LFilter size} (key : Bank.Key) (hf : Obtained S f) (h : f.getitem key = .ok f') : Obtained S f'
  | add {f g : LFilter size} (hf : Obtained S f) (hg : Obtained S g) : Obtained S (f.add g)
  | on {f : LFilter size} (j : Fin p) (hf : Obtained S f) : Obtained S (f.on j)
  | complement {f : LFilter size} (b : Option ℝ) (hf : Obtained S f) : Obtained S (f.complement b)

/-- The filters that a step uses. -/
def Uses (P : LFilter size → Prop) : HOp size → Prop
  | .graph _ _ => True
  | .evaluate f _ _ => P f
  | .filter f _ _ _ => P f

/-- The operations that a program requests explicitly on graph `i`. -/
def explicitOps (i : Fin p) : List (HOp size) → List (Op (size i))
  | [] => []
  | .graph j op :: prog => if h : j = i then (h ▸ op) :: explicitOps i prog else explicitOps i prog
  | _ :: prog => explicitOps i prog

end Spec

theorem eager_kernels {d : EagerDesign} {g : Fin p} {h : Heap size} {f : LFilter size} (hf : (d.build S g h).1 = .ok f) :
    ∃ l B, d.bank l = .ok B ∧ f = ⟨g, B.kernels.map LKernel.fixed⟩ := by
  unfold EagerDesign.build at hf
  split at hf
  · revert hf
    cases h.at g (Bank.lmaxNum (S g)) with
    | mk r t =>
      cases r with
      | error e => simp
      | ok l =>
        dsimp only
        intro hf
        cases hB : d.bank l with
        | error e => rw [hB] at hf; simp [Except.map] at hf
        | ok B => rw [hB] at hf; exact ⟨l, B, hB, (Except.ok.inj hf).symm⟩
  · cases hB : d.bank 0 with
    | error e => rw [hB] at hf; simp [Except.map] at hf
    | ok B => rw [hB] at hf; exact ⟨0, B, hB, (Except.ok.inj hf).symm⟩

theorem Spec.Obtained.clean {f : LFilter size} (hf : Obtained S f) : Clean S f := by
  induction hf with
  | custom g ks => exact clean_fixed g ks
  | lazy h => exact clean_lazy h
  | eager hf =>
    obtain ⟨l, B, -, rfl⟩ := eager_kernels hf
    exact clean_fixed _ _
  | getitem key _ h ih => exact clean_getitem ih key h
  | add _ _ ih1 ih2 =>
    intro k hk
    rcases List.mem_append.1 hk with h | h
    · exact ih1 k h
    · exact ih2 k h
  | on j _ ih => exact ih
  | complement b _ ih =>
    intro k hk
    simp only [LFilter.complement, List.mem_singleton] at hk
    subst hk
    exact ih.complementKernel b

theorem runAll_append {n : ℕ} (S : Solvers n) (a b : List (Op n)) (s : GState n) : runAll S (a ++ b) s = runAll S b (runAll S a s) := by
  unfold runAll; rw [List.foldl_append]

/-- **The memory is a history of the graphs' own operations.**  Whatever a program does with graphs and filters, each graph ends in a state
that is reached by the operations the program requests on it, between which `G.lmax` and `G.e` may have been read; nothing else happens to
it.  So all the properties of histories of a single graph (C17 - C21) hold in presence of filters, for any sharing. -/
theorem C99_history (prog : List (HOp size)) (hp : ∀ o ∈ prog, Uses (Obtained S) o) (h : Heap size) (i : Fin p) :
    ∃ ops : List (Op (size i)), runHeap S prog h i = runAll (S i) ops (h i) ∧ (explicitOps i prog).Sublist ops ∧
      ops.filter (fun o => !o.isRead) = (explicitOps i prog).filter (fun o => !o.isRead) := by
  induction prog generalizing h with
  | nil => exact ⟨[], rfl, List.Sublist.refl _, rfl⟩
  | cons o prog ih =>
    obtain ⟨ops, h1, h2, h3⟩ := ih (fun o ho => hp o (List.mem_cons_of_mem _ ho)) (HOp.run S h o)
    have hr : runHeap S (o :: prog) h = runHeap S prog (HOp.run S h o) := rfl
    have key : HReads S h (HOp.run S h o) → explicitOps i (o :: prog) = explicitOps i prog →
        ∃ ops : List (Op (size i)), runHeap S (o :: prog) h i = runAll (S i) ops (h i) ∧ (explicitOps i (o :: prog)).Sublist ops ∧
          ops.filter (fun o => !o.isRead) = (explicitOps i (o :: prog)).filter (fun o => !o.isRead) := by
      intro hread he
      obtain ⟨ro, hro, hst⟩ := hread i
      refine ⟨ro ++ ops, ?_, ?_, ?_⟩
      · rw [hr, h1, hst, runAll_append]
      · rw [he]; exact h2.trans (List.sublist_append_right _ _)
      · rw [he, List.filter_append, h3, List.filter_eq_nil_iff.2 (fun o ho => by simp [hro o ho]), List.nil_append]
    have hu := hp o (by simp)
    cases o with
    | graph j op =>
      by_cases hij : j = i
      · subst hij
        have hst : HOp.run S h (.graph j op) j = (op.run (S j) (h j)).2 := by
          simp [HOp.run, Heap.at]
        have he : explicitOps j (.graph j op :: prog) = op :: explicitOps j prog := by simp [explicitOps]
        refine ⟨op :: ops, ?_, ?_, ?_⟩
        · rw [hr, h1, hst]; rfl
        · rw [he]; exact h2.cons_cons op
        · rw [he, List.filter_cons, List.filter_cons, h3]
      · have hst : HOp.run S h (.graph j op) i = h i := by
          simp only [HOp.run, Heap.at]
          rw [Function.update_of_ne (Ne.symm hij)]
        have he : explicitOps i (.graph j op :: prog) = explicitOps i prog := by simp [explicitOps, hij]
        exact ⟨ops, by rw [hr, h1, hst], by rw [he]; exact h2, by rw [he]; exact h3⟩
    | evaluate f k x => exact key (hu.clean.evaluate h x) rfl
    | filter f a m order => exact key (hu.clean.filter a m order h) rfl

/-- In particular evaluating or filtering never changes the weights, the Laplacian or the Laplacian type of any graph... -/
theorem C99_graphs_intact {f : LFilter size} (hf : Obtained S f) (h : Heap size) (i : Fin p) {m : ℕ} (x : Fin m → ℝ) (a : Arr)
    (method : FMethod) (order : ℕ) :
    ((f.evaluate h x).2 i).base = (h i).base ∧ ((f.filter S a method order h).2 i).base = (h i).base := by
  obtain ⟨o1, -, h1⟩ := hf.clean.evaluate h x i
  obtain ⟨o2, -, h2⟩ := hf.clean.filter a method order h i
  rw [h1, h2, runAll_base, runAll_base]
  exact ⟨rfl, rfl⟩

/-! ### Designs that read `lmax` in the constructor -/

/-- **Designs computed at construction** (Meyer, SimpleTight, HalfCosine, Itersine, MexicanHat, Abspline): building one reads `G.lmax` at most
once; the response of the filter is that of the design for the value read then, in every later memory, and evaluating changes nothing. -/
theorem C99_eager_constant (d : EagerDesign) (g : Fin p) (h : Heap size) {f : LFilter size} (hf : (d.build S g h).1 = .ok f) :
    f.graph = g ∧ ∃ (l : ℝ) (B : Bank), d.bank l = .ok B ∧
      (d.readsLmax = true → ((h g).getLmax (S g)).1 = .ok (some (.fin l)) ∧
        (d.build S g h).2 = Function.update h g ((h g).getLmax (S g)).2) ∧
      (d.readsLmax = false → (d.build S g h).2 = h) ∧
      ∀ (h' : Heap size) (m : ℕ) (x : Fin m → ℝ),
        (f.evaluate h' x).1.map List.ofFn = (B.evaluate x).map List.ofFn ∧ (f.evaluate h' x).2 = h' := by
  have hev : ∀ (B : Bank) (h' : Heap size) (m : ℕ) (x : Fin m → ℝ),
      ((⟨g, B.kernels.map LKernel.fixed⟩ : LFilter size).evaluate h' x).1.map List.ofFn = (B.evaluate x).map List.ofFn ∧
        ((⟨g, B.kernels.map LKernel.fixed⟩ : LFilter size).evaluate h' x).2 = h' := by
    intro B h' m x
    obtain ⟨ks⟩ := B
    have hlen : (ks.map (LKernel.fixed (size := size))).length = ks.length := List.length_map ..
    have key := seqHeap_follows (P := fun h'' => h'' = h') _
      (fun i h => (ks.map (LKernel.fixed (size := size))).get i h m x) (fun i => ks.get (i.cast hlen) m x) (fun a h1 hP => ?_) (h := h') rfl
    · refine ⟨?_, key.2⟩
      have e1 : ((⟨g, ks.map LKernel.fixed⟩ : LFilter size).evaluate h' x).1 = _ := key.1
      rw [e1]
      exact seqFin_cast hlen _ _ (fun i => rfl)
    · subst hP
      simp [LKernel.fixed]
  unfold EagerDesign.build at hf ⊢
  split at hf
  · rename_i hr
    rw [if_pos hr]
    have hat : h.at g (Bank.lmaxNum (S g)) = ((Bank.lmaxNum (S g) (h g)).1, Function.update h g ((h g).getLmax (S g)).2) := by
      unfold Heap.at; rw [lmaxNum_state]
    rw [hat] at hf ⊢
    cases hl : (Bank.lmaxNum (S g) (h g)).1 with
    | error e => rw [hl] at hf; simp at hf
    | ok l =>
      rw [hl] at hf
      dsimp only at hf ⊢
      cases hB : d.bank l with
      | error e => rw [hB] at hf; simp [Except.map] at hf
      | ok B =>
        rw [hB] at hf
        have := Except.ok.inj hf
        subst this
        refine ⟨rfl, l, B, hB, fun _ => ⟨?_, rfl⟩, fun h0 => by simp [h0] at hr, hev B⟩
        revert hl
        unfold Bank.lmaxNum
        cases (h g).getLmax (S g) with
        | mk r t =>
          rcases r with e | _ | v
          · simp
          · simp
          · cases v <;> simp
  · rename_i hr
    rw [if_neg hr]
    cases hB : d.bank 0 with
    | error e => rw [hB] at hf; simp [Except.map] at hf
    | ok B =>
      rw [hB] at hf
      have := Except.ok.inj hf
      subst this
      exact ⟨rfl, 0, B, hB, fun h0 => absurd h0 hr, fun _ => rfl, hev B⟩

/-- Which of these constructors touch the graph: Meyer with scales, SimpleTight with a nonempty list of scales and HalfCosine with at most two filters (which raises) leave memory alone; all the
others ask for `G.lmax`, whatever happens afterwards. -/
theorem C99_eager_reads (g : Fin p) (h : Heap size) :
    (∀ Nf s, ((EagerDesign.meyer Nf (some s)).build S g h).2 = h) ∧
    (∀ Nf s, s ≠ [] → ((EagerDesign.simpleTight Nf (some s)).build S g h).2 = h) ∧
    (∀ Nf, Nf ≤ 2 → ((EagerDesign.halfCosine Nf).build S g h).2 = h) ∧
    (∀ d : EagerDesign, (∀ Nf s, d ≠ .meyer Nf (some s)) → (∀ Nf s, s ≠ [] → d ≠ .simpleTight Nf (some s)) → (∀ Nf, Nf ≤ 2 → d ≠ .halfCosine Nf) →
      (d.build S g h).2 = Function.update h g ((h g).getLmax (S g)).2) := by
  have hr : ∀ d : EagerDesign, d.readsLmax = true → (d.build S g h).2 = Function.update h g ((h g).getLmax (S g)).2 := by
    intro d hd
    unfold EagerDesign.build
    have hat : h.at g (Bank.lmaxNum (S g)) = ((Bank.lmaxNum (S g) (h g)).1, Function.update h g ((h g).getLmax (S g)).2) := by
      unfold Heap.at; rw [lmaxNum_state]
    rw [if_pos hd, hat]
    cases (Bank.lmaxNum (S g) (h g)).1 <;> rfl
  have hn : ∀ d : EagerDesign, d.readsLmax = false → (d.build S g h).2 = h := by
    intro d hd
    unfold EagerDesign.build
    rw [if_neg (by simp [hd])]
  refine ⟨fun Nf s => hn _ rfl, fun Nf s hs => hn _ (by simpa [EagerDesign.readsLmax] using hs), fun Nf hN => hn _ (by simpa [EagerDesign.readsLmax] using hN), fun d h1 h2 h3 => hr d ?_⟩
  cases d with
  | meyer Nf s =>
    cases s with
    | none => rfl
    | some s => exact absurd rfl (h1 Nf s)
  | simpleTight Nf s =>
    cases s with
    | none => rfl
    | some s =>
      by_cases hs : s = []
      · simp [EagerDesign.readsLmax, hs]
      · exact absurd rfl (h2 Nf s hs)
  | halfCosine Nf =>
    by_cases hs : Nf ≤ 2
    · exact absurd rfl (h3 Nf hs)
    · simpa [EagerDesign.readsLmax] using hs
  | _ => rfl

/-! ### Designs that read `lmax` when they are called -/

/-- **Designs evaluated lazily** (Heat, Wave, Expwin, Rectangular, Held, Papadakis, Simoncelli, Regular): the constructor does not touch
memory; whenever the filter is evaluated, wherever it has been moved by `f(G2)`, the response is that of the design for the *current*
`lmax` of the graph given to the constructor, and memory changes at most by the computation of that `lmax`. -/
theorem C99_lazy_current (d : LazyDesign) (g : Fin p) {f : LFilter size} (hf : d.build S g = .ok f) :
    f.graph = g ∧ ∃ B : ℝ → Bank, (∀ l, d.bank l = .ok (B l)) ∧
      ∀ (j : Fin p) (h : Heap size) (l : ℝ), ((h g).getLmax (S g)).1 = .ok (some (.fin l)) → ∀ (m : ℕ) (x : Fin m → ℝ),
        ((f.on j).evaluate h x).1.map List.ofFn = ((B l).evaluate x).map List.ofFn ∧
        (((f.on j).evaluate h x).2 = h ∨ ((f.on j).evaluate h x).2 = Function.update h g ((h g).getLmax (S g)).2) := by
  obtain ⟨h1, B, h2, h3⟩ := build_tracks hf
  exact ⟨h1, B, h2, fun j h l hl m x => (h3.on j).evaluate (lmaxNum_of hl) x⟩

/-- Filtering with a lazy design, on any graph `j`: by Chebyshev polynomials, the result is that of the design for the current `lmax` of the
graph `g` of the constructor; exactly, it is that of the design for the `lmax` that graph `g` has once `G.e` of graph `j` has been computed. -/
theorem C99_lazy_filter (d : LazyDesign) (g : Fin p) {f : LFilter size} (hf : d.build S g = .ok f) :
    ∃ B : ℝ → Bank, (∀ l, d.bank l = .ok (B l)) ∧ ∀ (j : Fin p) (h : Heap size) (a : Arr) (order : ℕ),
      (∀ l, ((h g).getLmax (S g)).1 = .ok (some (.fin l)) →
        ((f.on j).filter S a .chebyshev order h).1 = ((B l).filter (S j) a .chebyshev order (h j)).1) ∧
      ∀ b l, ((h j).getBasis (S j)).1 = .ok (some b) →
        ((Function.update h j ((h j).getBasis (S j)).2 g).getLmax (S g)).1 = .ok (some (.fin l)) →
        ((f.on j).filter S a .exact order h).1 = ((B l).filter (S j) a .exact order (h j)).1 := by
  obtain ⟨-, B, h2, h3⟩ := build_tracks hf
  refine ⟨B, h2, fun j h a order => ⟨fun l hl => (h3.on j).filter_cheb (lmaxNum_of hl) a order, fun b l hb hl => ?_⟩⟩
  have hb' : (h (f.on j).graph).getBasis (S (f.on j).graph) = (.ok (some b), ((h j).getBasis (S j)).2) :=
    Prod.ext hb rfl
  exact (h3.on j).filter_exact hb' (lmaxNum_of hl) a order

/-- `f @ s`, `compute_frame` and `f.toarray()` are those of the design for the current `lmax`. -/
theorem C99_lazy_frame (d : LazyDesign) (g : Fin p) {f : LFilter size} (hf : d.build S g = .ok f) :
    ∃ B : ℝ → Bank, (∀ l, d.bank l = .ok (B l)) ∧ ∀ (h : Heap size) (l : ℝ), ((h g).getLmax (S g)).1 = .ok (some (.fin l)) →
      (∀ a, (f.matmul S a h).1 = ((B l).filter (S g) a .chebyshev 30 (h g)).1) ∧
      (f.toarray S h).1 = ((B l).computeFrame (S g) .chebyshev 30 (h g)).1 ∧
      ∀ order, (f.computeFrame S .chebyshev order h).1 = ((B l).computeFrame (S g) .chebyshev order (h g)).1 := by
  obtain ⟨h1, B, h2, h3⟩ := build_tracks hf
  subst h1
  refine ⟨B, h2, fun h l hl => ?_⟩
  have hfr : ∀ order, (f.computeFrame S .chebyshev order h).1 = ((B l).computeFrame (S f.graph) .chebyshev order (h f.graph)).1 := by
    intro order
    have := h3.filter_cheb (lmaxNum_of hl) (Arr.of2 fun i j : Fin (size f.graph) => if i = j then 1 else 0) order
    unfold LFilter.computeFrame Bank.computeFrame
    revert this
    cases f.filter S (Arr.of2 fun i j : Fin (size f.graph) => if i = j then 1 else 0) .chebyshev order h with
    | mk r t =>
      cases (B l).filter (S f.graph) (Arr.of2 fun i j : Fin (size f.graph) => if i = j then 1 else 0) .chebyshev order (h f.graph) with
      | mk r' t' =>
        rintro ⟨⟩
        cases r <;> rfl
  exact ⟨fun a => h3.filter_cheb (lmaxNum_of hl) a 30, hfr 30, hfr⟩

/-- **In a program.**  Graphs with non-negative weights and at least two vertices, whose Laplacian type is not changed, filters shared in any
way: evaluating a lazy design never fails for lack of an `lmax`; the response is that of the design for a number `l` that bounds the
spectrum of the graph of the constructor (ARPACK reaching its tolerance). -/
theorem C99_lazy_in_program (gs : (i : Fin p) → Graph (size i) ℝ) (hg : ∀ i, (gs i).Built) (prog : List (HOp size))
    (hp : ∀ o ∈ prog, Uses (Obtained S) o) (g : Fin p) (hS : Sound (S g)) (hc : ∀ t L, ((S g).eigshLM t L).isSome)
    (hW : NonnegW (gs g).W.dense) (hn : 2 ≤ size g) (hkeep : ∀ lt, Op.computeLaplacian lt ∈ explicitOps g prog → lt = (gs g).lapType)
    (d : LazyDesign) {f : LFilter size} (hf : d.build S g = .ok f) (j : Fin p) :
    let h := runHeap S prog fun i => ofGraph (gs i)
    ∃ (l : ℝ) (B : Bank), d.bank l = .ok B ∧ ((h g).getLmax (S g)).1 = .ok (some (.fin l)) ∧
      (NearLM (S g) → ∀ e, IsEigenvalue (h g).L e → e ≤ l) ∧
      ∀ (m : ℕ) (x : Fin m → ℝ), ((f.on j).evaluate h x).1.map List.ofFn = (B.evaluate x).map List.ofFn := by
  intro h
  obtain ⟨ops, h1, -, h3⟩ := C99_history prog hp (fun i => ofGraph (gs i)) g
  obtain ⟨l, hl, hb⟩ := C19_lmax_is_a_number hS hc (hg g) hW hn ops (fun lt hlt => hkeep lt (by
    have : Op.computeLaplacian lt ∈ ops.filter (fun o => !o.isRead) := List.mem_filter.2 ⟨hlt, rfl⟩
    rw [h3] at this
    exact (List.mem_filter.1 this).1)) h1
  obtain ⟨-, B, h4, h5⟩ := C99_lazy_current d g hf
  exact ⟨l, B l, h4 l, hl, hb, fun m x => (h5 j h l hl m x).1⟩

/-- **Stability.**  Once the complete Fourier basis of the graph has been computed, the response of a lazy design does not change any more,
whatever the program does, unless it calls `compute_laplacian` or `estimate_lmax` on that graph. -/
theorem C99_lazy_stable (d : LazyDesign) (g : Fin p) {f : LFilter size} (hf : d.build S g = .ok f) (h : Heap size) {l : ℝ}
    {b : Basis (size g)} (hl : (h g).lmax = some (.fin l)) (hb : (h g).basis = some b) (hk : b.k = size g) (prog : List (HOp size))
    (hp : ∀ o ∈ prog, Uses (Obtained S) o) (hkeep : ∀ o ∈ explicitOps g prog, o.keepsLmax = true) {m : ℕ} (x : Fin m → ℝ) :
    (f.evaluate (runHeap S prog h) x).1 = (f.evaluate h x).1 := by
  obtain ⟨ops, h1, -, h3⟩ := C99_history prog hp h g
  obtain ⟨h4, h5⟩ := runAll_keeps (S g) ops (fun o ho => by
    by_cases hr : o.isRead = true
    · cases o <;> simp_all [Op.isRead, Op.keepsLmax]
    · have : o ∈ ops.filter (fun o => !o.isRead) := List.mem_filter.2 ⟨ho, by simpa using hr⟩
      rw [h3] at this
      exact hkeep o (List.mem_filter.1 this).1) hl hb hk
  rw [← h1] at h4
  obtain ⟨-, B, -, hT⟩ := build_tracks hf
  obtain ⟨G, hG, -⟩ := hT.get
  rw [(evaluate_follows f G hG (lmaxNum_of_lmax h4) x).1, (evaluate_follows f G hG (lmaxNum_of_lmax hl) x).1]

/-! ### Banks -/

/-- the kernels of a list, in order -/
def evalList (ks : List (LKernel size)) (h : Heap size) {m : ℕ} (x : Fin m → ℝ) : Py (List (Fin m → ℝ)) × Heap size :=
  match ks with
  | [] => (.ok [], h)
  | k :: ks =>
    match k h m x with
    | (.error e, h) => (.error e, h)
    | (.ok y, h) =>
      match evalList ks h x with
      | (.error e, h) => (.error e, h)
      | (.ok ys, h) => (.ok (y :: ys), h)

theorem evalList_cons (k : LKernel size) (ks : List (LKernel size)) (h : Heap size) {m : ℕ} (x : Fin m → ℝ) :
    evalList (k :: ks) h x = (match k h m x with
    | (.error e, h) => (.error e, h)
    | (.ok y, h) =>
      match evalList ks h x with
      | (.error e, h) => (.error e, h)
      | (.ok ys, h) => (.ok (y :: ys), h)) := by
  conv_lhs => unfold evalList

theorem evaluate_cons (gr : Fin p) (k : LKernel size) (ks : List (LKernel size)) (h : Heap size) {m : ℕ} (x : Fin m → ℝ) :
    (⟨gr, k :: ks⟩ : LFilter size).evaluate h x = (match k h m x with
      | (.error e, h) => (.error e, h)
      | (.ok a, h) =>
        match (⟨gr, ks⟩ : LFilter size).evaluate h x with
        | (.error e, h) => (.error e, h)
        | (.ok g, h) => (.ok (Fin.cons a g : Fin (ks.length + 1) → Fin m → ℝ), h) :
        Py (Fin (ks.length + 1) → Fin m → ℝ) × Heap size) := by
  show seqHeap (ks.length + 1) (fun i h => (k :: ks).get i h m x) h = _
  generalize hF : (fun (i : Fin (ks.length + 1)) (h : Heap size) => (k :: ks).get i h m x) = F
  have h0 : F 0 h = k h m x := by rw [← hF]; rfl
  have h1 : ∀ h', seqHeap ks.length (fun i => F i.succ) h' = (⟨gr, ks⟩ : LFilter size).evaluate h' x := by
    intro h'; rw [← hF]; rfl
  unfold seqHeap
  rw [h0]
  cases k h m x with
  | mk r t =>
    cases r with
    | error e => rfl
    | ok y =>
      dsimp only
      rw [h1]
      cases (⟨gr, ks⟩ : LFilter size).evaluate t x with
      | mk r u => cases r <;> rfl

theorem evaluate_eq_evalList (gr : Fin p) (ks : List (LKernel size)) (h : Heap size) {m : ℕ} (x : Fin m → ℝ) :
    (((⟨gr, ks⟩ : LFilter size).evaluate h x).1.map List.ofFn, ((⟨gr, ks⟩ : LFilter size).evaluate h x).2) = evalList ks h x := by
  induction ks generalizing h with
  | nil => rfl
  | cons k ks ih =>
    rw [evaluate_cons, evalList_cons]
    cases k h m x with
    | mk r t =>
      cases r with
      | error e => rfl
      | ok y =>
        dsimp only
        rw [← ih t]
        cases (⟨gr, ks⟩ : LFilter size).evaluate t x with
        | mk r u =>
          cases r with
          | error e => rfl
          | ok z => simp [Except.map, List.ofFn_succ]

theorem evalList_append (ks ks' : List (LKernel size)) (h : Heap size) {m : ℕ} (x : Fin m → ℝ) :
    evalList (ks ++ ks') h x = (match evalList ks h x with
      | (.error e, h) => (.error e, h)
      | (.ok y, h) =>
        match evalList ks' h x with
        | (.error e, h) => (.error e, h)
        | (.ok z, h) => (.ok (y ++ z), h)) := by
  induction ks generalizing h with
  | nil =>
    simp only [List.nil_append, evalList]
    cases evalList ks' h x with
    | mk r t => cases r <;> rfl
  | cons k ks ih =>
    rw [List.cons_append, evalList_cons, evalList_cons]
    cases k h m x with
    | mk r t =>
      cases r with
      | error e => rfl
      | ok y =>
        dsimp only
        rw [ih t]
        cases evalList ks t x with
        | mk r u =>
          cases r with
          | error e => rfl
          | ok z =>
            dsimp only
            cases evalList ks' u x with
            | mk r v => cases r <;> rfl

/-- `f + g` is a bank on the graph of `f`: `len(f + g) = len(f) + len(g)`, and its responses are those of `f`, then those of `g` (evaluated in
the memory that evaluating `f` leaves). -/
theorem C99_add (f g : LFilter size) (h : Heap size) {m : ℕ} (x : Fin m → ℝ) :
    (f.add g).graph = f.graph ∧ (f.add g).Nf = f.Nf + g.Nf ∧
    ∀ y z, (f.evaluate h x).1 = .ok y → (g.evaluate (f.evaluate h x).2 x).1 = .ok z →
      ((f.add g).evaluate h x).1.map List.ofFn = .ok (List.ofFn y ++ List.ofFn z) ∧
      ((f.add g).evaluate h x).2 = (g.evaluate (f.evaluate h x).2 x).2 := by
  refine ⟨rfl, List.length_append .., fun y z hy hz => ?_⟩
  have e1 := evaluate_eq_evalList (f.add g).graph (f.kernels ++ g.kernels) h x
  have e2 := evaluate_eq_evalList f.graph f.kernels h x
  have e3 := evaluate_eq_evalList g.graph g.kernels (f.evaluate h x).2 x
  have hy' : ((⟨f.graph, f.kernels⟩ : LFilter size).evaluate h x).1 = .ok y := hy
  have hz' : ((⟨g.graph, g.kernels⟩ : LFilter size).evaluate (f.evaluate h x).2 x).1 = .ok z := hz
  rw [hy'] at e2
  rw [hz'] at e3
  rw [evalList_append, ← e2] at e1
  dsimp only [Except.map] at e1
  have e4 : ((⟨f.graph, f.kernels⟩ : LFilter size).evaluate h x).2 = (f.evaluate h x).2 := rfl
  rw [e4, ← e3] at e1
  dsimp only [Except.map] at e1
  exact ⟨congrArg Prod.fst e1, congrArg Prod.snd e1⟩

/-- `f(G2)` keeps every kernel: same length, same responses in every memory; only filtering uses the new graph. -/
theorem C99_call (f : LFilter size) (j : Fin p) (h : Heap size) {m : ℕ} (x : Fin m → ℝ) :
    (f.on j).graph = j ∧ (f.on j).Nf = f.Nf ∧ (f.on j).evaluate h x = f.evaluate h x := ⟨rfl, rfl, rfl⟩

/-- `f[i]` is the bank with the `i`-th filter only (negative indices count from the end, IndexError outside); its response is the `i`-th
response of `f`, on the same graph. -/
theorem C99_getitem (f : LFilter size) (i : ℤ) :
    (¬ (-(f.Nf : ℤ) ≤ i ∧ i < f.Nf) → f.getitem (.idx i) = .error .indexError) ∧
    ∀ (_ : -(f.Nf : ℤ) ≤ i ∧ i < f.Nf), ∃ (a : Fin f.Nf) (f' : LFilter size),
      (a : ℤ) = (if i < 0 then i + f.Nf else i) ∧ f.getitem (.idx i) = .ok f' ∧ f'.graph = f.graph ∧ f'.Nf = 1 ∧
      ∀ (h : Heap size) (m : ℕ) (x : Fin m → ℝ), (f'.evaluate h x).1.map List.ofFn = (f.kernels.get a h m x).1.map fun y => [y] := by
  constructor
  · intro hi
    simp only [LFilter.getitem]
    by_cases h : i < 0
    · rw [if_pos h]
      rw [if_pos (by omega)]
    · rw [if_neg h, if_neg h, List.getElem?_eq_none (by show f.Nf ≤ _; omega)]
  · rintro ⟨h1, h2⟩
    have hj : 0 ≤ (if i < 0 then i + (f.Nf : ℤ) else i) ∧ (if i < 0 then i + (f.Nf : ℤ) else i) < f.Nf := by
      split <;> omega
    generalize hjd : (if i < 0 then i + (f.Nf : ℤ) else i) = j at hj
    have hlt : j.toNat < f.kernels.length := by show j.toNat < f.Nf; omega
    refine ⟨⟨j.toNat, hlt⟩, ⟨f.graph, [f.kernels[j.toNat]]⟩, by simp only; omega, ?_, rfl, rfl, fun h m x => ?_⟩
    · simp only [LFilter.getitem]
      rw [hjd, if_neg (by omega), List.getElem?_eq_getElem hlt]
    · have e : ((⟨f.graph, [f.kernels[j.toNat]]⟩ : LFilter size).evaluate h x).1.map List.ofFn = (evalList [f.kernels[j.toNat]] h x).1 :=
        congrArg Prod.fst (evaluate_eq_evalList f.graph [f.kernels[j.toNat]] h x)
      rw [e]
      simp only [evalList, List.get_eq_getElem]
      cases f.kernels[j.toNat] h m x with
      | mk r t => cases r <;> rfl

/-! ### Findings -/

theorem heat_eval (g j : Fin p) (sc : ℝ) {f : LFilter size} (hf : (LazyDesign.heat [sc]).build S g = .ok f) {h : Heap size} {l : ℝ}
    (hl : ((h g).getLmax (S g)).1 = .ok (some (.fin l))) (x : ℝ) :
    ((f.on j).evaluate h ![x]).1.map List.ofFn = .ok [fun _ => Design.heatKernel l sc x] := by
  obtain ⟨-, B, h2, h3⟩ := C99_lazy_current _ g hf
  rw [(h3 j h l hl 1 ![x]).1]
  have : B l = Design.heat l [sc] none := Except.ok.inj ((h2 l).symm.trans rfl)
  rw [this]
  show Except.ok _ = _
  congr 1
  show [_] = [_]
  congr 1
  funext i
  fin_cases i
  simp
  rfl

theorem heatKernel_inj {sc x l l' : ℝ} (hs : 0 < sc) (hx : 0 < x) (hl : 0 < l) (hl' : 0 < l') (h : Design.heatKernel l sc x = Design.heatKernel l' sc x) :
    l = l' := by
  have hm : ∀ l, 0 < l → Design.heatKernel l sc x = Real.exp (-sc * x / l) := by
    intro l hl
    unfold Design.heatKernel
    apply min_eq_left
    rw [Real.exp_le_one_iff]
    apply div_nonpos_of_nonpos_of_nonneg _ hl.le
    nlinarith [mul_pos hs hx]
  rw [hm l hl, hm l' hl', Real.exp_eq_exp, div_eq_div_iff hl.ne' hl'.ne'] at h
  have h0 : sc * x ≠ 0 := (mul_pos hs hx).ne'
  have : sc * x * l' = sc * x * l := by linarith
  exact (mul_left_cancel₀ h0 this).symm

/-- **Reading `G.e` changes the filters already built.**  On every graph just constructed (non-negative weights, at least two vertices, not all
isolated), the response of a heat kernel at any positive eigenvalue before and after the Fourier basis is computed are different numbers:
`lmax` goes from 1.01 times the largest eigenvalue to that eigenvalue. -/
theorem C99_response_changes_violated {n : ℕ} {T : Solvers n} (hS : Sound T) (hc : Converges T) (hE : ExactLM T) {g : Graph n ℝ} (hg : g.Built)
    (hW : NonnegW g.W.dense) (hn : 2 ≤ n) (hpos : ∃ e, 0 < e ∧ IsEigenvalue (ofGraph g).L e) {sc x : ℝ} (hs : 0 < sc) (hx : 0 < x)
    {f : LFilter (fun _ : Fin 1 => n)} (hf : (LazyDesign.heat [sc]).build (fun _ => T) 0 = .ok f) :
    let h : Heap (fun _ : Fin 1 => n) := fun _ => ofGraph g
    let h' := runHeap (fun _ => T) [.graph 0 .getBasis] h
    ∃ y y', (f.evaluate h ![x]).1.map List.ofFn = .ok [fun _ => y] ∧ (f.evaluate h' ![x]).1.map List.ofFn = .ok [fun _ => y'] ∧ y ≠ y' := by
  intro h h'
  obtain ⟨hi, hb0, hl0, hm0, hmm0, hnb⟩ := ofGraph_inv (S := T) g hg
  have hW0 : NonnegW (ofGraph g).W.dense := by unfold GState.W; rw [hb0]; exact hW
  have hk0 : Known (ofGraph g).lapType := by rw [hl0]; exact hg.lapType_known
  obtain ⟨r, t, hr, hlm⟩ := fresh_lmax hS hc.1 hg hW hn
  obtain ⟨hre, hrm⟩ := hE t _ hi.L_symm r hr (hi.psd hW0)
  obtain ⟨h1, b, hbp, h2, h3, h4, h5, h6⟩ := C20_lmax_exact hS hg hW (by omega) [] (s := ofGraph g) rfl hk0 (by rw [hnb]; simp)
  set v := b.e ⟨b.k - 1, by omega⟩ with hv
  have hrv : r = v := le_antisymm (h6 _ hre) (hrm _ h5)
  obtain ⟨e0, he0, he1⟩ := hpos
  have hv0 : 0 < v := lt_of_lt_of_le he0 (h6 _ he1)
  have hh' : h' 0 = ((ofGraph g).computeFourierBasis T none).2 := by
    show ((h 0).getBasis T).2 = _
    show ((ofGraph g).getBasis T).2 = _
    unfold GState.getBasis
    rw [hnb]
    revert h1
    cases (ofGraph g).computeFourierBasis T none with
    | mk q t => intro h1; cases q <;> rfl
  refine ⟨_, _, heat_eval (S := fun _ => T) 0 0 sc hf (h := h) hlm x, heat_eval (S := fun _ => T) 0 0 sc hf (h := h') (l := v) ?_ x, ?_⟩
  · rw [hh']; exact h4
  · intro he
    have := heatKernel_inj hs hx (by rw [hrv]; positivity) hv0 he
    rw [hrv] at this
    linarith

/-- **`f(G2)` is not the design on `G2`.**  A heat kernel built on `G1` and moved to `G2` by `f(G2)` has not the response of the heat kernel
built on `G2`, as soon as the two graphs have different `lmax`. -/
theorem C99_call_lmax_violated (g1 g2 : Fin p) {sc x : ℝ} (hs : 0 < sc) (hx : 0 < x) {f1 f2 : LFilter size}
    (hf1 : (LazyDesign.heat [sc]).build S g1 = .ok f1) (hf2 : (LazyDesign.heat [sc]).build S g2 = .ok f2) {h : Heap size} {l1 l2 : ℝ}
    (hl1 : ((h g1).getLmax (S g1)).1 = .ok (some (.fin l1))) (hl2 : ((h g2).getLmax (S g2)).1 = .ok (some (.fin l2))) (h1 : 0 < l1)
    (h2 : 0 < l2) (hne : l1 ≠ l2) :
    (f1.on g2).graph = f2.graph ∧ ((f1.on g2).evaluate h ![x]).1.map List.ofFn ≠ (f2.evaluate h ![x]).1.map List.ofFn := by
  have e2 : f2.graph = g2 := (build_tracks hf2).1
  refine ⟨by rw [e2]; rfl, ?_⟩
  have h4 := heat_eval g2 g2 sc hf2 hl2 x
  have h5 : f2.on g2 = f2 := by obtain ⟨a, b⟩ := f2; simp only at e2; subst e2; rfl
  rw [h5] at h4
  rw [heat_eval g1 g2 sc hf1 hl1 x, h4]
  intro h
  simp only [Except.ok.injEq, List.cons.injEq, and_true] at h
  exact hne (heatKernel_inj hs hx h1 h2 (congrFun h 0))

/-! ### The hypotheses are satisfied -/

/-- a graph, solvers and a filter to which the theorems apply -/
example : ∃ (g : Graph 2 ℝ) (T : Solvers 2), g.Built ∧ NonnegW g.W.dense ∧ Sound T ∧ Converges T ∧ ExactLM T ∧
    (∃ e, 0 < e ∧ IsEigenvalue (ofGraph g).L e) ∧
    ∃ f : LFilter (fun _ : Fin 1 => 2), (LazyDesign.heat [1]).build (fun _ => T) 0 = .ok f ∧ Obtained (fun _ => T) f ∧
      Obtained (fun _ => T) (f.add (f.complement none)) := by
  obtain ⟨T, h1, h2, h3⟩ := exists_exact 2 (by norm_num)
  obtain ⟨g, hg, hd, hl⟩ := Graph.exists_built (K := ℝ) !![0, 1; 1, 0]
  have hW : NonnegW g.W.dense := by rw [hd]; intro i j; fin_cases i <;> fin_cases j <;> simp
  obtain ⟨hi, hb0, hl0, -⟩ := ofGraph_inv (S := T) g hg
  refine ⟨g, T, hg, hW, h1, h2, h3, ⟨2, by norm_num, ![1, -1], ?_, ?_⟩, _, rfl, .lazy (d := .heat [1]) (g := 0) rfl,
    .add (.lazy (d := .heat [1]) (g := 0) rfl) (.complement none (.lazy (d := .heat [1]) (g := 0) rfl))⟩
  · intro h; have := congrFun h 0; simp at this
  · have h1 := (C18_laplacian h1 hg [] rfl).2 (by show Known (ofGraph g).lapType; rw [hl0]; exact hg.lapType_known)
    change laplacian g.W (ofGraph g).lapType = .ok (ofGraph g).L at h1
    rw [hl0, hl, laplacian_comb, hd] at h1
    rw [← Except.ok.inj h1]
    have hdeg : ∀ i, wdeg (!![0, 1; 1, 0] : Matrix (Fin 2) (Fin 2) ℝ) i = 1 := by
      intro i; fin_cases i <;> simp [wdeg]
    funext i
    simp only [Matrix.mulVec, dotProduct, combLap, Matrix.of_apply, Fin.sum_univ_two, hdeg, Pi.smul_apply, smul_eq_mul]
    fin_cases i <;> simp [wsym] <;> norm_num

/-- any graph with non-negative weights, after `compute_fourier_basis()`, meets the hypotheses of `C99_lazy_stable` -/
example {n : ℕ} {T : Solvers n} (hS : Sound T) {g : Graph n ℝ} (hg : g.Built) (hW : NonnegW g.W.dense) (hn : 2 ≤ n) :
    ∃ (h : Heap (fun _ : Fin 1 => n)) (l : ℝ) (b : Basis n), (h 0).lmax = some (.fin l) ∧ (h 0).basis = some b ∧ b.k = n := by
  obtain ⟨-, -, hl0, -, -, hnb⟩ := ofGraph_inv (S := T) g hg
  obtain ⟨-, b, hbp, h2, h3, h4, -⟩ := C20_lmax_exact hS hg hW (by omega) [] (s := ofGraph g) rfl
    (by rw [hl0]; exact hg.lapType_known) (by rw [hnb]; simp)
  refine ⟨fun _ => (((ofGraph g).computeFourierBasis T none).2.getLmax T).2, _, b, lmaxNum_lmax (lmaxNum_of h4), ?_, h3⟩
  rw [getLmax_basis]; exact h2

/-- a design computed at construction can be built on any graph whose `lmax` is a number -/
example (h : Heap size) (g : Fin p) (l : ℝ) (hl : ((h g).getLmax (S g)).1 = .ok (some (.fin l))) :
    ∃ f, ((EagerDesign.itersine 6 2).build S g h).1 = .ok f := by
  have : (EagerDesign.itersine 6 2).readsLmax = true := rfl
  unfold EagerDesign.build
  rw [if_pos this]
  have hat : h.at g (Bank.lmaxNum (S g)) = (.ok l, Function.update h g ((h g).getLmax (S g)).2) := by
    unfold Heap.at; rw [lmaxNum_of hl]
  rw [hat]
  exact ⟨_, rfl⟩

end PyGSP
