import Verif.Model.Multires
import Verif.Props.Sparsify
import Verif.Props.Interp

/-!
# C65: `graph_multiresolution`
-/

namespace PyGSP

open Matrix Spec GState Reduction

variable {n : ℕ}

namespace Reduction

theorem npSign_mul_self (x : ℝ) : 0 ≤ x * npSign x := by
  unfold npSign
  split
  · linarith
  · split <;> linarith

/-- choosing the vertices only touches the cached basis -/
theorem polarity_spec {E : Env} {s s' : GState n} {V : Fin n → ℝ} (h : polarity E s = (.ok V, s')) :
    (∃ hn : 0 < n, 0 ≤ V ⟨0, hn⟩) ∧ s'.L = s.L ∧ s'.base = s.base ∧ s'.lapType = s.lapType ∧ s'.directed = s.directed := by
  unfold polarity at h
  split at h
  · rename_i hn
    split at h
    · rename_i b hb
      split at h
      · simp only [Prod.mk.injEq, Except.ok.injEq] at h
        obtain ⟨rfl, rfl⟩ := h
        refine ⟨⟨hn, ?_⟩, rfl, rfl, rfl, rfl⟩
        simp only [Matrix.of_apply, if_true]
        exact npSign_mul_self _
      · cases h
    · split at h
      · cases h
      · split at h
        · cases h
        · simp only [Prod.mk.injEq, Except.ok.injEq] at h
          obtain ⟨rfl, rfl⟩ := h
          exact ⟨⟨hn, npSign_mul_self _⟩, rfl, rfl, rfl, rfl⟩
  · cases h

theorem kronGraph_congr {R : Type} {k : ℕ} {s s' : GState n} (h1 : s'.L = s.L) (h2 : s'.base = s.base) (h3 : s'.lapType = s.lapType)
    (h4 : s'.directed = s.directed) (c : Coords n R) (ind : Fin k → Fin n) : kronGraph s' c ind = kronGraph s c ind := by
  unfold kronGraph
  have : s'.isDirected.1 = s.isDirected.1 := by
    unfold GState.isDirected GState.W
    rw [h2, h4]
    split <;> rfl
  rw [h1, h3, this]

theorem positives_strictMono (V : Fin n → ℝ) : StrictMono (positives V).get := by
  have h : (positives V).Pairwise (· < ·) := by
    unfold positives
    exact (List.pairwise_lt_finRange n).filter _
  exact List.pairwise_iff_get.1 h

theorem mem_positives {V : Fin n → ℝ} {i : Fin n} : i ∈ positives V ↔ 0 ≤ V i := by
  simp [positives]

theorem kronGraph_ok {R : Type} {k : ℕ} {s : GState n} {c : Coords n R} {ind : Fin k → Fin n} {r} (h : kronGraph s c ind = .ok r) :
    2 ≤ k ∧ (∃ v, ∀ a, ind a ≠ v) ∧ c ≠ .missing := by
  unfold kronGraph at h
  split at h
  · cases h
  · split at h
    · cases h
    · split at h
      · cases h
      · rename_i L hL
        unfold kronMatrix at hL
        split at hL
        · cases hL
        · rename_i hk
          push Not at hk
          split at h
          · cases h
          · obtain ⟨h1, v, hv⟩ := hk
            refine ⟨by omega, ⟨v, ?_⟩, ?_⟩
            · intro a ha
              exact hv (by unfold kept; simp only [decide_eq_true_eq]; exact ⟨a, ha⟩)
            · rintro rfl
              cases h

/-- what a successful pass does -/
theorem mrStep_ok {R : Type} {E : Env} {o : MrOptions} {eps : ℝ} {level : ℕ} {g g' g1 : Node R}
    (h : mrStep E o eps level g = (.ok g', g1)) :
    ∃ V s, polarity E g.st = (.ok V, s) ∧ g1 = { g with st := s } ∧
      ∃ gr c gr2 c2 st, kronGraph s g.coords (positives V).get = .ok (gr, c) ∧
        sparsifyLevel E o.sparsify eps level gr c = .ok (gr2, c2) ∧ prepare E o.fullEigen (GState.ofGraph gr2) = (.ok (), st) ∧
        g' = ⟨(positives V).length, st, c2, fun a => ((positives V).get a).1, fun a => g.orig ((positives V).get a)⟩ := by
  unfold mrStep at h
  split at h
  · cases h
  · split at h
    · cases h
    · rename_i V s hp
      simp only at h
      split at h
      · cases h
      · split at h
        · cases h
        · rename_i gr c hk
          split at h
          · cases h
          · rename_i gr2 c2 hsp
            split at h
            · cases h
            · rename_i st hpr
              split at h
              · cases h
              · simp only [Prod.mk.injEq, Except.ok.injEq] at h
                obtain ⟨rfl, rfl⟩ := h
                exact ⟨V, s, hp, rfl, gr, c, gr2, c2, st, hk, hsp, hpr, rfl⟩

/-- How a graph of the list refers to the previous one: the entry `idx` of `mr` lists the kept vertices, in increasing order,
the first vertex among them and at least one missing; `orig_idx` is composed accordingly. -/
def Follows {R : Type} (g g' : Node R) : Prop :=
  2 ≤ g'.n ∧ g'.n < g.n ∧ ∃ f : Fin g'.n → Fin g.n, StrictMono f ∧ (∀ a, g'.idx a = (f a).1) ∧ (∃ a, (f a).1 = 0) ∧
    ∀ a, g'.orig a = g.orig (f a)

theorem mrStep_follows {R : Type} {E : Env} {o : MrOptions} {eps : ℝ} {level : ℕ} {g g' g1 : Node R}
    (h : mrStep E o eps level g = (.ok g', g1)) :
    (g1.n = g.n ∧ HEq g1.orig g.orig ∧ HEq g1.coords g.coords ∧ HEq g1.idx g.idx) ∧ Follows g g' := by
  obtain ⟨V, s, hp, rfl, gr, c, gr2, c2, st, hk, -, -, rfl⟩ := mrStep_ok h
  obtain ⟨h2, ⟨v, hv⟩, -⟩ := kronGraph_ok hk
  obtain ⟨⟨hn, h0⟩, -⟩ := polarity_spec hp
  refine ⟨⟨rfl, HEq.rfl, HEq.rfl, HEq.rfl⟩, h2, ?_, (positives V).get, positives_strictMono V, fun _ => rfl, ?_, fun _ => rfl⟩
  · have hinj : Function.Injective (positives V).get := (positives_strictMono V).injective
    have h1 : Fintype.card (Fin (positives V).length) < Fintype.card (Fin g.n) :=
      Fintype.card_lt_of_injective_of_notMem _ hinj (b := v) (by rintro ⟨a, ha⟩; exact hv a ha)
    simpa using h1
  · obtain ⟨a, ha⟩ := List.get_of_mem (mem_positives.2 h0)
    exact ⟨a, by rw [ha]⟩

theorem mrLoop_chain {R : Type} {E : Env} {o : MrOptions} {eps : ℝ} (levels : ℕ) :
    ∀ {i : ℕ} {g : Node R} {Gs}, mrLoop E o eps levels i g = (Gs, none) →
      Gs.length = levels + 1 ∧ (∃ s, Gs.head? = some { g with st := s }) ∧ List.IsChain Follows Gs := by
  induction levels with
  | zero =>
    intro i g Gs h
    simp only [mrLoop, Prod.mk.injEq, and_true] at h
    subst h
    exact ⟨rfl, ⟨g.st, rfl⟩, List.isChain_singleton _⟩
  | succ levels ih =>
    intro i g Gs h
    unfold mrLoop at h
    split at h
    · cases h
    · rename_i g' g1 hstep
      simp only [Prod.mk.injEq] at h
      obtain ⟨rest, hrest⟩ : ∃ rest, mrLoop E o eps levels (i + 1) g' = (rest, none) := ⟨_, Prod.ext rfl h.2⟩
      rw [hrest] at h
      obtain ⟨h1, ⟨s', hs'⟩, h3⟩ := ih hrest
      obtain ⟨V, s, hp, e1, -⟩ := mrStep_ok hstep
      obtain ⟨-, hf⟩ := mrStep_follows hstep
      subst e1
      rw [← h.1]
      refine ⟨by simp [h1], ⟨s, rfl⟩, ?_⟩
      cases rest with
      | nil => cases hs'
      | cons a t =>
        simp only [List.head?_cons, Option.some.injEq] at hs'
        subst hs'
        exact List.isChain_cons_cons.2 ⟨hf, h3⟩

end Reduction

/-- **The list of graphs**: when `graph_multiresolution(G, levels, ...)` succeeds - whatever the options, the solvers, the random
numbers and the history of `G` - it returns `levels + 1` graphs, the first one is `G` with `orig_idx` the identity, and each
graph `Follows` the previous one: it has at least two vertices and at least one less; `idx` lists, in increasing order, the
vertices of the previous graph that were kept, among which the first one; and `orig_idx` is `orig_idx[idx]` of the previous
one.  Consequently `orig_idx` is increasing: it names distinct vertices of `G`. -/
theorem C65_bookkeeping {R : Type} {E : Env} {o : MrOptions} {levels : ℕ} {s : GState n} {c : Coords n R} {Gs : List (Node R)}
    (h : graphMultiresolution E o levels s c = (Gs, none)) :
    Gs.length = levels + 1 ∧ (∃ s', Gs.head? = some ⟨n, s', c, fun i => i.1, fun i => i.1⟩) ∧ List.IsChain Follows Gs ∧
      ∀ g ∈ Gs, StrictMono g.orig ∧ ∀ a, g.orig a < n := by
  unfold graphMultiresolution at h
  simp only at h
  split at h
  · cases h
  · rename_i s1 hpr
    obtain ⟨h1, ⟨s', hs'⟩, h3⟩ := mrLoop_chain levels h
    refine ⟨h1, ⟨s', hs'⟩, h3, ?_⟩
    cases Gs with
    | nil => intro g hg; cases hg
    | cons g0 t =>
      simp only [List.head?_cons, Option.some.injEq] at hs'
      have key : ∀ (l : List (Node R)) (g0 : Node R), List.IsChain Follows (g0 :: l) → (StrictMono g0.orig ∧ ∀ a, g0.orig a < n) →
          ∀ g ∈ g0 :: l, StrictMono g.orig ∧ ∀ a, g.orig a < n := by
        intro l
        induction l with
        | nil => intro g0 _ h0 g hg; rw [List.mem_singleton.1 hg]; exact h0
        | cons g1 l ih =>
          intro g0 hch h0 g hg
          rcases List.mem_cons.1 hg with rfl | hg
          · exact h0
          · obtain ⟨⟨-, -, f, hf, -, -, ho⟩, hch'⟩ := List.isChain_cons_cons.1 hch
            refine ih g1 hch' ⟨fun a b hab => ?_, fun a => ?_⟩ g hg
            · rw [ho, ho]; exact h0.1 (hf hab)
            · rw [ho]; exact h0.2 _
      refine key t g0 h3 ?_
      rw [hs']
      exact ⟨fun a b hab => hab, fun a => a.2⟩

namespace Reduction

/-- A graph of the list as a reduction of the graph with weights `W0` and coordinates `c0`: the vertices are those listed in
`orig_idx`, with their coordinates; the graph is undirected, connected, its weights are not negative, and the effective
resistance between any two of its vertices is that between the corresponding vertices of the original graph. -/
def Reduced {R : Type} {n0 : ℕ} (W0 : Matrix (Fin n0) (Fin n0) ℝ) (c0 : Fin n0 → R) (g : Node R) : Prop :=
  ∃ f : Fin g.n → Fin n0, StrictMono f ∧ (∀ a, g.orig a = (f a).1) ∧ g.coords = .rows (fun a => c0 (f a)) ∧
    Undirected g.st.W.dense ∧ NonnegW g.st.W.dense ∧ Connected g.st.W.dense ∧
    ∀ a b r, IsResistance g.st.W.dense a b r ↔ IsResistance W0 (f a) (f b) r

/-- the state of a graph before its pass -/
def Fresh {R : Type} (E : Env) (g : Node R) : Prop :=
  ∃ gr hist, Graph.Built gr ∧ g.st = runAll (E.S g.n) hist (GState.ofGraph gr) ∧ g.st.lapType = .combinatorial

theorem prepare_run {E : Env} {full : Bool} {s st : GState n} {r : Py Unit} (h : prepare E full s = (r, st)) :
    ∃ hist, st = runAll (E.S n) hist s ∧ lastType hist s.lapType = s.lapType := by
  unfold prepare at h
  split at h
  · exact ⟨[.computeFourierBasis none], by unfold runAll; simp [Op.run, h], by simp [lastType, requestedType]⟩
  · exact ⟨[.estimateLmax .lanczos], by unfold runAll; simp [Op.run, h], by simp [lastType, requestedType]⟩

theorem Fresh.of_prepare {R : Type} {E : Env} (hE : ∀ n, Sound (E.S n)) {k : ℕ} {gr : Graph k ℝ} (hb : gr.Built)
    (hl : gr.lapType = .combinatorial) {full : Bool} {st : GState k} (h : prepare E full (GState.ofGraph gr) = (.ok (), st))
    (c : Coords k R) (i o : Fin k → ℕ) : Fresh E ⟨k, st, c, i, o⟩ ∧ st.W.dense = gr.W.dense := by
  obtain ⟨hist, h1, h2⟩ := prepare_run h
  obtain ⟨-, hw, hlt⟩ := reach_inv (hE k) hb hist
  have h0 := ofGraph_inv (S := E.S k) gr hb
  refine ⟨⟨gr, hist, hb, h1, ?_⟩, ?_⟩
  · simp only
    rw [h1, hlt]
    rw [h0.2.2.1] at h2
    rw [h2, hl]
  · rw [h1]; exact congrArg Sp.dense hw

/-- one pass, without sparsification -/
theorem mrStep_reduced {R : Type} {E : Env} (hE : ∀ n, Sound (E.S n)) {o : MrOptions} (ho : o.sparsify = false) {eps : ℝ}
    {level n0 : ℕ} {W0 : Matrix (Fin n0) (Fin n0) ℝ} {c0 : Fin n0 → R} {g g' g1 : Node R} (hf : Fresh E g) (hr : Reduced W0 c0 g)
    (h : mrStep E o eps level g = (.ok g', g1)) : Reduced W0 c0 g1 ∧ Fresh E g' ∧ Reduced W0 c0 g' := by
  obtain ⟨V, s, hp, rfl, gr, c, gr2, c2, st, hk, hsp, hpr, rfl⟩ := mrStep_ok h
  obtain ⟨gr0, hist, hb, hst, hlt⟩ := hf
  obtain ⟨f, hmono, horig, hco, hu, hW, hcon, hres⟩ := hr
  obtain ⟨-, e1, e2, e3, e4⟩ := polarity_spec hp
  have hred1 : Reduced W0 c0 { g with st := s } := by
    refine ⟨f, hmono, horig, hco, ?_⟩
    have : s.W.dense = g.st.W.dense := by unfold GState.W; rw [e2]
    simp only [this]
    exact ⟨hu, hW, hcon, hres⟩
  have hw0 : g.st.W.dense = gr0.W.dense := by
    obtain ⟨-, hw, -⟩ := reach_inv (hE g.n) hb hist
    rw [hst]; exact congrArg Sp.dense hw
  rw [kronGraph_congr e1 e2 e3 e4] at hk
  obtain ⟨hk2, he, -⟩ := kronGraph_ok hk
  have hinj := (positives_strictMono V).injective
  rw [hw0] at hu hW hcon hres
  obtain ⟨hsch, g2, ⟨c', h1, h1'⟩, b2, l2, u2, p2, -, s2⟩ := kronGraph_core (hE g.n) hb hist hst hlt hu hW hinj hk2 he
    (fun v => ⟨⟨0, by omega⟩, hcon v _⟩) g.coords (by rw [hco]; simp)
  rw [h1] at hk
  simp only [Except.ok.injEq, Prod.mk.injEq] at hk
  obtain ⟨rfl, rfl⟩ := hk
  unfold sparsifyLevel at hsp
  rw [if_neg (by simp [ho])] at hsp
  simp only [Except.ok.injEq, Prod.mk.injEq] at hsp
  obtain ⟨rfl, rfl⟩ := hsp
  obtain ⟨hfr, hwd⟩ := Fresh.of_prepare hE b2 l2 hpr c' (fun a => ((positives V).get a).1) (fun a => g.orig ((positives V).get a))
  refine ⟨hred1, hfr, fun a => f ((positives V).get a), fun a b hab => hmono (positives_strictMono V hab), fun a => horig _, ?_, ?_⟩
  · exact h1' _ hco
  · simp only [hwd]
    refine ⟨u2, p2, fun a b => (schur_linked hW hsch hinj p2 s2 a b).2 (hcon _ _), fun a b r => ?_⟩
    rw [schur_resistance hsch hinj s2 a b r]
    exact hres _ _ _

theorem mrLoop_reduced {R : Type} {E : Env} (hE : ∀ n, Sound (E.S n)) {o : MrOptions} (ho : o.sparsify = false) {eps : ℝ}
    {n0 : ℕ} {W0 : Matrix (Fin n0) (Fin n0) ℝ} {c0 : Fin n0 → R} (levels : ℕ) :
    ∀ {i : ℕ} {g : Node R}, Fresh E g → Reduced W0 c0 g → ∀ {Gs}, mrLoop E o eps levels i g = (Gs, none) →
      ∀ g' ∈ Gs, Reduced W0 c0 g' := by
  induction levels with
  | zero =>
    intro i g hf hr Gs h g' hg'
    simp only [mrLoop, Prod.mk.injEq, and_true] at h
    subst h
    rw [List.mem_singleton.1 hg']
    exact hr
  | succ levels ih =>
    intro i g hf hr Gs h g' hg'
    unfold mrLoop at h
    split at h
    · cases h
    · rename_i g2 g1 hstep
      simp only [Prod.mk.injEq] at h
      obtain ⟨h1, h2, h3⟩ := mrStep_reduced hE ho hf hr hstep
      obtain ⟨rest, hrest⟩ : ∃ rest, mrLoop E o eps levels (i + 1) g2 = (rest, none) := ⟨_, Prod.ext rfl h.2⟩
      rw [hrest] at h
      rw [← h.1] at hg'
      rcases List.mem_cons.1 hg' with rfl | hg'
      · exact h1
      · exact ih h2 h3 hrest g' hg'

end Reduction

/-- **Every level is electrically equivalent to the original graph** (`sparsify=False`): for a connected undirected graph with
non-negative weights and coordinates, in any state where the Laplacian is combinatorial, whenever `graph_multiresolution`
succeeds each graph of the list is a `Reduced` version of `G`: undirected, connected, with non-negative weights, the
coordinates of the vertices `orig_idx`, and the effective resistances of `G` between these vertices. -/
theorem C65_electrical {R : Type} {E : Env} (hE : ∀ n, Sound (E.S n)) {o : MrOptions} (ho : o.sparsify = false) {levels : ℕ}
    {g : Graph n ℝ} (hg : g.Built) (hist : List (Op n)) {s : GState n} (hs : s = runAll (E.S n) hist (GState.ofGraph g))
    (hc : s.lapType = .combinatorial) (hu : Undirected g.W.dense) (hW : NonnegW g.W.dense) (hcon : Connected g.W.dense)
    (c : Fin n → R) {Gs : List (Node R)} (h : graphMultiresolution E o levels s (.rows c) = (Gs, none)) :
    ∀ g' ∈ Gs, Reduced g.W.dense c g' := by
  unfold graphMultiresolution at h
  simp only at h
  split at h
  · cases h
  · rename_i s1 hpr
    obtain ⟨hist', h1, h2⟩ := prepare_run hpr
    have hrun : s1 = runAll (E.S n) (hist ++ hist') (GState.ofGraph g) := by
      rw [h1, hs]; unfold runAll; rw [List.foldl_append]
    obtain ⟨-, hw, hlt⟩ := reach_inv (hE n) hg (hist ++ hist')
    rw [← hrun] at hw hlt
    have hlt1 : s1.lapType = .combinatorial := by
      obtain ⟨-, -, hlt0⟩ := reach_inv (hE n) hg hist
      rw [← hs] at hlt0
      rw [hlt]
      rw [hlt0] at h2 hc
      unfold lastType at *
      rw [List.foldl_append, h2, hc]
    refine mrLoop_reduced hE ho levels ⟨g, hist ++ hist', hg, hrun, hlt1⟩ ?_ h
    refine ⟨id, strictMono_id, fun _ => rfl, rfl, ?_⟩
    have : s1.W.dense = g.W.dense := congrArg Sp.dense hw
    simp only [this]
    exact ⟨hu, hW, hcon, fun _ _ _ => Iff.rfl⟩

namespace Reduction

theorem computeFourierBasis_cached {S : Solvers n} {s : GState n} {b : Basis n} (hb : s.basis = some b) (hk : b.k = n) :
    s.computeFourierBasis S none = (.ok (), s) := by
  unfold computeFourierBasis
  simp only [Option.getD_none]
  rw [if_pos]
  unfold hasBasis
  rw [hb]
  simp [hk]

/-- the pass overwrites the last column of the basis -/
theorem mrStep_basis {R : Type} {E : Env} {o : MrOptions} (ho : o.knownDownsampling = true) {eps : ℝ} {level : ℕ} {g : Node R}
    {b : Basis g.n} (hb : g.st.basis = some b) (hn : 0 < g.n) (hk : 0 < b.k) :
    ∃ s, (mrStep E o eps level g).2 = { g with st := s } ∧
      s.basis = some ⟨b.k, b.e, Matrix.of fun i j => if j = ⟨b.k - 1, by omega⟩ then b.U i j * npSign (b.U ⟨0, hn⟩ ⟨b.k - 1, by omega⟩)
        else b.U i j⟩ := by
  unfold mrStep
  rw [if_neg (by simp [ho])]
  have hp : polarity E g.st = (.ok fun i => (Matrix.of fun i j => if j = (⟨b.k - 1, by omega⟩ : Fin b.k) then
      b.U i j * npSign (b.U ⟨0, hn⟩ ⟨b.k - 1, by omega⟩) else b.U i j : Matrix (Fin g.n) (Fin b.k) ℝ) i ⟨b.k - 1, by omega⟩,
      { g.st with basis := some ⟨b.k, b.e, Matrix.of fun i j => if j = ⟨b.k - 1, by omega⟩ then
        b.U i j * npSign (b.U ⟨0, hn⟩ ⟨b.k - 1, by omega⟩) else b.U i j⟩ }) := by
    unfold polarity
    rw [dif_pos hn, hb]
    simp only
    rw [dif_pos hk]
  rw [hp]
  simp only
  split
  · exact ⟨_, rfl, rfl⟩
  · split
    · exact ⟨_, rfl, rfl⟩
    · split
      · exact ⟨_, rfl, rfl⟩
      · split
        · exact ⟨_, rfl, rfl⟩
        · split
          · exact ⟨_, rfl, rfl⟩
          · exact ⟨_, rfl, rfl⟩

end Reduction

/-- Violation (side effect): when `G` has a complete Fourier basis, `graph_multiresolution` multiplies the last column of
`G.U` in place by the sign of its first entry - also when it raises later. -/
theorem C65_basis_overwritten_violated {R : Type} {E : Env} {o : MrOptions} (ho : o.knownDownsampling = true)
    (hfull : o.fullEigen = true) (levels : ℕ) {s : GState n} {b : Basis n} (hb : s.basis = some b) (hk : b.k = n) (hn : 0 < n)
    (c : Coords n R) :
    ∃ s' t, (graphMultiresolution E o (levels + 1) s c).1 = ⟨n, s', c, fun i => i.1, fun i => i.1⟩ :: t ∧
      s'.basis = some ⟨b.k, b.e, Matrix.of fun i j => if j = ⟨b.k - 1, by omega⟩ then b.U i j * npSign (b.U ⟨0, hn⟩ ⟨b.k - 1, by omega⟩)
        else b.U i j⟩ := by
  obtain ⟨s', h1, h2⟩ := mrStep_basis (R := R) (E := E) ho (eps := o.sparsifyEps.getD (min (10 / Real.sqrt n) (3 / 10))) (level := 0)
    (g := ⟨n, s, c, fun i => i.1, fun i => i.1⟩) hb hn (by omega)
  unfold graphMultiresolution prepare
  rw [if_pos hfull, computeFourierBasis_cached hb hk]
  simp only [mrLoop]
  split
  · rename_i e g1 hstep
    rw [hstep] at h1
    simp only at h1
    subst h1
    exact ⟨s', [], rfl, h2⟩
  · rename_i g2 g1 hstep
    rw [hstep] at h1
    simp only at h1
    subst h1
    exact ⟨s', _, rfl, h2⟩

/-- **When a level succeeds** (`compute_full_eigen=True`, `sparsify=False`): for a connected undirected graph with non-negative
weights, coordinates and a cached complete Fourier basis, one level is computed as soon as the last eigenvector, with the sign
that makes its first entry positive, is non-negative at another vertex and negative at some vertex. -/
theorem C65_one_level {R : Type} {E : Env} (hE : ∀ n, Sound (E.S n)) {o : MrOptions} (h1 : o.sparsify = false)
    (h2 : o.knownDownsampling = true) (h3 : o.knownReduction = true) (h4 : o.fullEigen = true) (h5 : 0 < o.regEps)
    {g : Graph n ℝ} (hg : g.Built) (hist : List (Op n)) {s : GState n} (hs : s = runAll (E.S n) hist (GState.ofGraph g))
    (hc : s.lapType = .combinatorial) (hu : Undirected g.W.dense) (hW : NonnegW g.W.dense) (hcon : Connected g.W.dense)
    (c : Fin n → R) {b : Basis n} (hb : s.basis = some b) (hk : b.k = n) (hn : 0 < n)
    (hpos : ∃ v : Fin n, v.1 ≠ 0 ∧ 0 ≤ b.U v ⟨b.k - 1, by omega⟩ * npSign (b.U ⟨0, hn⟩ ⟨b.k - 1, by omega⟩))
    (hneg : ∃ v : Fin n, b.U v ⟨b.k - 1, by omega⟩ * npSign (b.U ⟨0, hn⟩ ⟨b.k - 1, by omega⟩) < 0) :
    ∃ Gs, graphMultiresolution E o 1 s (.rows c) = (Gs, none) := by
  obtain ⟨V, s1, hp, hV⟩ : ∃ V s1, polarity E s = (.ok V, s1) ∧
      V = fun i => b.U i ⟨b.k - 1, by omega⟩ * npSign (b.U ⟨0, hn⟩ ⟨b.k - 1, by omega⟩) := by
    unfold polarity
    rw [dif_pos hn, hb]
    simp only
    rw [dif_pos (show 0 < b.k by omega)]
    refine ⟨_, _, rfl, ?_⟩
    funext i
    simp
  obtain ⟨-, e1, e2, e3, e4⟩ := polarity_spec hp
  have hinj := (positives_strictMono V).injective
  have h0mem : (⟨0, hn⟩ : Fin n) ∈ positives V := mem_positives.2 (by rw [hV]; exact npSign_mul_self _)
  obtain ⟨v1, hv1, hv1'⟩ := hpos
  have hv1mem : v1 ∈ positives V := mem_positives.2 (by rw [hV]; exact hv1')
  have hlen : 2 ≤ (positives V).length := by
    obtain ⟨a, ha⟩ := List.get_of_mem h0mem
    obtain ⟨a1, ha1⟩ := List.get_of_mem hv1mem
    have : a ≠ a1 := by
      rintro rfl
      rw [ha] at ha1
      exact hv1 (by rw [← ha1])
    have h1 := a.2
    have h2 := a1.2
    by_contra hc
    exact this (Fin.ext (by omega))
  obtain ⟨v2, hv2⟩ := hneg
  have hex : ∀ a, (positives V).get a ≠ v2 := by
    intro a ha
    have := mem_positives.1 (List.get_mem (positives V) a)
    rw [ha, hV] at this
    exact absurd hv2 (not_lt.2 this)
  obtain ⟨hsch, g2, ⟨c', q1, q1'⟩, b2, l2, u2, p2, -, s2⟩ := kronGraph_core (hE n) hg hist hs hc hu hW hinj hlen ⟨v2, hex⟩
    (fun v => ⟨⟨0, by omega⟩, hcon v _⟩) (.rows c) (by simp)
  have hkg : kronGraph s1 (.rows c) (positives V).get = .ok (g2, c') := by
    rw [kronGraph_congr e1 e2 e3 e4]; exact q1
  have hL : s.L = combLap g.W.dense := L_combinatorial (hE n) hg hist hs hc
  have hkm : ∃ m, kronMatrix (s1.L + o.regEps • (1 : Matrix (Fin n) (Fin n) ℝ)) (positives V).get = .ok m := by
    rw [e1, hL]
    have hdet : (Learning.uu (combLap g.W.dense + o.regEps • (1 : Matrix (Fin n) (Fin n) ℝ)) (kept (positives V).get)).det ≠ 0 := by
      refine det_uu_posdef fun x hx => ?_
      rw [Matrix.add_mulVec, dotProduct_add, Matrix.smul_mulVec, Matrix.one_mulVec, dotProduct_smul]
      have q1 := Learning.combLap_psd hW x
      obtain ⟨u, hu⟩ := Function.ne_iff.1 hx
      have q2 : 0 < x ⬝ᵥ x := by
        unfold dotProduct
        exact Finset.sum_pos' (fun _ _ => mul_self_nonneg _) ⟨u, Finset.mem_univ _, mul_self_pos.2 hu⟩
      have q3 : 0 < o.regEps • (x ⬝ᵥ x) := by rw [smul_eq_mul]; positivity
      have : (0 : ℝ) ≤ x ⬝ᵥ (combLap g.W.dense *ᵥ x) := q1
      linarith
    exact ⟨_, kronMatrix_ok hinj (reg_symm (combLap_isSymm _) _) (by omega) ⟨v2, (kept_false_iff _ _).2 hex⟩ hdet⟩
  obtain ⟨m, hm⟩ := hkm
  have hpr : ∃ st, prepare E o.fullEigen (GState.ofGraph g2) = (.ok (), st) := by
    unfold prepare
    rw [if_pos h4]
    have h0 := GState.ofGraph_inv (S := E.S _) g2 b2
    have hW0 : NonnegW (GState.ofGraph g2).W.dense := by unfold GState.W; rw [h0.2.1]; exact p2
    have hk0 : GState.Known (GState.ofGraph g2).lapType := by rw [h0.2.2.1]; exact b2.lapType_known
    obtain ⟨r1, -⟩ := GState.computeFourierBasis_ok (hE _) h0.1 hW0 (by omega) hk0 none ⟨by simp; omega, by simp⟩ (.inl rfl)
      (by simp [GState.hasBasis, h0.2.2.2.2.2])
    exact ⟨_, Prod.ext r1 rfl⟩
  obtain ⟨st, hst⟩ := hpr
  unfold graphMultiresolution
  have hpr0 : prepare E o.fullEigen s = (.ok (), s) := by
    unfold prepare
    rw [if_pos h4]
    exact computeFourierBasis_cached hb hk
  rw [hpr0]
  simp only [mrLoop]
  have hstep : ∀ eps, mrStep E o eps 0 (⟨n, s, .rows c, fun i => i.1, fun i => i.1⟩ : Node R) =
      (.ok ⟨(positives V).length, st, c', fun a => ((positives V).get a).1, fun a => ((positives V).get a).1⟩,
        ⟨n, s1, .rows c, fun i => i.1, fun i => i.1⟩) := by
    intro eps
    unfold mrStep
    rw [if_neg (by simp [h2])]
    simp only [hp]
    rw [if_neg (by simp [h3])]
    simp only [hkg]
    have : sparsifyLevel E o.sparsify eps 0 g2 c' = .ok (g2, c') := by
      unfold sparsifyLevel
      rw [if_neg (by simp [h1])]
    simp only [this, hst, hm]
  rw [hstep]
  exact ⟨_, rfl⟩

/-- A path with three vertices. -/
def path3 : Matrix (Fin 3) (Fin 3) ℝ := !![0, 1, 0; 1, 0, 1; 0, 1, 0]

theorem path3_nonneg : NonnegW path3 := by
  intro i j; fin_cases i <;> fin_cases j <;> simp [path3]

theorem path3_undirected : Undirected path3 := by
  intro i j; fin_cases i <;> fin_cases j <;> simp [path3]

theorem path3_connected : Connected path3 := by
  have h01 : Linked path3 0 1 := .single (.inl (by simp [path3]))
  have h12 : Linked path3 1 2 := .single (.inl (by simp [path3]))
  have h0 : ∀ v, Linked path3 0 v := by
    intro v
    fin_cases v
    · exact Relation.ReflTransGen.refl
    · exact h01
    · exact h01.trans h12
  intro u v
  exact (Linked.symm (h0 u)).trans (h0 v)

theorem combLap_path3 : combLap path3 = !![1, -1, 0; -1, 2, -1; 0, -1, 1] := by
  ext i j
  fin_cases i <;> fin_cases j <;> simp [combLap, wdeg, wsym, path3, Fin.sum_univ_three] <;> norm_num

/-- the last eigenvector of `path3` is `(a, -2a, a)` with `a ≠ 0` -/
theorem path3_last {e : Fin 3 → ℝ} {U : Matrix (Fin 3) (Fin 3) ℝ} (h : IsEigenPairs (combLap path3) e U) (hm : Monotone e) :
    U 0 2 ≠ 0 ∧ U 1 2 = -2 * U 0 2 ∧ U 2 2 = U 0 2 := by
  have hUU : U * Uᵀ = 1 := mul_eq_one_comm.1 h.orthonormal
  have hL := combLap_path3
  have eqn : ∀ i j, ((combLap path3) * U) i j = U i j * e j := by
    intro i j
    rw [h.eig, Matrix.mul_diagonal]
  have e0 : ∀ j, U 0 j - U 1 j = U 0 j * e j := by
    intro j
    have := eqn 0 j
    rw [hL] at this
    simp [Matrix.mul_apply, Fin.sum_univ_three] at this
    linarith
  have e1 : ∀ j, - U 0 j + 2 * U 1 j - U 2 j = U 1 j * e j := by
    intro j
    have := eqn 1 j
    rw [hL] at this
    simp [Matrix.mul_apply, Fin.sum_univ_three] at this
    linarith
  have e2 : ∀ j, - U 1 j + U 2 j = U 2 j * e j := by
    intro j
    have := eqn 2 j
    rw [hL] at this
    simp [Matrix.mul_apply, Fin.sum_univ_three] at this
    linarith
  -- some eigenvalue is 3
  have hex : ∃ j, U 0 j - 2 * U 1 j + U 2 j ≠ 0 := by
    by_contra hc
    push Not at hc
    have h0 : ∑ j, (U 0 j - 2 * U 1 j + U 2 j) * U 0 j = 1 := by
      have h00 := congrFun (congrFun hUU 0) 0
      have h10 := congrFun (congrFun hUU 1) 0
      have h20 := congrFun (congrFun hUU 2) 0
      rw [Matrix.one_apply_eq] at h00
      rw [Matrix.one_apply_ne (by decide)] at h10 h20
      simp only [Matrix.mul_apply, Matrix.transpose_apply, Fin.sum_univ_three] at h00 h10 h20 ⊢
      linarith
    rw [Finset.sum_eq_zero fun j _ => by rw [hc j, zero_mul]] at h0
    norm_num at h0
  obtain ⟨j, hj⟩ := hex
  have hej : e j = 3 := by
    have : (3 - e j) * (U 0 j - 2 * U 1 j + U 2 j) = 0 := by
      have h0 := e0 j
      have h1 := e1 j
      have h2 := e2 j
      linarith
    rcases mul_eq_zero.1 this with h | h
    · linarith
    · exact absurd h hj
  have hl : 3 ≤ e 2 := by
    rw [← hej]
    exact hm (Fin.le_def.2 (by have := j.2; show j.1 ≤ 2; omega))
  have hsum : e 2 * (U 0 2 + U 1 2 + U 2 2) = 0 := by
    have h0 := e0 2
    have h1 := e1 2
    have h2 := e2 2
    linarith
  have hs0 : U 0 2 + U 1 2 + U 2 2 = 0 := by
    rcases mul_eq_zero.1 hsum with h | h
    · linarith
    · exact h
  have hd : (e 2 - 1) * (U 0 2 - U 2 2) = 0 := by
    have h0 := e0 2
    have h2 := e2 2
    linarith
  have hd0 : U 2 2 = U 0 2 := by
    rcases mul_eq_zero.1 hd with h | h
    · linarith
    · linarith
  refine ⟨fun hz => ?_, by linarith, hd0⟩
  have hn : (Uᵀ * U) 2 2 = 1 := by rw [h.orthonormal, Matrix.one_apply_eq]
  simp only [Matrix.mul_apply, Matrix.transpose_apply, Fin.sum_univ_three] at hn
  have h1 : U 1 2 = 0 := by linarith
  rw [hd0, hz, h1] at hn
  norm_num at hn

/-- `C65_bookkeeping`, `C65_electrical` and `C65_one_level` are not vacuous: one level of the path with three vertices is computed,
whatever the eigensolver returns. -/
example {E : Env} (hE : ∀ n, Sound (E.S n)) (c : Fin 3 → ℝ) :
    ∃ g : Graph 3 ℝ, g.Built ∧ g.W.dense = path3 ∧ Undirected path3 ∧ NonnegW path3 ∧ Connected path3 ∧ ∃ Gs,
      graphMultiresolution E { sparsify := false, fullEigen := true } 1
        (runAll (E.S 3) [.computeFourierBasis none] (GState.ofGraph g)) (.rows c) = (Gs, none) := by
  obtain ⟨g, hg, hd, hlt⟩ := Graph.exists_built (K := ℝ) path3
  refine ⟨g, hg, hd, path3_undirected, path3_nonneg, path3_connected, ?_⟩
  have hW : NonnegW g.W.dense := by rw [hd]; exact path3_nonneg
  have h0 := GState.ofGraph_inv (S := E.S 3) g hg
  have hW0 : NonnegW (GState.ofGraph g).W.dense := by unfold GState.W; rw [h0.2.1]; exact hW
  have hk0 : GState.Known (GState.ofGraph g).lapType := by rw [h0.2.2.1]; exact hg.lapType_known
  have hnb : ∀ k, (GState.ofGraph g).hasBasis k = false := by intro k; simp [GState.hasBasis, h0.2.2.2.2.2]
  obtain ⟨h1, b, h2, h3, h4, h5, h6, -⟩ := GState.computeFourierBasis_ok (hE 3) h0.1 hW0 (by omega) hk0 none
    ⟨by simp, by simp⟩ (.inl rfl) (hnb _)
  have hb3 : b.k = 3 := by simpa using h3
  obtain ⟨s, hs⟩ : ∃ s, s = runAll (E.S 3) [.computeFourierBasis none] (GState.ofGraph g) := ⟨_, rfl⟩
  have hs2 : s = ((GState.ofGraph g).computeFourierBasis (E.S 3) none).2 := hs
  rw [← hs2] at h2 h6
  rw [← hs]
  have hc : s.lapType = .combinatorial := by rw [h6, h0.2.2.1, hlt]
  have hL : s.L = combLap path3 := by
    rw [← hd]
    exact L_combinatorial (hE 3) hg _ hs hc
  obtain ⟨hi, hWs, -⟩ := reach_inv (hE 3) hg [.computeFourierBasis none]
  rw [← hs] at hi hWs
  have hW2 : NonnegW s.W.dense := by rw [hWs]; exact hW
  obtain ⟨e1, e2, -⟩ := (hi.basis b h2).exact (hi.psd hW2) (hi.zero hW2)
  rw [hL] at e1
  obtain ⟨k, e, U⟩ := b
  simp only at hb3
  subst hb3
  have hz : U 0 2 ≠ 0 ∧ U 1 2 = -2 * U 0 2 ∧ U 2 2 = U 0 2 := path3_last e1 e2
  obtain ⟨z0, z1, z2⟩ := hz
  have hp : 0 < U 0 2 * npSign (U 0 2) := by
    unfold npSign
    split
    · linarith
    · split
      · linarith
      · exact absurd (le_antisymm (by linarith) (by linarith)) z0
  refine C65_one_level hE rfl rfl rfl rfl (by norm_num) hg _ hs hc (by rw [hd]; exact path3_undirected) hW
    (by rw [hd]; exact path3_connected) c h2 rfl (by omega) ⟨2, by decide, ?_⟩ ⟨1, ?_⟩
  · show 0 ≤ U 2 2 * npSign (U 0 2)
    rw [z2]; exact hp.le
  · show U 1 2 * npSign (U 0 2) < 0
    rw [z1]; linarith

/-- A triangle: the edge between the last two vertices has weight ten, the other ones one. -/
def triangle10 : Matrix (Fin 3) (Fin 3) ℝ := !![0, 1, 1; 1, 0, 10; 1, 10, 0]

theorem triangle10_nonneg : NonnegW triangle10 := by
  intro i j; fin_cases i <;> fin_cases j <;> simp [triangle10]

theorem combLap_triangle10 : combLap triangle10 = !![2, -1, -1; -1, 11, -10; -1, -10, 11] := by
  ext i j
  fin_cases i <;> fin_cases j <;> simp [combLap, wdeg, wsym, triangle10, Fin.sum_univ_three] <;> norm_num

/-- the last eigenvector of `triangle10` vanishes at the first vertex -/
theorem triangle10_last {e : Fin 3 → ℝ} {U : Matrix (Fin 3) (Fin 3) ℝ} (h : IsEigenPairs (combLap triangle10) e U)
    (hm : Monotone e) : U 0 2 = 0 := by
  have hUU : U * Uᵀ = 1 := mul_eq_one_comm.1 h.orthonormal
  have hL := combLap_triangle10
  have eqn : ∀ i j, ((combLap triangle10) * U) i j = U i j * e j := by
    intro i j
    rw [h.eig, Matrix.mul_diagonal]
  have e0 : ∀ j, 2 * U 0 j - U 1 j - U 2 j = U 0 j * e j := by
    intro j
    have := eqn 0 j
    rw [hL] at this
    simp [Matrix.mul_apply, Fin.sum_univ_three] at this
    linarith
  have e1 : ∀ j, - U 0 j + 11 * U 1 j - 10 * U 2 j = U 1 j * e j := by
    intro j
    have := eqn 1 j
    rw [hL] at this
    simp [Matrix.mul_apply, Fin.sum_univ_three] at this
    linarith
  have e2 : ∀ j, - U 0 j - 10 * U 1 j + 11 * U 2 j = U 2 j * e j := by
    intro j
    have := eqn 2 j
    rw [hL] at this
    simp [Matrix.mul_apply, Fin.sum_univ_three] at this
    linarith
  -- some eigenvalue is 21
  have hex : ∃ j, U 1 j - U 2 j ≠ 0 := by
    by_contra hc
    push Not at hc
    have h11 := congrFun (congrFun hUU 1) 1
    have h21 := congrFun (congrFun hUU 2) 1
    simp only [Matrix.mul_apply, Matrix.transpose_apply, Matrix.one_apply_eq] at h11
    rw [Matrix.one_apply_ne (by decide)] at h21
    simp only [Matrix.mul_apply, Matrix.transpose_apply] at h21
    have : ∀ j, U 1 j = U 2 j := fun j => by linarith [hc j]
    rw [Finset.sum_congr rfl fun j _ => by rw [this j]] at h11
    rw [Finset.sum_congr rfl fun j _ => by rw [this j]] at h21
    linarith
  obtain ⟨j, hj⟩ := hex
  have hej : e j = 21 := by
    have : (21 - e j) * (U 1 j - U 2 j) = 0 := by
      have h1 := e1 j
      have h2 := e2 j
      linarith
    rcases mul_eq_zero.1 this with h | h
    · linarith
    · exact absurd h hj
  have hl : 21 ≤ e 2 := by
    rw [← hej]
    exact hm (Fin.le_def.2 (by have := j.2; show j.1 ≤ 2; omega))
  -- the sum of the entries is zero
  have hsum : e 2 * (U 0 2 + U 1 2 + U 2 2) = 0 := by
    have h0 := e0 2
    have h1 := e1 2
    have h2 := e2 2
    linarith
  have hs0 : U 0 2 + U 1 2 + U 2 2 = 0 := by
    rcases mul_eq_zero.1 hsum with h | h
    · linarith
    · exact h
  have : (e 2 - 3) * U 0 2 = 0 := by
    have h0 := e0 2
    linarith
  rcases mul_eq_zero.1 this with h | h
  · linarith
  · exact h

/-- Violation: the cached Fourier basis can be destroyed.  For the connected graph `triangle10`, whatever the eigensolver
returns, the last eigenvector vanishes at the first vertex; after `compute_fourier_basis()` and `graph_multiresolution` the last
column of `G.U` is zero. -/
theorem C65_basis_destroyed_violated {R : Type} {E : Env} (hE : Sound (E.S 3)) {o : MrOptions} (ho : o.knownDownsampling = true)
    (hfull : o.fullEigen = true) (levels : ℕ) {g : Graph 3 ℝ} (hg : g.Built) (hd : g.W.dense = triangle10)
    (hlt : g.lapType = .combinatorial) {s : GState 3} (hs : s = runAll (E.S 3) [.computeFourierBasis none] (GState.ofGraph g))
    (c : Coords 3 R) :
    ∃ s' t b, (graphMultiresolution E o (levels + 1) s c).1 = ⟨3, s', c, fun i => i.1, fun i => i.1⟩ :: t ∧
      s'.basis = some b ∧ b.k = 3 ∧ ∀ i (j : Fin b.k), j.1 = 2 → b.U i j = 0 := by
  have hW : NonnegW g.W.dense := by rw [hd]; exact triangle10_nonneg
  have h0 := GState.ofGraph_inv (S := E.S 3) g hg
  have hW0 : NonnegW (GState.ofGraph g).W.dense := by unfold GState.W; rw [h0.2.1]; exact hW
  have hk0 : GState.Known (GState.ofGraph g).lapType := by rw [h0.2.2.1]; exact hg.lapType_known
  have hnb : ∀ k, (GState.ofGraph g).hasBasis k = false := by intro k; simp [GState.hasBasis, h0.2.2.2.2.2]
  obtain ⟨h1, b, h2, h3, h4, h5, h6, -⟩ := GState.computeFourierBasis_ok hE h0.1 hW0 (by omega) hk0 none
    ⟨by simp, by simp⟩ (.inl rfl) (hnb _)
  have hb3 : b.k = 3 := by simpa using h3
  have hs2 : s = ((GState.ofGraph g).computeFourierBasis (E.S 3) none).2 := hs
  rw [← hs2] at h2 h6
  have hL : s.L = combLap triangle10 := by
    rw [← hd]
    exact L_combinatorial hE hg _ hs (by rw [h6, h0.2.2.1, hlt])
  obtain ⟨hi, hWs, -⟩ := reach_inv hE hg [.computeFourierBasis none]
  rw [← hs] at hi hWs
  have hW2 : NonnegW s.W.dense := by rw [hWs]; exact hW
  obtain ⟨e1, e2, -⟩ := (hi.basis b h2).exact (hi.psd hW2) (hi.zero hW2)
  rw [hL] at e1
  obtain ⟨s', t, q1, q2⟩ := C65_basis_overwritten_violated (E := E) (o := o) ho hfull levels h2 hb3 (by omega) c
  refine ⟨s', t, _, q1, q2, hb3, ?_⟩
  obtain ⟨k, e, U⟩ := b
  simp only at hb3
  subst hb3
  have hz : U 0 2 = 0 := triangle10_last e1 e2
  intro i j hj
  have hj2 : j = (⟨3 - 1, by omega⟩ : Fin 3) := Fin.ext hj
  show (if j = (⟨3 - 1, by omega⟩ : Fin 3) then U i j * npSign (U 0 2) else U i j) = 0
  rw [if_pos hj2]
  refine (congrArg (fun z => U i j * npSign z) hz).trans ?_
  simp [npSign]

/-- the hypotheses of the previous theorem can be met -/
example : ∃ E : Env, Sound (E.S 3) ∧ ∃ g : Graph 3 ℝ, g.Built ∧ g.W.dense = triangle10 ∧ g.lapType = .combinatorial := by
  obtain ⟨g, hg, hd, hlt⟩ := Graph.exists_built (K := ℝ) triangle10
  refine ⟨⟨fun n => (exists_sound n).choose, fun _ _ _ => none, fun _ _ => 0, fun n => Pop.smallest n, fun _ _ _ => []⟩, (exists_sound 3).choose_spec.1, g, hg, hd, hlt⟩

namespace Reduction

theorem sparsifyLevel_big {R : Type} {E : Env} {eps : ℝ} {level k : ℕ} {gr : Graph k ℝ} {c : Coords k R} {r}
    (h : sparsifyLevel E true eps level gr c = .ok r) (hk : 2 < k) : 5 ≤ k ∧ r.2 = .missing := by
  unfold sparsifyLevel at h
  rw [if_pos ⟨rfl, hk⟩] at h
  split at h
  · cases h
  · rename_i g' hg'
    refine ⟨?_, by rw [← Except.ok.inj h]⟩
    by_contra hc
    obtain ⟨-, hw, -⟩ := weights_of_graph hg'
    obtain ⟨-, -, ⟨-, h1⟩, -⟩ := sparsifyWeights_ok hw
    have h2 : 1 ≤ 2 / Real.sqrt k := by
      have hk0 : (0 : ℝ) < k := by exact_mod_cast (by omega : 0 < k)
      rw [le_div_iff₀ (Real.sqrt_pos.2 hk0), one_mul, Real.sqrt_le_left (by norm_num)]
      have : k ≤ 4 := by omega
      have : (k : ℝ) ≤ 4 := by exact_mod_cast this
      linarith
    have h3 : min (max eps (2 / Real.sqrt k)) 1 = 1 := min_eq_right (le_trans h2 (le_max_right _ _))
    rw [h3] at h1
    exact lt_irrefl _ h1

end Reduction

/-- Violation: sparsification (the default) and several levels do not work together.  A level with three or four vertices cannot
be sparsified (the epsilon that is passed is 1, refused with ValueError), and a sparsified graph has lost its coordinates,
without which it cannot be reduced again (AttributeError): when the call succeeds, every graph after the first one has
two vertices or at least five, and only the last one can have more than two. -/
theorem C65_sparsify_violated {R : Type} {E : Env} {o : MrOptions} (ho : o.sparsify = true) {levels : ℕ} {s : GState n}
    {c : Coords n R} {Gs : List (Node R)} (h : graphMultiresolution E o levels s c = (Gs, none)) :
    ∀ i g, 0 < i → Gs[i]? = some g → (g.n ≤ 2 ∨ 5 ≤ g.n ∧ i = levels) := by
  have key : ∀ (levels l : ℕ) (eps : ℝ) (g : Node R) (Gs : List (Node R)), mrLoop E o eps levels l g = (Gs, none) →
      (∀ i g', 0 < i → Gs[i]? = some g' → (g'.n ≤ 2 ∨ 5 ≤ g'.n ∧ i = levels)) ∧ (0 < levels → g.coords ≠ .missing) := by
    intro levels
    induction levels with
    | zero =>
      intro l eps g Gs h
      simp only [mrLoop, Prod.mk.injEq, and_true] at h
      subst h
      refine ⟨fun i g' hi hg' => ?_, fun h => absurd h (lt_irrefl _)⟩
      rw [List.getElem?_eq_none (by simp only [List.length_cons, List.length_nil]; omega)] at hg'
      cases hg'
    | succ levels ih =>
      intro l eps g Gs h
      unfold mrLoop at h
      split at h
      · cases h
      · rename_i g2 g1 hstep
        simp only [Prod.mk.injEq] at h
        obtain ⟨rest, hrest⟩ : ∃ rest, mrLoop E o eps levels (l + 1) g2 = (rest, none) := ⟨_, Prod.ext rfl h.2⟩
        rw [hrest] at h
        obtain ⟨h1, h2⟩ := ih (l + 1) eps g2 rest hrest
        obtain ⟨-, ⟨s', hs'⟩, -⟩ := mrLoop_chain levels hrest
        obtain ⟨V, s, hp, e1, gr, c, gr2, c2, st, hk, hsp, hpr, e2⟩ := mrStep_ok hstep
        refine ⟨fun i g' hi hg' => ?_, fun _ => (kronGraph_ok hk).2.2⟩
        rw [← h.1] at hg'
        obtain ⟨i, rfl⟩ : ∃ i', i = i' + 1 := ⟨i - 1, by omega⟩
        simp only [List.getElem?_cons_succ] at hg'
        rcases Nat.eq_zero_or_pos i with rfl | hi'
        · rw [← List.head?_eq_getElem?, hs'] at hg'
          cases hg'
          simp only
          by_cases hbig : 2 < g2.n
          · right
            subst e2
            rw [ho] at hsp
            obtain ⟨h5, h6⟩ := sparsifyLevel_big hsp hbig
            refine ⟨h5, ?_⟩
            by_contra hl
            exact h2 (by omega) h6
          · left; omega
        · rcases h1 i g' hi' hg' with h | ⟨h, h'⟩
          · exact .inl h
          · exact .inr ⟨h, by omega⟩
  unfold graphMultiresolution at h
  simp only at h
  split at h
  · cases h
  · exact (key _ _ _ _ _ h).1

end PyGSP
