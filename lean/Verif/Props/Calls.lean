import Verif.Model.Calls
import Verif.Props.State
import Verif.Props.Bank
import Verif.Lemmas.LiveTouch
import Verif.Props.FilterWitness

/-!
# C131: what the functions of the library do to the graph they receive
-/

namespace PyGSP

open Matrix Spec GState

variable {n : ℕ}

namespace Spec

/-- The methods of the graph that a call may use: filtering reads `G.e` and `G.U` with the method `exact`, `G.lmax` with `chebyshev`. -/
def filterReads : FMethod → List (Op n)
  | .exact => [.getBasis]
  | .chebyshev => [.getLmax]
  | .other _ => []

/-- The methods of the graph that each call may use. -/
def mayUse : Call n → List (Op n)
  | .own op => [op]
  | .gft _ | .igft _ => [.getBasis]
  | .filter _ _ m _ | .analyze _ _ m _ | .synthesize _ _ m _ | .localize _ _ m _ | .computeFrame _ m _ => filterReads m
  | .interpolate _ _ _ _ _ _ m => filterReads m
  | .gaborFilter _ _ _ _ => [.getBasis]
  | .estimateFrameBounds _ (some _) => []
  | .estimateFrameBounds _ none | .inverse _ | .chebyRect _ _ _ _ | .computeTig _ _ | .computeNormTig _ _ | .computeSpectrogram _ _ _ | .proxTv _ => [.getLmax]
  | .modulationFilter _ _ => [.getLmax, .getBasis]
  | .lanczosOp _ _ _ => []
  | .avgAdjDeg => [.getA]
  | .setCoordinates _ (.name "spring") _ _ _ => [.getA]
  | .setCoordinates _ (.name "laplacian_eigenmap2D") _ _ _ => [.computeFourierBasis (some 3), .getBasis]
  | .setCoordinates _ (.name "laplacian_eigenmap3D") _ _ _ => [.computeFourierBasis (some 4), .getBasis]
  | .setCoordinates _ _ _ _ _ => []
  | .treeMultiresolution true => [.computeFourierBasis none, .getA]
  | .treeMultiresolution false => [.getA]

end Spec

/-- the state `t` is reached from `s` with the methods of the list -/
def Using (S : Solvers n) (l : List (Op n)) (s t : GState n) : Prop := ∃ ops : List (Op n), (∀ op ∈ ops, op ∈ l) ∧ t = runAll S ops s

namespace Using

variable {S : Solvers n} {l : List (Op n)}

theorem refl (s : GState n) : Using S l s s := ⟨[], by simp, rfl⟩

theorem trans {s t u : GState n} (h : Using S l s t) (h' : Using S l t u) : Using S l s u := by
  obtain ⟨a, ha, rfl⟩ := h
  obtain ⟨b, hb, rfl⟩ := h'
  refine ⟨a ++ b, fun op hop => ?_, ?_⟩
  · rcases List.mem_append.1 hop with h | h
    · exact ha _ h
    · exact hb _ h
  · unfold runAll; rw [List.foldl_append]

theorem one {s : GState n} (op : Op n) (h : op ∈ l) : Using S l s (op.run S s).2 := ⟨[op], by simpa using h, rfl⟩

theorem mono {l' : List (Op n)} {s t : GState n} (h : Using S l s t) (hl : ∀ op ∈ l, op ∈ l') : Using S l' s t := by
  obtain ⟨ops, h1, h2⟩ := h
  exact ⟨ops, fun op q => hl _ (h1 op q), h2⟩

theorem lmaxNum (s : GState n) : Using S [.getLmax] s (Bank.lmaxNum S s).2 := by
  rw [lmaxNum_state]
  exact one (S := S) (s := s) .getLmax (by simp)

theorem basis (s : GState n) : Using S [.getBasis] s (s.getBasis S).2 := one (S := S) (s := s) .getBasis (by simp)

theorem getA (s : GState n) : Using S [.getA] s s.getA.2 := one (S := S) (s := s) .getA (by simp)

theorem filter (f : Bank) (a : Arr) (method : FMethod) (order : ℕ) (s : GState n) : Using S (filterReads method) s (f.filter S a method order s).2 := by
  rw [Bank.filter_eq]
  cases parseSignal n f.Nf a with
  | error e => exact refl s
  | ok sig =>
    have h : Using S (filterReads method) s (f.ops S method order s).2 := by
      unfold Bank.ops
      cases method with
      | exact =>
        have h := basis (S := S) s
        dsimp only
        revert h
        rcases s.getBasis S with ⟨_ | _ | b, s'⟩
        · exact id
        · exact id
        · intro h
          dsimp only
          cases f.evaluate b.e with
          | error e => exact h
          | ok y => dsimp only; split <;> exact h
      | chebyshev =>
        have h := lmaxNum (S := S) s
        dsimp only
        revert h
        rcases Bank.lmaxNum S s with ⟨_ | l, s'⟩
        · exact id
        · intro h
          dsimp only
          split
          · exact h
          · cases f.evaluate (chebNode l (order + 1)) with
            | error e => exact h
            | ok y =>
              dsimp only
              split
              · exact h
              · split <;> exact h
      | other nm => exact refl s
    dsimp only
    revert h
    rcases f.ops S method order s with ⟨_ | M, s'⟩
    · exact id
    · exact id

theorem gft (x : Rows ℝ) (s : GState n) : Using S [.getBasis] s (s.gft S x).2 := by
  unfold GState.gft
  cases checkSignal n x with
  | error e => exact refl s
  | ok x =>
    have h := basis (S := S) s
    dsimp only
    revert h
    rcases s.getBasis S with ⟨_ | _ | b, s'⟩
    · exact id
    · exact id
    · exact id

theorem igft (x : Rows ℝ) (s : GState n) : Using S [.getBasis] s (s.igft S x).2 := by
  unfold GState.igft
  cases checkSignal n x with
  | error e => exact refl s
  | ok x =>
    have h := basis (S := S) s
    dsimp only
    revert h
    rcases s.getBasis S with ⟨_ | _ | b, s'⟩
    · exact id
    · exact id
    · intro h
      dsimp only
      split <;> exact h

theorem localize (f : Bank) (i : Fin n) (method : FMethod) (order : ℕ) (s : GState n) : Using S (filterReads method) s (f.localize S i method order s).2 := by
  have h := filter (S := S) f (Arr.of1 fun j => if j = i then 1 else 0) method order s
  unfold Bank.localize
  revert h
  rcases f.filter S _ method order s with ⟨_ | a, s'⟩
  · exact id
  · exact id

theorem computeFrame (f : Bank) (method : FMethod) (order : ℕ) (s : GState n) : Using S (filterReads method) s (f.computeFrame S method order s).2 := by
  have h := filter (S := S) f (Arr.of2 fun i j : Fin n => if i = j then 1 else 0) method order s
  unfold Bank.computeFrame
  revert h
  rcases f.filter S _ method order s with ⟨_ | a, s'⟩
  · exact id
  · exact id

theorem bounds (f : Bank) (s : GState n) : Using S [.getLmax] s (f.estimateFrameBounds S none s).2 := by
  have h := lmaxNum (S := S) s
  unfold Bank.estimateFrameBounds
  dsimp only
  revert h
  rcases Bank.lmaxNum S s with ⟨_ | a, s'⟩
  · exact id
  · exact id

theorem inverse (f : Bank) (s : GState n) : Using S [.getLmax] s (f.inverse S s).2 := by
  have h := bounds (S := S) f s
  unfold Bank.inverse
  revert h
  rcases f.estimateFrameBounds S none s with ⟨_ | a, s'⟩
  · exact id
  · exact id

theorem modulation (f : Bank) (x : Fin n → ℝ) (is : List (Fin n)) (y : Fin n → Fin n → ℝ) (s : GState n) :
    Using S [.getLmax, .getBasis] s (Design.modulationLoop S f x is y s).2 := by
  induction is generalizing y s with
  | nil => exact refl s
  | cons i is ih =>
    rw [Design.modulationLoop]
    have h := (localize (S := S) f i .chebyshev 30 s).mono (l' := [.getLmax, .getBasis]) (by simp [filterReads])
    revert h
    rcases f.localize S i .chebyshev 30 s with ⟨_ | a, s'⟩
    · exact id
    · intro h
      dsimp only
      have h2 := (gft (S := S) (⟨n, fun v => x v * (if a.shape = [] then a.val [] else a.val [v])⟩ : Rows ℝ) s').mono (l' := [.getLmax, .getBasis]) (by simp)
      revert h2
      rcases s'.gft S _ with ⟨_ | r, s''⟩
      · exact fun h2 => h.trans h2
      · intro h2
        dsimp only
        split
        · exact (h.trans h2).trans (ih _ _)
        · exact h.trans h2

theorem rect {ns : ℕ} (b : Option (List ℝ)) (X : Matrix (Fin n) (Fin ns) ℝ) (order : ℤ) (s : GState n) : Using S [.getLmax] s (chebyRect S b X order s).2 := by
  have h := lmaxNum (S := S) s
  unfold chebyRect
  split
  · dsimp only
    revert h
    rcases Bank.lmaxNum S s with ⟨_ | a, s'⟩
    · exact id
    · intro h
      dsimp only
      split <;> exact h
  · exact refl s

theorem handlerLoop {l : List (Op n)} {func : GState n → Py Arr × GState n} (hf : ∀ s, Using S l s (func s).2) (m : ℕ) (out : List Arr) (s : GState n) :
    Using S l s (Features.handlerLoop func m out s).2 := by
  induction m generalizing out s with
  | zero => exact refl s
  | succ m ih =>
    rw [Features.handlerLoop]
    have h := hf s
    revert h
    rcases func s with ⟨_ | a, s'⟩
    · exact id
    · exact fun h => h.trans (ih _ _)

theorem handler {l : List (Op n)} {func : GState n → Py Arr × GState n} (hf : ∀ s, Using S l s (func s).2) (Nf : ℕ) (kw : Features.Kwargs) (s : GState n) :
    Using S l s (Features.filterbankHandler func Nf kw s).2 := by
  unfold Features.filterbankHandler
  split
  · have h := hf s
    revert h
    rcases func s with ⟨_ | a, s'⟩
    · exact id
    · exact id
  · have h := handlerLoop hf Nf [] s
    revert h
    rcases Features.handlerLoop func Nf [] s with ⟨_ | a, s'⟩
    · exact id
    · exact id

theorem tig (f : Bank) (kw : Features.Kwargs) (s : GState n) : Using S [.getLmax] s (Features.tig S f kw s).2 := computeFrame f .chebyshev 30 s

theorem normTig (f : Bank) (kw : Features.Kwargs) (s : GState n) : Using S [.getLmax] s (Features.normTig S f kw s).2 := by
  have h := tig (S := S) f kw s
  unfold Features.normTig
  revert h
  rcases Features.tig S f kw s with ⟨_ | a, s'⟩
  · exact id
  · exact id

theorem computeNormTig (f : Bank) (kw : Features.Kwargs) (s : GState n) : Using S [.getLmax] s (Features.computeNormTig S f kw s).2 :=
  handler (fun s => normTig f kw s) _ kw s

theorem shiftLoop (atom : ℝ → ℝ) (lmax : ℝ) (M : ℕ) (kw : Features.Kwargs) (m j : ℕ) (out : ℕ → Fin n → ℝ) (s : GState n) :
    Using S [.getLmax] s (Features.shiftLoop S atom lmax M kw m j out s).2 := by
  induction m generalizing j out s with
  | zero => exact refl s
  | succ m ih =>
    rw [Features.shiftLoop]
    have h := computeNormTig (S := S) (Bank.ofArg (.one (Kernel.pointwise fun x => atom (x - Features.linspace lmax M j)))) kw s
    revert h
    rcases Features.computeNormTig S _ kw s with ⟨_ | a, s'⟩
    · exact id
    · intro h
      cases a with
      | many _ => exact h
      | one a =>
        dsimp only
        cases Features.column (n := n) a with
        | error e => exact h
        | ok c => exact h.trans (ih _ _ _)

theorem spectrogram (atom : Option (ℝ → ℝ)) (M : ℕ) (kw : Features.Kwargs) (s : GState n) : Using S [.getLmax] s (Features.computeSpectrogram S atom M kw s).2 := by
  have h := lmaxNum (S := S) s
  unfold Features.computeSpectrogram
  revert h
  rcases Bank.lmaxNum S s with ⟨_ | a, s'⟩
  · exact id
  · intro h
    dsimp only
    have h2 := shiftLoop (S := S) (atom.getD (Features.defaultAtom a M)) a M kw M 0 (fun _ _ => 0) s'
    revert h2
    rcases Features.shiftLoop S _ a M kw M 0 _ s' with ⟨_ | b, s''⟩
    · exact fun h2 => h.trans h2
    · exact fun h2 => h.trans h2

theorem interpolate (mr : Bool) (f : Arr) {k : ℕ} (ind : Fin k → Fin n) (order : ℕ) (eps : ℝ) (method : FMethod) (s : GState n) :
    Using S (filterReads method) s (Reduction.interpolate S mr f ind order eps method s).2 := by
  unfold Reduction.interpolate
  split
  · exact refl s
  · cases Reduction.kronMatrix (s.L + eps • (1 : Matrix (Fin n) (Fin n) ℝ)) ind with
    | error e => exact refl s
    | ok K =>
      dsimp only
      cases Reduction.scatterArr K ind f with
      | error e => exact refl s
      | ok a =>
        dsimp only
        unfold Reduction.analysis
        have h := filter (S := S) (Bank.ofArg (.one (Reduction.greenKernel eps))) a method order s
        revert h
        rcases Bank.filter S _ a method order s with ⟨_ | b, s'⟩
        · exact id
        · intro h
          dsimp only
          split <;> exact h

theorem eigenmap (d : ℕ) (s : Layout.LState n) : Using S [.computeFourierBasis (some (d + 1)), .getBasis] s.g (Layout.eigenmap S d s).2.g := by
  have h : Using S [.computeFourierBasis (some (d + 1)), .getBasis] s.g (s.g.computeFourierBasis S (some (d + 1))).2 :=
    one (S := S) (s := s.g) (.computeFourierBasis (some (d + 1))) (by simp)
  unfold Layout.eigenmap
  revert h
  rcases s.g.computeFourierBasis S (some (d + 1)) with ⟨_ | a, s'⟩
  · exact id
  · intro h
    dsimp only
    have h2 := (basis (S := S) s').mono (l' := [.computeFourierBasis (some (d + 1)), .getBasis]) (by simp)
    revert h2
    rcases s'.getBasis S with ⟨_ | _ | b, s''⟩
    · exact fun h2 => h.trans h2
    · exact fun h2 => h.trans h2
    · exact fun h2 => h.trans h2

theorem community (draw : (d : ℕ) → Fin n → Fin d → ℝ) (s : Layout.LState n) : (Layout.community2D draw s).2.g = s.g := by
  unfold Layout.community2D
  cases s.info with
  | none => rfl
  | some info =>
    dsimp only
    cases info.commSizes <;> rfl

end Using

/-- **What each call does to the graph.**  The state of the graph after a call, whether it returns or raises, is one that its own methods give, and only those listed: `G.U` for exact filtering and for the Fourier
transforms, `G.lmax` for Chebyshev filtering and what relies on it, `G.A`, `compute_fourier_basis` for the layouts and functions that ask for it.  A call that fails leaves no other trace. -/
theorem C131_call (S : Solvers n) (c : Call n) (s : GState n) : ∃ ops : List (Op n), (∀ op ∈ ops, op ∈ mayUse c) ∧ (c.run S s).2 = runAll S ops s := by
  change Using S (mayUse c) s (c.run S s).2
  cases c with
  | own op => exact Using.one op (by simp [mayUse])
  | gft x => exact Using.gft x s
  | igft x => exact Using.igft x s
  | filter f a m o => exact Using.filter f a m o s
  | analyze f a m o =>
    show Using S _ s (f.analyze S a m o s).2
    unfold Bank.analyze
    split
    · exact Using.refl s
    · exact Using.filter f a m o s
  | synthesize f a m o =>
    show Using S _ s (f.synthesize S a m o s).2
    unfold Bank.synthesize
    split
    · exact Using.refl s
    · split
      · exact Using.refl s
      · exact Using.filter f a m o s
  | localize f i m o => exact Using.localize f i m o s
  | computeFrame f m o => exact Using.computeFrame f m o s
  | estimateFrameBounds f x =>
    cases x with
    | none => exact Using.bounds f s
    | some x => exact Using.refl s
  | inverse f => exact Using.inverse f s
  | gaborFilter f a m o => exact Using.filter f a .exact 30 s
  | modulationFilter f x => exact Using.modulation f x _ _ s
  | chebyRect ns b X o => exact Using.rect b X o s
  | lanczosOp f a o => exact Using.refl s
  | avgAdjDeg => exact Using.getA s
  | computeTig f kw => exact Using.handler (fun s => Using.tig f kw s) _ kw s
  | computeNormTig f kw => exact Using.computeNormTig f kw s
  | computeSpectrogram a M kw => exact Using.spectrogram a M kw s
  | interpolate mr f k ind o eps m => exact Using.interpolate mr f ind o eps m s
  | setCoordinates draw kind p c i =>
    show Using S _ s (Layout.setCoordinates S draw kind p ⟨s, c, i⟩).2.g
    unfold Layout.setCoordinates
    split
    · dsimp only
      split
      · exact Using.refl s
      · split <;> exact Using.refl s
    · exact Using.refl s
    · exact Using.refl s
    · exact Using.refl s
    · exact Using.refl s
    · exact Using.refl s
    · split
      · exact Using.refl s
      · dsimp only
        split
        · exact Using.getA s
        · exact Using.getA s
    · rw [Using.community]
      exact Using.refl s
    · exact Using.eigenmap 2 ⟨s, c, i⟩
    · exact Using.eigenmap 3 ⟨s, c, i⟩
    · exact Using.refl s
  | treeMultiresolution full =>
    show Using S _ s (treeMultiresolution S full s).2
    unfold treeMultiresolution
    cases full with
    | false => exact Using.getA s
    | true =>
      have h : Using S [.computeFourierBasis none, .getA] s (s.computeFourierBasis S none).2 := Using.one (S := S) (s := s) (.computeFourierBasis none) (by simp)
      simp only [if_true]
      revert h
      rcases s.computeFourierBasis S none with ⟨_ | a, s'⟩
      · exact id
      · exact fun h => h.trans ((Using.getA (S := S) s').mono (by simp))
  | proxTv u =>
    show Using S _ s (proxTv S u s).2
    have h := Using.lmaxNum (S := S) s
    unfold proxTv
    revert h
    rcases Bank.lmaxNum S s with ⟨_ | a, s'⟩
    · exact id
    · intro h
      dsimp only
      split <;> exact h

/-- **Programs.**  Whatever a program calls, in whatever order and whichever calls fail, the graph ends in a state that a history of its own methods gives: those the program calls itself, in this order, between which the
methods listed for the other calls may have been used. -/
theorem C131_program (S : Solvers n) (prog : List (Call n)) (s : GState n) : ∃ parts : List (List (Op n)),
    List.Forall₂ (fun c part => (∀ op, c = .own op → part = [op]) ∧ ∀ op ∈ part, op ∈ mayUse c) prog parts ∧ runCalls S prog s = runAll S parts.flatten s := by
  induction prog generalizing s with
  | nil => exact ⟨[], .nil, rfl⟩
  | cons c prog ih =>
    obtain ⟨parts, h1, h2⟩ := ih (c.run S s).2
    obtain ⟨ops, h3, h4, h5⟩ : ∃ ops : List (Op n), (∀ op, c = .own op → ops = [op]) ∧ (∀ op ∈ ops, op ∈ mayUse c) ∧ (c.run S s).2 = runAll S ops s := by
      by_cases hc : ∃ op, c = .own op
      · obtain ⟨op, rfl⟩ := hc
        refine ⟨[op], ?_, by simp [mayUse], rfl⟩
        intro op' e
        cases e
        rfl
      · obtain ⟨ops, h⟩ := C131_call S c s
        exact ⟨ops, fun op e => absurd ⟨op, e⟩ hc, h⟩
    refine ⟨ops :: parts, .cons ⟨h3, h4⟩ h1, ?_⟩
    show runCalls S prog (c.run S s).2 = _
    rw [h2, h5, List.flatten_cons]
    unfold runAll
    rw [List.foldl_append]

/-- the type of Laplacian changes through `compute_laplacian` only -/
theorem lastType_of_not {ops : List (Op n)} {lt : LapType} (h : ∀ lt', Op.computeLaplacian lt' ∉ ops) : lastType ops lt = lt := by
  induction ops generalizing lt with
  | nil => rfl
  | cons op ops ih =>
    have h' : ∀ lt', Op.computeLaplacian lt' ∉ ops := fun lt' q => h lt' (List.mem_cons_of_mem _ q)
    cases op with
    | computeLaplacian l => exact absurd List.mem_cons_self (h l)
    | _ => exact ih h'

/-- no call uses `compute_laplacian` on its own -/
theorem mayUse_lap {c : Call n} {lt : LapType} (h : Op.computeLaplacian lt ∈ mayUse c) : c = .own (.computeLaplacian lt) := by
  have hf : ∀ m : FMethod, Op.computeLaplacian lt ∉ (filterReads m : List (Op n)) := by
    intro m
    cases m <;> simp [filterReads]
  unfold mayUse at h
  split at h <;> simp_all

/-- **After any program the graph is the graph that was built**: the weights are unchanged, `G.A`, `G.d`, `G.dw`, the edge list and the direction are those of the weights, `G.L` is the Laplacian of the weights for the current type, and
this type is the one the graph was built with unless the program itself called `compute_laplacian`. -/
theorem C131_frame {S : Solvers n} (hS : Sound S) {g : Graph n ℝ} (hg : g.Built) (prog : List (Call n)) {s : GState n} (hs : s = runCalls S prog (GState.ofGraph g)) :
    s.cur.W = g.W ∧ (s.isDirected.1 = true ↔ ¬ Undirected g.W.dense) ∧ s.getD.1 = degree g.W ∧ s.getDw.1 = wdeg g.W.dense ∧ s.getA.1 = posAdj g.W ∧
      s.getEdgeList.1 = g.getEdgeList ∧ (Known s.lapType → laplacian g.W s.lapType = .ok s.L) ∧
      ((∀ lt, Call.own (.computeLaplacian lt) ∉ prog) → s.lapType = g.lapType ∧ laplacian g.W g.lapType = .ok s.L) := by
  obtain ⟨parts, h1, h2⟩ := C131_program S prog (GState.ofGraph g)
  rw [h2] at hs
  obtain ⟨a1, a2, a3, a4, a5⟩ := C18_structure hS hg _ hs
  obtain ⟨b1, b2⟩ := C18_laplacian hS hg _ hs
  obtain ⟨-, hW, -⟩ := reach_inv hS hg parts.flatten
  rw [← hs] at hW
  refine ⟨hW, a1, a2, a3, a4, a5, b2, fun hp => ?_⟩
  have hl : s.lapType = g.lapType := by
    rw [b1]
    apply lastType_of_not
    intro lt' q
    obtain ⟨part, q1, q2⟩ := List.mem_flatten.1 q
    obtain ⟨c, hc, h3⟩ : ∃ c ∈ prog, ∀ op ∈ part, op ∈ mayUse c := by
      clear h2 hs a1 a2 a3 a4 a5 b1 b2 q
      induction h1 with
      | nil => cases q1
      | cons h t ih =>
        rename_i c p prog' parts'
        rcases List.mem_cons.1 q1 with rfl | q1
        · exact ⟨c, List.mem_cons_self, h.2⟩
        · obtain ⟨c', hc', h3⟩ := ih (fun lt q => hp lt (List.mem_cons_of_mem _ q)) q1
          exact ⟨c', List.mem_cons_of_mem _ hc', h3⟩
    exact hp lt' ((mayUse_lap (h3 _ q2)) ▸ hc)
  exact ⟨hl, by rw [← hl]; exact b2 (hl ▸ hg.lapType_known)⟩

/-- **Three functions never return**: `tree_multiresolution`, `prox_tv` and `lanczos_op` raise for every graph and all arguments; in passing the first computes the Fourier basis when it is asked to, and the second `G.lmax`. -/
theorem C131_never_returns_violated (S : Solvers n) (s : GState n) :
    (∀ f a order, (lanczosOp f a order s).1 = .error .attributeError ∧ (lanczosOp f a order s).2 = s) ∧
    (treeMultiresolution S false s).1 = .error .typeError ∧
    (∀ r, (treeMultiresolution S true s).1 ≠ .ok r) ∧
    (∀ t, s.computeFourierBasis S none = (.ok (), t) → treeMultiresolution S true s = (.error .typeError, t.getA.2)) ∧
    (∀ u r, (proxTv S u s).1 ≠ .ok r) ∧
    (∀ l t, s.getLmax S = (.ok (some (.fin l)), t) → proxTv S true s = (.error .nameError, t) ∧ proxTv S false s = (.error .importError, t)) := by
  refine ⟨fun f a o => ⟨rfl, rfl⟩, by simp [treeMultiresolution], fun r => ?_, fun t h => by simp [treeMultiresolution, h], fun u r => ?_, fun l t h => ?_⟩
  · unfold treeMultiresolution
    rw [if_pos rfl]
    rcases s.computeFourierBasis S none with ⟨_ | a, s'⟩ <;> simp
  · unfold proxTv
    rcases Bank.lmaxNum S s with ⟨_ | a, s'⟩
    · simp
    · dsimp only
      split <;> simp
  · have : Bank.lmaxNum S s = (.ok l, t) := by simp [Bank.lmaxNum, h]
    constructor <;> simp [proxTv, this]

/-- the hypotheses are met: a program on the path with four vertices that filters, fails in `prox_tv`, and draws -/
example : ∃ (S : Solvers 4) (g : Graph 4 ℝ), Sound S ∧ g.Built ∧ g.W.dense = path4 ∧
    ∀ f a draw p c i, (runCalls S [.filter f a .exact 30, .proxTv true, .setCoordinates draw (.name "spring") p c i, .filter f a .chebyshev 30]
      (GState.ofGraph g)).lapType = .combinatorial := by
  obtain ⟨S, hS, -⟩ := exists_sound 4
  obtain ⟨g, hg, hW, hl⟩ := Graph.exists_built path4 (lt := .combinatorial) (.inl rfl)
  exact ⟨S, g, hS, hg, hW, fun f a draw p c i => ((C131_frame hS hg _ rfl).2.2.2.2.2.2.2 (by simp)).1.trans hl⟩

end PyGSP
