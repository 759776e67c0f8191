import Verif.Model.Designs

/-!
# Filters bound to graph objects (`pygsp/filters/filter.py` and the designs)

`Model/Filter` treats the kernels of a bank as pure functions.  Here the graphs are objects in memory, and a kernel is a closure: it may
read `G.lmax` of the graph given to the constructor each time it is called, which may compute it.  Several filters may share graphs.

Simplifications: exact arithmetic; a kernel does not modify a graph except through the lazily computed attributes of `GState`;
`Heat` without `normalize`.
-/

namespace PyGSP

variable {p : ℕ} {size : Fin p → ℕ}

/-- The graph objects in memory: object `i` has `size i` vertices. -/
abbrev Heap (size : Fin p → ℕ) := (i : Fin p) → GState (size i)

/-- The external eigensolvers, for each graph. -/
abbrev Sols (size : Fin p → ℕ) := (i : Fin p) → Solvers (size i)

/-- Call a method of the graph `i`. -/
def Heap.at {α : Type} (h : Heap size) (i : Fin p) (m : GState (size i) → Py α × GState (size i)) : Py α × Heap size :=
  ((m (h i)).1, Function.update h i (m (h i)).2)

/-- A kernel: a closure called on a 1-D array (`filter.py:143`, `approximations.py:52`). -/
abbrev LKernel (size : Fin p → ℕ) := Heap size → (k : ℕ) → (Fin k → ℝ) → Py (Fin k → ℝ) × Heap size

/-- A kernel that does not look at a graph when it is called. -/
def LKernel.fixed (g : Kernel) : LKernel size := fun h k x => (g k x, h)

/-- A kernel whose body reads `G.lmax` of graph `i` (`expwin.py:61-64`, `heat.py:112`, `held.py:67`, `papadakis.py:60`,
`rectangular.py:59-63`, `regular.py:62`, `simoncelli.py:60`, `wave.py:119`). -/
noncomputable def LKernel.reads (S : Sols size) (i : Fin p) (g : ℝ → Kernel) : LKernel size := fun h k x =>
  match h.at i (Bank.lmaxNum (S i)) with
  | (.error e, h) => (.error e, h)
  | (.ok l, h) => (g l k x, h)

/-- Run `m` calls in order on the memory, stop at the first exception. -/
def seqHeap {α : Type} : (m : ℕ) → (Fin m → Heap size → Py α × Heap size) → Heap size → Py (Fin m → α) × Heap size
  | 0, _, h => (.ok fun i => i.elim0, h)
  | m + 1, f, h =>
    match f 0 h with
    | (.error e, h) => (.error e, h)
    | (.ok a, h) =>
      match seqHeap m (fun i => f i.succ) h with
      | (.error e, h) => (.error e, h)
      | (.ok g, h) => (.ok (Fin.cons a g), h)

/-- A `Filter` object: its graph and its kernels (`filter.py:56-69`). -/
structure LFilter (size : Fin p → ℕ) where
  graph : Fin p
  kernels : List (LKernel size)

namespace LFilter

/-- `len(f)` (`filter.py:83-85`). -/
abbrev Nf (f : LFilter size) : ℕ := f.kernels.length

/-- `Filter.__getitem__` (`filter.py:87-88`). -/
def getitem (f : LFilter size) : Bank.Key → Py (LFilter size)
  | .idx i =>
    let j : ℤ := if i < 0 then i + f.Nf else i
    if j < 0 then .error .indexError
    else match f.kernels[j.toNat]? with
      | some g => .ok ⟨f.graph, [g]⟩
      | none => .error .indexError
  | .slice lo hi => .ok ⟨f.graph, (f.kernels.take hi).drop lo⟩

/-- `Filter.__add__` (`filter.py:90-94`). -/
def add (f g : LFilter size) : LFilter size := ⟨f.graph, f.kernels ++ g.kernels⟩

/-- `Filter.__call__` on a graph (`filter.py:96-98`): the kernels are kept. -/
def on (f : LFilter size) (j : Fin p) : LFilter size := ⟨j, f.kernels⟩

/-- `Filter.evaluate` (`filter.py:139-144`) at a 1-D array, and `f(x)` (`filter.py:99-100`). -/
def evaluate (f : LFilter size) (h : Heap size) {k : ℕ} (x : Fin k → ℝ) : Py (Fin f.Nf → Fin k → ℝ) × Heap size :=
  seqHeap f.Nf (fun i h => f.kernels.get i h k x) h

/-- The end of the kernel of `complement` (`filter.py:646-659`), `y` being the responses. -/
noncomputable def complementOf {q k : ℕ} (frameBound : Option ℝ) (y : Fin q → Fin k → ℝ) : Py (Fin k → ℝ) :=
  match arrMax fun j => ∑ i, (y i j) ^ 2 with
  | .error e => .error e
  | .ok m =>
    match frameBound with
    | none => .ok fun j => Real.sqrt (m - ∑ i, (y i j) ^ 2)
    | some b => if b < m then .error .valueError else .ok fun j => Real.sqrt (b - ∑ i, (y i j) ^ 2)

/-- The kernel of `Filter.complement` (`filter.py:644-659`): it calls `self.evaluate`. -/
noncomputable def complementKernel (f : LFilter size) (frameBound : Option ℝ) : LKernel size := fun h _ x =>
  match f.evaluate h x with
  | (.error e, h) => (.error e, h)
  | (.ok y, h) => (complementOf frameBound y, h)

/-- `Filter.complement` (`filter.py:661`). -/
noncomputable def complement (f : LFilter size) (frameBound : Option ℝ) : LFilter size := ⟨f.graph, [f.complementKernel frameBound]⟩

/-- `return s.squeeze()` (`filter.py:328`). -/
def squeezeHeap {m a b : ℕ} : Py (Fin m → Fin a → Fin b → ℝ) × Heap size → Py Arr × Heap size
  | (.error e, h) => (.error e, h)
  | (.ok y, h) => (.ok (Arr.of3 y).squeeze, h)

/-- `f = self.evaluate(self.G.e)` (`filter.py:295`): the basis is computed first if needed. -/
noncomputable def spectralValues (S : Sols size) (f : LFilter size) (h : Heap size) :
    Py (Σ b : Basis (size f.graph), (Fin f.Nf → Fin b.k → ℝ)) × Heap size :=
  match h.at f.graph (fun s => s.getBasis (S f.graph)) with
  | (.error e, h) => (.error e, h)
  | (.ok none, h) => (.error .typeError, h)
  | (.ok (some b), h) =>
    match f.evaluate h b.e with
    | (.error e, h) => (.error e, h)
    | (.ok y, h) => (.ok ⟨b, y⟩, h)

/-- One call of `compute_cheby_coeff` (`approximations.py:34-55`): `G.lmax`, then the kernel.  Simplification: the kernel is called once,
and not once for each coefficient, with the same array. -/
noncomputable def chebCoeff1 (S : Sols size) (f : LFilter size) (m : ℕ) (g : LKernel size) (h : Heap size) :
    Py (Fin (m + 1) → ℝ) × Heap size :=
  match h.at f.graph (Bank.lmaxNum (S f.graph)) with
  | (.error e, h) => (.error e, h)
  | (.ok l, h) =>
    match g h (m + 1) (chebNode l (m + 1)) with
    | (.error e, h) => (.error e, h)
    | (.ok y, h) => (.ok fun o => 2 / ((m + 1 : ℕ) : ℝ) * ∑ j : Fin (m + 1), y j * Real.cos (Real.pi * o * (j + 1 / 2) / ((m + 1 : ℕ) : ℝ)), h)

/-- `compute_cheby_coeff(self, m=order)` (`filter.py:305`, `approximations.py:9-55`, `utils.py:37-53`). -/
noncomputable def chebCoeffs (S : Sols size) (f : LFilter size) (m : ℕ) (h : Heap size) :
    Py (Fin f.Nf → Fin (m + 1) → ℝ) × Heap size :=
  if f.Nf = 0 then
    match h.at f.graph (Bank.lmaxNum (S f.graph)) with
    | (.error e, h) => (.error e, h)
    | (.ok _, h) => (.error .indexError, h)
  else seqHeap f.Nf (fun i h => chebCoeff1 S f m (f.kernels.get i) h) h

/-- `Filter.filter` (`filter.py:146, 267-328`). -/
noncomputable def filter (S : Sols size) (f : LFilter size) (a : Arr) (method : FMethod) (order : ℕ) (h : Heap size) :
    Py Arr × Heap size :=
  match parseSignal (size f.graph) f.Nf a with
  | .error e => (.error e, h)
  | .ok (.analysis _ x) =>
    match method with
    | .exact =>
      match f.spectralValues S h with
      | (.error e, h) => (.error e, h)
      | (.ok ⟨b, y⟩, h) => squeezeHeap (h.at f.graph (Bank.exactAnalysisWith (S f.graph) b y x))
    | .chebyshev =>
      match f.chebCoeffs S order h with
      | (.error e, h) => (.error e, h)
      | (.ok c, h) => squeezeHeap (h.at f.graph (Bank.chebAnalysisWith (S f.graph) c x))
    | .other _ => (.error .valueError, h)
  | .ok (.synthesis _ x) =>
    match method with
    | .exact =>
      match f.spectralValues S h with
      | (.error e, h) => (.error e, h)
      | (.ok ⟨b, y⟩, h) => squeezeHeap (h.at f.graph (Bank.exactSynthesisWith (S f.graph) b y x))
    | .chebyshev =>
      match f.chebCoeffs S order h with
      | (.error e, h) => (.error e, h)
      | (.ok c, h) => squeezeHeap (h.at f.graph (Bank.chebSynthesisWith (S f.graph) c x))
    | .other _ => (.error .valueError, h)

/-- `f @ s` (`filter.py:102-103`). -/
noncomputable def matmul (S : Sols size) (f : LFilter size) (a : Arr) (h : Heap size) : Py Arr × Heap size :=
  f.filter S a .chebyshev 30 h

/-- `Filter.compute_frame` (`filter.py:593-600`). -/
noncomputable def computeFrame (S : Sols size) (f : LFilter size) (method : FMethod) (order : ℕ) (h : Heap size) : Py Arr × Heap size :=
  match f.filter S (Arr.of2 fun i j : Fin (size f.graph) => if i = j then 1 else 0) method order h with
  | (.error e, h) => (.error e, h)
  | (.ok a, h) => (a.transpose.reshapeRows (size f.graph), h)

/-- `Filter.toarray` (`filter.py:105-110`). -/
noncomputable def toarray (S : Sols size) (f : LFilter size) (h : Heap size) : Py Arr × Heap size := f.computeFrame S .chebyshev 30 h

end LFilter

/-! ### The designs -/

/-- The designs whose kernels read `G.lmax` when they are called, and their arguments. -/
inductive LazyDesign
  | held (junk : Junk) (a : ℝ)
  | papadakis (junk : Junk) (a : ℝ)
  | simoncelli (junk : Junk) (a : ℝ)
  | regular (degree : ℕ)
  | heat (scale : List ℝ)
  | wave (time speed : List ℝ)
  | expwin (bandMin bandMax : Option ℝ) (slope : ℝ)
  | rectangular (bandMin bandMax : Option ℝ)

namespace LazyDesign

/-- `Filter(G, kernel)`, its complement for the bound 1, and the bank of both (`held.py:67-71`, `papadakis.py:60-64`,
`regular.py:62-66`, `simoncelli.py:60-64`). -/
noncomputable def withComplement (g : Fin p) (k : LKernel size) : LFilter size :=
  ⟨g, [k] ++ ((⟨g, [k]⟩ : LFilter size).complement (some 1)).kernels⟩

/-- The selection between low-pass, high-pass and band-pass (`expwin.py:66-73`, `rectangular.py:66-73`): without bands, `G.lmax` is not
read. -/
noncomputable def band (S : Sols size) (g : Fin p) (low high : ℝ → ℝ → ℝ → ℝ) (bandMin bandMax : Option ℝ) : LKernel size :=
  match bandMin, bandMax with
  | none, none => LKernel.fixed (Kernel.pointwise fun _ => 1)
  | none, some hi => LKernel.reads S g fun l => Kernel.pointwise (low l hi)
  | some lo, none => LKernel.reads S g fun l => Kernel.pointwise (high l lo)
  | some lo, some hi => fun h k x =>
    match LKernel.reads S g (fun l => Kernel.pointwise (low l hi)) h k x with
    | (.error e, h) => (.error e, h)
    | (.ok y, h) =>
      match LKernel.reads S g (fun l => Kernel.pointwise (high l lo)) h k x with
      | (.error e, h) => (.error e, h)
      | (.ok z, h) => (.ok fun j => y j * z j, h)

/-- The constructors, given the graph `g` (`held.py:46-71`, `papadakis.py:42-64`, `simoncelli.py:42-64`, `regular.py:50-66`,
`heat.py:102-119`, `wave.py:91-123`, `expwin.py:43-75`, `rectangular.py:54-75`): they do not touch the graph. -/
noncomputable def build (S : Sols size) (g : Fin p) : LazyDesign → Py (LFilter size)
  | .held junk a =>
    .ok (withComplement g (LKernel.reads S g fun l => Kernel.onEmpty junk fun x => Design.heldKernel a (x * 2 / l)))
  | .papadakis junk a =>
    .ok (withComplement g (LKernel.reads S g fun l => Kernel.onEmpty junk fun x => Design.papadakisKernel a (x * 2 / l)))
  | .simoncelli junk a =>
    .ok (withComplement g (LKernel.reads S g fun l => Kernel.onEmpty junk fun x => Design.simoncelliKernel a (x * 2 / l)))
  | .regular degree =>
    .ok (withComplement g (LKernel.reads S g fun l => Kernel.pointwise fun x => Design.regularKernel degree (x * 2 / l)))
  | .heat scale => .ok ⟨g, scale.map fun s => LKernel.reads S g fun l => Kernel.pointwise fun x => Design.heatKernel l s x / 1⟩
  | .wave time speed =>
    match Design.broadcast time speed with
    | .error e => .error e
    | .ok (time, speed) =>
      if speed.any (fun s => s ≥ 2) then .error .valueError
      else .ok ⟨g, (time.zip speed).map fun q => LKernel.reads S g fun l => Kernel.orNaN (Design.waveKernel l q.1 q.2)⟩
  | .expwin lo hi slope =>
    .ok ⟨g, [band S g (fun l hi x => Design.expwinH slope (0.5 - x / l + hi)) (fun l lo x => Design.expwinH slope (0.5 + x / l - lo)) lo hi]⟩
  | .rectangular lo hi =>
    .ok ⟨g, [band S g (fun l hi x => if x / l ≤ hi then 1 else 0) (fun l lo x => if x / l ≥ lo then 1 else 0) lo hi]⟩

/-- The design for a given `lmax` (`Model/Designs`). -/
noncomputable def bank (l : ℝ) : LazyDesign → Py Bank
  | .held junk a => .ok (Design.held junk l a)
  | .papadakis junk a => .ok (Design.papadakis junk l a)
  | .simoncelli junk a => .ok (Design.simoncelli junk l a)
  | .regular degree => .ok (Design.regular l degree)
  | .heat scale => .ok (Design.heat l scale none)
  | .wave time speed => Design.wave l time speed
  | .expwin lo hi slope => .ok (Design.expwin l lo hi slope)
  | .rectangular lo hi => .ok (Design.rectangular l lo hi)

end LazyDesign

/-- The designs that read `G.lmax` in the constructor, and their arguments. -/
inductive EagerDesign
  | meyer (Nf : ℕ) (scales : Option (List ℝ))
  | simpleTight (Nf : ℕ) (scales : Option (List ℝ))
  | halfCosine (Nf : ℕ)
  | itersine (Nf overlap : ℕ)
  | mexicanHat (Nf : ℕ) (lpfactor : ℝ) (scales : Option (List ℝ)) (normalize : Bool)
  | abspline (xstar : ℝ) (Nf : ℕ) (lpfactor : ℝ) (scales : Option (List ℝ))

namespace EagerDesign

/-- The design for a given `lmax` (`Model/Designs`). -/
noncomputable def bank (l : ℝ) : EagerDesign → Py Bank
  | .meyer Nf scales => Design.meyer l Nf scales
  | .simpleTight Nf scales => Design.simpleTight l Nf scales
  | .halfCosine Nf => Design.halfCosine l Nf
  | .itersine Nf overlap => .ok (Design.itersine l Nf overlap)
  | .mexicanHat Nf lpfactor scales normalize => Design.mexicanHat l Nf lpfactor scales normalize
  | .abspline xstar Nf lpfactor scales => .ok (Design.abspline xstar l Nf lpfactor scales)

/-- Whether the constructor reads `G.lmax`: not when the scales are given (`meyer.py:42-43`, `simpletight.py:85-86`), nor when it raises before
(`halfcosine.py:33-34`). -/
def readsLmax : EagerDesign → Bool
  | .meyer _ scales => scales.isNone
  | .simpleTight _ scales => scales.getD [] = []
  | .halfCosine Nf => decide (2 < Nf)
  | _ => true

/-- The constructors, given the graph `g` (`meyer.py:41-89`, `simpletight.py:41-97`, `halfcosine.py:32-52`, `itersine.py:37-57`,
`mexicanhat.py:55-84`, `abspline.py:42-108`): the kernels keep the numbers computed from `G.lmax`.  When `G.lmax` is not read, the
result does not depend on it. -/
noncomputable def build (S : Sols size) (g : Fin p) (d : EagerDesign) (h : Heap size) : Py (LFilter size) × Heap size :=
  if d.readsLmax then
    match h.at g (Bank.lmaxNum (S g)) with
    | (.error e, h) => (.error e, h)
    | (.ok l, h) => ((d.bank l).map fun B => ⟨g, B.kernels.map LKernel.fixed⟩, h)
  else ((d.bank 0).map fun B => ⟨g, B.kernels.map LKernel.fixed⟩, h)

end EagerDesign

/-! ### Histories -/

/-- What a program does with the graphs and the filters: operations on a graph, evaluation and filtering. -/
inductive HOp (size : Fin p → ℕ)
  | graph (i : Fin p) (op : Op (size i))
  | evaluate (f : LFilter size) (k : ℕ) (x : Fin k → ℝ)
  | filter (f : LFilter size) (a : Arr) (method : FMethod) (order : ℕ)

/-- The memory after one step (an exception is caught by the caller). -/
noncomputable def HOp.run (S : Sols size) (h : Heap size) : HOp size → Heap size
  | .graph i op => (h.at i (op.run (S i))).2
  | .evaluate f _ x => (f.evaluate h x).2
  | .filter f a method order => (f.filter S a method order h).2

/-- The memory after a program. -/
noncomputable def runHeap (S : Sols size) (prog : List (HOp size)) (h : Heap size) : Heap size := prog.foldl (HOp.run S) h

end PyGSP
