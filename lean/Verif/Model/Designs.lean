import Verif.Model.Filter
import Mathlib.Analysis.SpecialFunctions.Trigonometric.Inverse
import Mathlib.Analysis.SpecialFunctions.Log.Basic
import Mathlib.Analysis.SpecialFunctions.Sqrt
import Mathlib.LinearAlgebra.Matrix.Notation
import Mathlib.LinearAlgebra.Matrix.NonsingularInverse

/-!
# The filter designs of `pygsp/filters/*.py`

`lmax` is the value of `G.lmax` (a positive number unless said otherwise).  The designs read it when they are built, or
again when the kernels are evaluated: the same value here.
-/

namespace PyGSP

/-- The uninitialised entries of `np.empty`: any numbers. -/
abbrev Junk := (k : ℕ) → Fin k → ℝ

/-- A kernel that writes `p x` into an array made by `np.empty`, for the `x` where `p x` is defined. -/
def Kernel.onEmpty (junk : Junk) (p : ℝ → Option ℝ) : Kernel := fun k x => .ok fun j => (p (x j)).getD (junk k j)

/-- A kernel whose value is NaN where `p x` is not defined (such values are not modelled). -/
def Kernel.orNaN (p : ℝ → Option ℝ) : Kernel := fun _ x =>
  seqFin _ fun j => match p (x j) with | some y => .ok y | none => .error .unmodelled

namespace Design

open Real

/-- One kernel and its complement for the frame bound 1 (the last lines of `held.py`, `papadakis.py`, `regular.py`,
`simoncelli.py`). -/
noncomputable def withComplement (g : Kernel) : Bank :=
  let f := Bank.ofArg (.one g)
  Bank.ofArg (.many (f.kernels ++ (f.complement (some 1)).kernels))

/-- The kernel of `Held` (`held.py:49-65`): three regions, the last assignment wins. -/
noncomputable def heldKernel (a x : ℝ) : Option ℝ :=
  let mu := fun x : ℝ => -1 + 24 * x - 144 * x ^ 2 + 256 * x ^ 3
  if x ≥ 2 * a then some 0
  else if x ≥ a ∧ x < 2 * a then some (sin (2 * π * mu (x / 8 / a)))
  else if x ≥ 0 ∧ x < a then some 1
  else none

/-- `Held` (`held.py:46-71`). -/
noncomputable def held (junk : Junk) (lmax a : ℝ) : Bank :=
  withComplement (Kernel.onEmpty junk fun x => heldKernel a (x * 2 / lmax))

/-- The kernel of `Papadakis` (`papadakis.py:45-58`). -/
noncomputable def papadakisKernel (a x : ℝ) : Option ℝ :=
  if x ≥ a * 5 / 3 then some 0
  else if x ≥ a ∧ x < a * 5 / 3 then some (√((1 - sin (3 * π / (2 * a) * x)) / 2))
  else if x ≥ 0 ∧ x < a then some 1
  else none

/-- `Papadakis` (`papadakis.py:42-64`). -/
noncomputable def papadakis (junk : Junk) (lmax a : ℝ) : Bank :=
  withComplement (Kernel.onEmpty junk fun x => papadakisKernel a (x * 2 / lmax))

/-- The kernel of `Simoncelli` (`simoncelli.py:45-58`). -/
noncomputable def simoncelliKernel (a x : ℝ) : Option ℝ :=
  if x ≥ 2 * a then some 0
  else if x ≥ a ∧ x < 2 * a then some (cos (π / 2 * log (x / a) / log 2))
  else if x ≥ 0 ∧ x < a then some 1
  else none

/-- `Simoncelli` (`simoncelli.py:42-64`). -/
noncomputable def simoncelli (junk : Junk) (lmax a : ℝ) : Bank :=
  withComplement (Kernel.onEmpty junk fun x => simoncelliKernel a (x * 2 / lmax))

/-- The kernel of `Regular` (`regular.py:53-60`), with the loop `for _ in range(2, degree)`. -/
noncomputable def regularKernel (degree : ℕ) (x : ℝ) : ℝ :=
  if degree = 0 then sin (π / 4 * x)
  else
    let output := (fun y => sin (π * y / 2))^[degree - 2] (sin (π * (x - 1) / 2))
    sin (π / 4 * (1 + output))

/-- `Regular` (`regular.py:50-66`), for an integer degree. -/
noncomputable def regular (lmax : ℝ) (degree : ℕ) : Bank :=
  withComplement (Kernel.pointwise fun x => regularKernel degree (x * 2 / lmax))

/-! ### Wavelet-like designs -/

/-- The two kinds of kernels of `Meyer` and `SimpleTight`. -/
inductive WKind
  | scaling | wavelet
  deriving DecidableEq

/-- The polynomial of the Meyer window (`meyer.py:68-69`). -/
noncomputable def meyerV (x : ℝ) : ℝ := x ^ 4 * (35 - 84 * x + 70 * x ^ 2 - 20 * x ^ 3)

/-- The Meyer kernels (`meyer.py:54-87`): the array starts at zero. -/
noncomputable def meyerKernel (x : ℝ) : WKind → ℝ
  | .scaling =>
    if x ≥ 2 / 3 ∧ x < 4 / 3 then cos (π / 2 * meyerV (|x| / (2 / 3) - 1))
    else if x < 2 / 3 then 1
    else 0
  | .wavelet =>
    if x ≥ 4 / 3 ∧ x < 8 / 3 then cos (π / 2 * meyerV (|x| / (4 / 3) - 1))
    else if x ≥ 2 / 3 ∧ x < 4 / 3 then sin (π / 2 * meyerV (|x| / (2 / 3) - 1))
    else 0

/-- `np.power(2.0, np.arange(Nf - 2, -1, -1))` times a constant (`meyer.py:43`, `simpletight.py:86`). -/
noncomputable def dyadicScales (c : ℝ) (Nf : ℕ) : List ℝ := (List.range (Nf - 1)).map fun i => c * 2 ^ (Nf - 2 - i)

/-- A bank with one scaling function, at `scales[0]`, and one wavelet for each scale (`meyer.py:46-52`,
`simpletight.py:89-95`).  `scales[0]` raises IndexError, when the kernel is evaluated, if there are no scales. -/
noncomputable def waveletBank (ker : ℝ → WKind → ℝ) (Nf : ℕ) (scales : List ℝ) : Py Bank :=
  if scales.length + 1 ≠ Nf then .error .valueError
  else
    let g0 : Kernel := fun _ x => match scales with
      | [] => .error .indexError
      | s0 :: _ => .ok fun j => ker (s0 * x j) .scaling
    .ok (Bank.ofArg (.many (g0 :: scales.map fun s => Kernel.pointwise fun x => ker (s * x) .wavelet)))

/-- `Meyer` (`meyer.py:41-89`). -/
noncomputable def meyer (lmax : ℝ) (Nf : ℕ) (scales : Option (List ℝ)) : Py Bank :=
  waveletBank meyerKernel Nf (scales.getD (dyadicScales (4 / (3 * lmax)) Nf))

/-- The kernels of `SimpleTight` (`simpletight.py:42-83`). -/
noncomputable def simpleTightKernel (x : ℝ) : WKind → ℝ
  | .scaling =>
    let h := fun x : ℝ => sin (π * x / 2) ^ 2
    if x ≥ 1 / 4 ∧ x < 1 / 2 then √(1 - h (4 * x - 1) ^ 2)
    else if x < 1 / 4 then 1
    else 0
  | .wavelet =>
    let h := fun x : ℝ => sin (π * x / 2) ^ 2
    if x ≥ 1 / 2 ∧ x < 1 then √(1 - h (2 * x - 1) ^ 2)
    else if x ≥ 1 / 4 ∧ x < 1 / 2 then h (4 * (x - 1 / 4))
    else 0

/-- `SimpleTight` (`simpletight.py:41-97`) with `scales` None or a list; `if not scales` also replaces an empty list. -/
noncomputable def simpleTight (lmax : ℝ) (Nf : ℕ) (scales : Option (List ℝ)) : Py Bank :=
  let scales := match scales with
    | none => dyadicScales (1 / (2 * lmax)) Nf
    | some [] => dyadicScales (1 / (2 * lmax)) Nf
    | some l => l
  waveletBank simpleTightKernel Nf scales

/-! ### Uniform translates -/

/-- `HalfCosine` (`halfcosine.py:32-52`). -/
noncomputable def halfCosine (lmax : ℝ) (Nf : ℕ) : Py Bank :=
  if Nf ≤ 2 then .error .valueError
  else
    let dila := lmax * 3 / (Nf - 2 : ℝ)
    let kernel := fun x : ℝ =>
      (0.5 + 0.5 * cos (2 * π * (x / dila - 0.5))) * (if x ≥ 0 then 1 else 0) * (if x ≤ dila then 1 else 0)
    .ok (Bank.ofArg (.many ((List.range Nf).map fun i : ℕ => Kernel.pointwise fun x => kernel (x - dila / 3 * ((i : ℝ) - 2)))))

/-- `Itersine` (`itersine.py:37-57`), for `overlap < Nf + 1` (otherwise there is a division by zero or a negative
scale). -/
noncomputable def itersine (lmax : ℝ) (Nf overlap : ℕ) : Bank :=
  let scales := lmax / (Nf - overlap + 1 : ℝ) * overlap
  let kernel := fun x : ℝ => sin (0.5 * π * cos (x * π) ^ 2) * (if x ≥ -0.5 ∧ x ≤ 0.5 then 1 else 0)
  Bank.ofArg (.many ((List.range' 1 Nf).map fun i : ℕ => Kernel.pointwise fun x =>
    kernel (x / scales - ((i : ℝ) - overlap / 2) / overlap) * √(2 / overlap)))

/-! ### Heat and wave -/

/-- The kernel of `Heat` (`heat.py:111-112`). -/
noncomputable def heatKernel (lmax scale x : ℝ) : ℝ := min (exp (-scale * x / lmax)) 1

/-- `Heat` (`heat.py:102-119`): `scale` is a list (a number is put in a list).  With `normalize`, `G.e` is read:
`e` are the eigenvalues. -/
noncomputable def heat (lmax : ℝ) (scale : List ℝ) (normalize : Option (Σ k, Fin k → ℝ)) : Bank :=
  Bank.ofArg (.many (scale.map fun s =>
    let norm : ℝ := match normalize with
      | some e => √(∑ j, heatKernel lmax s (e.2 j) ^ 2)
      | none => 1
    Kernel.pointwise fun x => heatKernel lmax s x / norm))

/-- Broadcast two lists as `Wave` does (`wave.py:104-113`). -/
def broadcast (time speed : List ℝ) : Py (List ℝ × List ℝ) :=
  if time.length ≠ speed.length then
    match speed, time with
    | [s], _ => .ok (time, List.replicate time.length s)
    | _, [t] => .ok (List.replicate speed.length t, speed)
    | _, _ => .error .valueError
  else .ok (time, speed)

/-- The kernel of `Wave` (`wave.py:118-119`): `np.arccos` is NaN outside `[-1, 1]`. -/
noncomputable def waveKernel (lmax time speed x : ℝ) : Option ℝ :=
  let y := 1 - speed ^ 2 * x / lmax / 2
  if -1 ≤ y ∧ y ≤ 1 then some (cos (time * arccos y)) else none

/-- `Wave` (`wave.py:91-123`). -/
noncomputable def wave (lmax : ℝ) (time speed : List ℝ) : Py Bank :=
  match broadcast time speed with
  | .error e => .error e
  | .ok (time, speed) =>
    if speed.any (fun s => s ≥ 2) then .error .valueError
    else .ok (Bank.ofArg (.many ((time.zip speed).map fun p => Kernel.orNaN (waveKernel lmax p.1 p.2))))

/-! ### Bands -/

/-- `exp` of `Expwin` (`expwin.py:48-53`). -/
noncomputable def expwinExp (slope x : ℝ) : ℝ :=
  let y := exp (-slope / (if x ≤ 0 then -1 else x))
  if x ≤ 0 then 0 else y

/-- `h` of `Expwin` (`expwin.py:55-58`). -/
noncomputable def expwinH (slope x : ℝ) : ℝ :=
  expwinExp slope x / (expwinExp slope x + expwinExp slope (1 - x))

/-- The selection between low-pass, high-pass and band-pass (`expwin.py:66-73`, `rectangular.py:66-73`). -/
noncomputable def bandKernel (low high : ℝ → ℝ → ℝ) (bandMin bandMax : Option ℝ) (x : ℝ) : ℝ :=
  match bandMin, bandMax with
  | none, none => 1
  | none, some hi => low hi x
  | some lo, none => high lo x
  | some lo, some hi => low hi x * high lo x

/-- `Expwin` (`expwin.py:43-75`). -/
noncomputable def expwin (lmax : ℝ) (bandMin bandMax : Option ℝ) (slope : ℝ) : Bank :=
  Bank.ofArg (.one (Kernel.pointwise (bandKernel (fun hi x => expwinH slope (0.5 - x / lmax + hi))
    (fun lo x => expwinH slope (0.5 + x / lmax - lo)) bandMin bandMax)))

/-- `Rectangular` (`rectangular.py:54-75`); booleans are numbers 0 and 1. -/
noncomputable def rectangular (lmax : ℝ) (bandMin bandMax : Option ℝ) : Bank :=
  Bank.ofArg (.one (Kernel.pointwise (bandKernel (fun hi x => if x / lmax ≤ hi then 1 else 0)
    (fun lo x => if x / lmax ≥ lo then 1 else 0) bandMin bandMax)))

/-! ### Log scales, Mexican hat, spline -/

/-- `utils.compute_log_scales` (`utils.py:337-339`), with `np.linspace(a, b, N)` (`N = 1` gives `[a]`). -/
noncomputable def logScales (lmin lmax : ℝ) (N : ℕ) (t1 t2 : ℝ) : List ℝ :=
  let a := log (t2 / lmin)
  let b := log (t1 / lmax)
  (List.range N).map fun i : ℕ => exp (a + (i : ℝ) * ((b - a) / (N - 1 : ℝ)))

/-- `MexicanHat` (`mexicanhat.py:55-84`). -/
noncomputable def mexicanHat (lmax : ℝ) (Nf : ℕ) (lpfactor : ℝ) (scales : Option (List ℝ)) (normalize : Bool) : Py Bank :=
  let lmin := lmax / lpfactor
  let scales := scales.getD (logScales lmin lmax (Nf - 1) 1 2)
  if scales.length + 1 ≠ Nf then .error .valueError
  else
    .ok (Bank.ofArg (.many ((Kernel.pointwise fun x => 1.2 * exp (-1) * exp (-((x / 0.4 / lmin) ^ 4))) ::
      scales.map fun s => Kernel.pointwise fun x =>
        (if normalize then √s else 1) * ((s * x) * exp (-(s * x))))))

/-- The matrix of the spline (`abspline.py:44-51`). -/
noncomputable def splineM (t1 t2 : ℝ) : Matrix (Fin 4) (Fin 4) ℝ :=
  !![1, t1, t1 ^ 2, t1 ^ 3; 1, t2, t2 ^ 2, t2 ^ 3; 0, 1, 2 * t1, 3 * t1 ^ 2; 0, 1, 2 * t2, 3 * t2 ^ 2]

/-- The right-hand side (`abspline.py:52-59`). -/
noncomputable def splineV (alpha beta : ℤ) (t1 t2 : ℝ) : Fin 4 → ℝ :=
  ![1, 1, t1 ^ (-alpha) * alpha * t1 ^ (alpha - 1), -beta * t2 ^ (-beta - 1) * t2 ^ beta]

/-- `kernel_abspline3` on an array of floats (`abspline.py:43-83`): later assignments win; `np.linalg.solve` is exact. -/
noncomputable def abspline3 (alpha beta : ℤ) (t1 t2 x : ℝ) : ℝ :=
  let a := (splineM t1 t2)⁻¹.mulVec (splineV alpha beta t1 t2)
  if x ≥ t2 then x ^ (-beta) * t2 ^ beta
  else if x ≥ t1 ∧ x < t2 then a 0 + a 1 * x + a 2 * x ^ 2 + a 3 * x ^ 3
  else if x ≤ t1 then x ^ alpha * t1 ^ (-alpha)
  else 0

/-- `gb` (`abspline.py:93`). -/
noncomputable def absplineGb (x : ℝ) : ℝ := abspline3 2 2 1 2 x

/-- `Abspline` (`abspline.py:42-108`), for `Nf ≥ 1`.  `xstar` is what `optimize.minimize_scalar(-gb, bounds=(1, 2))`
returns.  The number of scales is not checked: a missing one raises IndexError when its kernel is evaluated. -/
noncomputable def abspline (xstar lmax : ℝ) (Nf : ℕ) (lpfactor : ℝ) (scales : Option (List ℝ)) : Bank :=
  let lmin := lmax / lpfactor
  let scales := scales.getD (logScales lmin lmax (Nf - 1) 1 2)
  Bank.ofArg (.many ((Kernel.pointwise fun x => absplineGb xstar * exp (-((x / (0.6 * lmin)) ^ 4))) ::
    (List.range (Nf - 1)).map fun i : ℕ => match scales[i]? with
      | some s => Kernel.pointwise fun x => absplineGb (s * x)
      | none => fun _ _ => .error .indexError))

/-! ### Vertex-frequency -/

/-- `Gabor` (`gabor.py:72-88`): `e` is `G.e`, `mother` the filter passed, `same` says whether it was built on the same
graph object. -/
noncomputable def gabor (n : ℕ) (e : Σ k, Fin k → ℝ) (mother : Bank) (same : Bool) : Py Bank :=
  if mother.Nf ≠ 1 then .error .valueError
  else if !same then .error .valueError
  else .ok (Bank.ofArg (.many ((List.finRange n).map fun i : Fin n => fun _ x =>
    if h : i.1 < e.1 then
      match mother.evaluate fun j => x j - e.2 ⟨i, h⟩ with
      | .error er => .error er
      | .ok y => if h0 : 0 < mother.Nf then .ok (y ⟨0, h0⟩) else .error .indexError
    else .error .indexError)))

/-- `Gabor.filter` (`gabor.py:90-92`): always exact. -/
noncomputable def gaborFilter {n : ℕ} (S : Solvers n) (f : Bank) (a : Arr) (_method : FMethod) (_order : ℕ) (s : GState n) :
    Py Arr × GState n := f.filter S a .exact 30 s

/-- `Modulation.__init__` (`modulation.py:131-140`): the checks. -/
def modulationCheck (mother : Bank) (same : Bool) : Py Unit :=
  if mother.Nf ≠ 1 then .error .valueError else if !same then .error .valueError else .ok ()

/-- The coefficients of `Modulation.evaluate` (`modulation.py:149-153`), from a complete basis `U` and the values `y` of
the mother kernel on the spectrum. -/
noncomputable def modulationCoef {n : ℕ} (U : Matrix (Fin n) (Fin n) ℝ) (y : Fin n → ℝ) : Matrix (Fin n) (Fin n) ℝ :=
  let c := U.mulVec y
  U.transpose * Matrix.of fun v k => √n * U v k * c v

/-- The filters of `Modulation.evaluate` (`modulation.py:155-162`): filter `k` at frequency `x` is the coefficient at the
first eigenvalue equal to `x`; NaN if there is none (not modelled). -/
noncomputable def modulationBank {n : ℕ} (e : Fin n → ℝ) (U : Matrix (Fin n) (Fin n) ℝ) (y : Fin n → ℝ) : Bank :=
  ⟨(List.finRange n).map fun k : Fin n => Kernel.orNaN fun x =>
    ((List.finRange n).find? fun l => decide (x = e l)).map fun l => modulationCoef U y l k⟩

/-- The loop of `Modulation.filter` with `modulation_first=False` (`modulation.py:171-177`) over the vertices still to be
handled, for a 1-D signal of length `n`: `localize` is called with its default method and order (chebyshev, 30) and returns an
array without dimension when `n = 1` (the product broadcasts), and the row assignment `y[i] = ...` raises ValueError if the basis is partial. -/
noncomputable def modulationLoop {n : ℕ} (S : Solvers n) (mother : Bank) (x : Fin n → ℝ) :
    List (Fin n) → (Fin n → Fin n → ℝ) → GState n → Py (Fin n → Fin n → ℝ) × GState n
  | [], y, s => (.ok y, s)
  | i :: rest, y, s =>
    match mother.localize S i .chebyshev 30 s with
    | (.error e, s) => (.error e, s)
    | (.ok t, s) =>
      match s.gft S (⟨n, fun v => x v * (if t.shape = [] then t.val [] else t.val [v])⟩ : Rows ℝ) with
      | (.error e, s) => (.error e, s)
      | (.ok r, s) =>
        if h : r.len = n then
          modulationLoop S mother x rest (fun i' => if i' = i then fun k => √n * r.row (k.cast h.symm) else y i') s
        else (.error .valueError, s)

end Design

end PyGSP
