import Verif.Model.NNGraph
import Verif.Model.Distances
import Mathlib.Analysis.SpecialFunctions.Log.Basic
import Mathlib.Analysis.SpecialFunctions.Trigonometric.Basic
import Mathlib.Analysis.Complex.Exponential

/-!
# Graphs built from random points

`pygsp/graphs/swissroll.py`, `pygsp/graphs/davidsensornet.py`, `pygsp/graphs/nngraphs/sensor.py`, `sphere.py`, `cube.py`, `twomoons.py`.  The numbers
returned by the random generator are parameters.  The attributes that only record an argument, `plotting` and the strings of `repr` are not modelled; nor are
the point clouds loaded from files (`DavidSensorNet(64)`, `DavidSensorNet(500)`, `TwoMoons('standard')`).
-/

namespace PyGSP.Gen

open Matrix

variable {N d : ℕ}

/-- The argument `srtype` of `SwissRoll`. -/
inductive SrType
  | uniform | classic
  | other (name : String)

/-- `tt` (`swissroll.py:74-78`): with another `srtype` the name `tt` is not bound. -/
noncomputable def swissT (type : SrType) (a b : ℝ) (y1 : Fin N → ℝ) : Py (Fin N → ℝ) :=
  match type with
  | .uniform => .ok fun i => √((b * b - a * a) * y1 i + a * a) * Real.pi
  | .classic => .ok fun i => ((b - a) * y1 i + a) * Real.pi
  | .other _ => .error .nameError

/-- `x` (`swissroll.py:80-83`): with another dimension the name `x` is not bound. -/
noncomputable def swissX (dim : ℕ) (t y2 : Fin N → ℝ) : Py (Matrix (Fin dim) (Fin N) ℝ) :=
  if dim = 2 then .ok (Matrix.of fun r j => if r.val = 0 then t j * Real.cos (t j) else t j * Real.sin (t j))
  else if dim = 3 then .ok (Matrix.of fun r j =>
    if r.val = 0 then t j * Real.cos (t j) else if r.val = 1 then 21 * y2 j else t j * Real.sin (t j))
  else .error .nameError

/-- `utils.rescale_center(x)` used as coordinates: when all the points coincide the coordinates are `0/0 = NaN`, hence all the weights, and the
constructor of `Graph` raises ValueError (`swissroll.py:91-95`, `graph.py:109`). -/
noncomputable def rescaleOrNan {r : ℕ} (x : Matrix (Fin r) (Fin N) ℝ) : Py (Matrix (Fin r) (Fin N) ℝ) :=
  match rescaleCenter x with
  | .error .unmodelled => .error .valueError
  | y => y

/-- `W = np.exp(-np.power(dist, 2) / (2 * s**2))` (`swissroll.py:93`, `davidsensornet.py:52`). -/
noncomputable def gaussW (s : ℝ) (dist : Arr) : Matrix (Fin N) (Fin N) ℝ :=
  Matrix.of fun i j => Real.exp (-(dist.val [i.val, j.val]) ^ 2 / (2 * s ^ 2))

/-- `s` (`swissroll.py:58-59`). -/
noncomputable def swissS (N : ℕ) : Option ℝ → Py ℝ
  | some s => .ok s
  | none => if N = 0 then .error .zeroDivisionError else .ok (√(2 / N))

open Classical in
/-- `SwissRoll(N, a, b, dim, thresh, s, noise, srtype)` (`swissroll.py:45-105`): the graph and its coordinates; `y1`, `y2` and `noise` are the random
numbers.  With `s = 0` the diagonal is NaN and the constructor of `Graph` raises ValueError. -/
noncomputable def swissRoll (a b : ℝ) (dim : ℕ) (thresh : ℝ) (s : Option ℝ) (noise : Option (Matrix (Fin dim) (Fin N) ℝ)) (type : SrType)
    (y1 y2 : Fin N → ℝ) (lt : LapType) : Py (Graph N ℝ × Matrix (Fin N) (Fin dim) ℝ) := do
  let s ← swissS N s
  let t ← swissT type a b y1
  let x ← swissX dim t y2
  let x := x + noise.getD 0
  let coords ← rescaleOrNan x
  let dist ← distanz (Arr.of2 coords) none
  if s = 0 then .error .valueError
  else
    let W : Matrix (Fin N) (Fin N) ℝ := gaussW s dist
    let W := W - Matrix.diagonal fun i => W i i
    let W : Matrix (Fin N) (Fin N) ℝ := Matrix.of fun i j => if W i j < thresh then 0 else W i j
    let g ← Graph.ofCsr (Sp.ofDense W) lt
    .ok (g, coordsᵀ)

/-- `target_dist_cutoff` (`davidsensornet.py:48`). -/
noncomputable def davidCutoff (N : ℕ) : ℝ := -0.125 * N / 436.075 + 0.2183

/-- `DavidSensorNet(N)` (`davidsensornet.py:30-58`) where `coords` is what the random generator returns. -/
noncomputable def davidSensorNet (coords : Matrix (Fin N) (Fin 2) ℝ) (lt : LapType) : Py (Graph N ℝ × Matrix (Fin N) (Fin 2) ℝ) := do
  if N = 64 ∨ N = 500 then .error .unmodelled
  else
    let T : ℝ := 0.6
    let s := √(-(davidCutoff N) ^ 2 / (2 * Real.log T))
    let dist ← distanz (Arr.of2 coordsᵀ) none
    let W : Matrix (Fin N) (Fin N) ℝ := gaussW s dist
    let W : Matrix (Fin N) (Fin N) ℝ := open Classical in Matrix.of fun i j => if W i j < T then 0 else W i j
    let W : Matrix (Fin N) (Fin N) ℝ := Matrix.of fun i j => if i = j then 0 else W i j
    let g ← Graph.ofCsr (Sp.ofDense W) lt
    .ok (g, coords)

/-- The coordinates of `Sensor` (`sensor.py:56-71`); `U` is what `rng.uniform` returns.  `np.mgrid[0 : 1 : 1/m, 0 : 1 : 1/m]` has `m` values in each direction in
exact arithmetic.  With `N = 0` the step is infinite. -/
noncomputable def sensorCoords (distributed : Bool) (U : Fin N → Fin 2 → ℝ) : Py (Fin N → Fin 2 → ℝ) :=
  if distributed then
    let m := N.sqrt
    if m * m ≠ N then .error .valueError
    else if N = 0 then .error .unmodelled
    else .ok fun p a => (if a = 0 then ((p.val / m : ℕ) : ℝ) * (1 / m) else ((p.val % m : ℕ) : ℝ) * (1 / m)) + U p a
  else .ok U

/-- `Sensor(N, k, distributed, ...)` (`sensor.py:50-75`). -/
noncomputable def sensor (k : ℕ) (distributed : Bool) (U : Fin N → Fin 2 → ℝ) (type : NNType) (sigma : Option ℝ) (epsilon : ℝ)
    (method : SymMethod) (dist : DistType) (nn : Fin N → List (Fin N)) (lt : LapType) : Py (Graph N ℝ × (Fin N → Fin 2 → ℝ)) := do
  let coords ← sensorCoords distributed U
  nnGraph coords type false false k sigma epsilon method dist nn lt

/-- The argument `sampling`. -/
inductive Sampling
  | random
  | other (name : String)

open Classical in
/-- The points of `Sphere` (`sphere.py:44-52`); `Z` is what `rs.normal` returns.  A null vector gives NaN. -/
noncomputable def spherePoints (sampling : Sampling) (Z : Fin N → Fin d → ℝ) : Py (Fin N → Fin d → ℝ) :=
  match sampling with
  | .random => if ∃ i, √(∑ a, Z i a ^ 2) = 0 then .error .unmodelled else .ok fun i a => Z i a / √(∑ a, Z i a ^ 2)
  | .other _ => .error .valueError

/-- `Sphere(radius, nb_pts, nb_dim, sampling, ...)` (`sphere.py:35-60`): `radius` is recorded and not used. -/
noncomputable def sphere (_radius : ℝ) (sampling : Sampling) (Z : Fin N → Fin d → ℝ) (type : NNType) (sigma : Option ℝ) (epsilon : ℝ)
    (method : SymMethod) (dist : DistType) (nn : Fin N → List (Fin N)) (lt : LapType) : Py (Graph N ℝ × (Fin N → Fin d → ℝ)) := do
  let pts ← spherePoints sampling Z
  nnGraph pts type false false 10 sigma epsilon method dist nn lt

/-- The six slices of the points of a cube in three dimensions (`cube.py:52-71`): coordinate `a` of point `i` of slice `f`; `u` is the sequence of numbers drawn by
`rs.rand`, filling arrays row by row. -/
def cubeFace (n : ℕ) (u : ℕ → ℝ) (f i : ℕ) (a : Fin 3) : ℝ :=
  match f with
  | 0 => ![0, u (2 * i), u (2 * i + 1)] a
  | 1 => ![1, u (2 * n + 2 * i), u (2 * n + 2 * i + 1)] a
  | 2 => ![u (4 * n + i), 0, u (5 * n + i)] a
  | 3 => ![u (6 * n + i), 1, u (7 * n + i)] a
  | 4 => ![u (8 * n + 2 * i), u (8 * n + 2 * i + 1), 0] a
  | _ => ![u (10 * n + 2 * i), u (10 * n + 2 * i + 1), 1] a

/-- `pts` (`cube.py:45-74`): with another dimension than two or three the name `pts` is not bound. -/
noncomputable def cubePoints (nbPts nbDim : ℕ) (sampling : Sampling) (u : ℕ → ℝ) : Py (Σ N : ℕ, Fin N → Fin nbDim → ℝ) :=
  if 3 < nbDim then .error .notImplementedError
  else
    match sampling with
    | .other _ => .error .valueError
    | .random =>
      if nbDim = 2 then .ok ⟨nbPts, fun i a => u (i.val * 2 + a.val)⟩
      else if nbDim = 3 then
        let n := nbPts / 6
        .ok ⟨n * 6, fun i a => cubeFace n u (i.val / n) (i.val % n) (Fin.ofNat 3 a.val)⟩
      else .error .nameError

/-- `Cube(radius, nb_pts, nb_dim, sampling, ...)` (`cube.py:35-85`): `radius` is recorded and not used. -/
noncomputable def cube (_radius : ℝ) (nbPts nbDim : ℕ) (sampling : Sampling) (u : ℕ → ℝ) (type : NNType) (sigma : Option ℝ) (epsilon : ℝ)
    (method : SymMethod) (dist : DistType) (nn : (N : ℕ) → Fin N → List (Fin N)) (lt : LapType) :
    Py (Σ N : ℕ, Graph N ℝ × (Fin N → Fin nbDim → ℝ)) := do
  let ⟨N, pts⟩ ← cubePoints nbPts nbDim sampling u
  let r ← nnGraph pts type false false 10 sigma epsilon method dist (nn N) lt
  .ok ⟨N, r⟩

/-- The argument `moontype`. -/
inductive MoonType
  | standard | synthesized
  | other (name : String)

/-- What a generator gives in `_create_arc_moon`: `rng.uniform`, `rng.normal`, `rng.uniform`, of a given size. -/
structure MoonDraws where
  phi : ℕ → ℝ
  rb : ℕ → ℝ
  ab : ℕ → ℝ

/-- `_create_arc_moon(N, sigmad, distance, number, seed)` (`twomoons.py:46-63`): the two coordinates of point `i`. -/
noncomputable def arcMoon (D : MoonDraws) (sigmad distance : ℝ) (first : Bool) (i : ℕ) : Fin 2 → ℝ :=
  let phi := D.phi i * Real.pi
  let r : ℝ := 1
  let rb := sigmad * D.rb i
  let ab := D.ab i * 2 * Real.pi
  let bx := rb * Real.cos ab
  let b_y := rb * Real.sin ab
  if first then ![Real.cos phi * r + bx + 0.5, -Real.sin phi * r + b_y - (distance - 1) / 2]
  else ![Real.cos phi * r + bx - 0.5, Real.sin phi * r + b_y + (distance - 1) / 2]

/-- `Xin` and `labels` for `N` points (`twomoons.py:88-100`).  A seed determines what the generator gives for each size; without a seed the two moons use two
states `fresh` of the generator. -/
noncomputable def moonPoints {S : Type} (draw : S → ℕ → MoonDraws) (seed : Option S) (fresh : S × S) (N : ℕ) (sigmad distance : ℝ) :
    (Fin N → Fin 2 → ℝ) × (Fin N → ℝ) :=
  let N1 := N / 2
  let N2 := N - N1
  let coords1 := arcMoon (draw (seed.getD fresh.1) N1) sigmad distance true
  let coords2 := arcMoon (draw (seed.getD fresh.2) N2) sigmad distance false
  (fun i => if i.val < N1 then coords1 i.val else coords2 (i.val - N1), fun i => if i.val < N1 then 0 else 1)

/-- `TwoMoons(moontype, dim, sigmag, N, sigmad, distance, seed)` (`twomoons.py:65-114`): the graph, its coordinates and `labels`.  The cloud of `standard` is
loaded from a file. -/
noncomputable def twoMoons {S : Type} (moon : MoonType) (sigmag : ℝ) (N : ℕ) (sigmad distance : ℝ) (draw : S → ℕ → MoonDraws) (seed : Option S) (fresh : S × S)
    (type : NNType) (epsilon : ℝ) (method : SymMethod) (dist : DistType) (nn : Fin N → List (Fin N)) (lt : LapType) :
    Py (Graph N ℝ × (Fin N → Fin 2 → ℝ) × (Fin N → ℝ)) :=
  match moon with
  | .standard => .error .unmodelled
  | .other _ => .error .valueError
  | .synthesized => do
    let (X, labels) := moonPoints draw seed fresh N sigmad distance
    let (g, Y) ← nnGraph X type false false 5 (some sigmag) epsilon method dist nn lt
    .ok (g, Y, labels)

end PyGSP.Gen
