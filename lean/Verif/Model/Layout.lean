import Verif.Model.GraphState
import Verif.Model.Array
import Mathlib.Analysis.SpecialFunctions.Trigonometric.Basic

/-!
# `pygsp/graphs/_layout.py`

The random number generator is the function `draw`: `draw d` is the array that `rng.uniform(size=(N, d))` returns.  The community
of a vertex is a natural number (a negative number, which numpy takes from the end, is not modelled).
-/

namespace PyGSP.Layout

open Matrix Classical

variable {n : ℕ}

/-- The dictionary `info` of a graph; a field is `none` when its key is missing. -/
structure Info (n : ℕ) where
  nodeCom : Option (Fin n → ℕ)
  commSizes : Option (List ℕ)
  worldRad : Option ℝ
  comCoords : Option (List (ℝ × ℝ))

/-- The attribute `coords`: not set, an array of numbers, an array of NaN, or a two-dimensional array whose rows are numbers except those of the list `rows`,
which are NaN (the numbers of `a` in these rows have no meaning). -/
inductive Coords
  | unset
  | array (a : Arr)
  | nan (shape : List ℕ)
  | partNan (a : Arr) (rows : List ℕ)

/-- The graph with the attributes `coords` and `info` (`none`: there is no attribute `info`). -/
structure LState (n : ℕ) where
  g : GState n
  coords : Coords
  info : Option (Info n)

/-- The parameters of the spring layout (`_layout.py:121-131`); `k`, `pos`, `center` may be None.  The array `center` has one row; when
its width is not `dim`, zeros are used (`_layout.py:136-141`). -/
structure Spring (n : ℕ) where
  dim : ℕ := 2
  k : Option ℝ := none
  pos : Option (Fin n → Fin dim → ℝ) := none
  fixed : List (Fin n) := []
  iterations : ℕ := 50
  scale : ℝ := 1
  center : Option (Σ d, Fin d → ℝ) := none

/-- The argument `kind`. -/
inductive Kind
  | array (a : Arr)
  | name (s : String)

/-- `np.where(distance < 0.01, 0.01, distance)` for the vertices `i` and `j` (`_layout.py:202-205`). -/
noncomputable def distance {dim : ℕ} (pos : Fin n → Fin dim → ℝ) (i j : Fin n) : ℝ :=
  let d := √(∑ c, (pos i c - pos j c) ^ 2)
  if d < 1 / 100 then 1 / 100 else d

/-- `displacement[:, i]` (`_layout.py:197-211`). -/
noncomputable def displacement {dim : ℕ} (A : Fin n → Fin n → Bool) (k : ℝ) (fixed : List (Fin n)) (pos : Fin n → Fin dim → ℝ) (i : Fin n) :
    Fin dim → ℝ :=
  if i ∈ fixed then 0
  else fun c => ∑ j, (pos i c - pos j c) * (k * k / distance pos i j ^ 2 - (if A i j then 1 else 0) * distance pos i j / k)

/-- One iteration, at temperature `t` (`_layout.py:195-215`): all the displacements are computed before the positions change. -/
noncomputable def springStep {dim : ℕ} (A : Fin n → Fin n → Bool) (k : ℝ) (fixed : List (Fin n)) (t : ℝ) (pos : Fin n → Fin dim → ℝ) :
    Fin n → Fin dim → ℝ := fun i c =>
  let d := displacement A k fixed pos i
  let l := √(∑ c, d c ^ 2)
  let l := if l < 1 / 100 then 1 / 10 else l
  pos i c + d c * t / l

/-- The loop (`_layout.py:194-217`); `m` iterations remain. -/
noncomputable def springLoop {dim : ℕ} (A : Fin n → Fin n → Bool) (k : ℝ) (fixed : List (Fin n)) (dt : ℝ) :
    ℕ → ℝ → (Fin n → Fin dim → ℝ) → Fin n → Fin dim → ℝ
  | 0, _, pos => pos
  | m + 1, t, pos => springLoop A k fixed dt m (t - dt) (springStep A k fixed t pos)

/-- `_sparse_fruchterman_reingold` (`_layout.py:169-219`) from given initial positions. -/
noncomputable def sparseSpring {dim : ℕ} (A : Fin n → Fin n → Bool) (k : Option ℝ) (pos : Fin n → Fin dim → ℝ) (fixed : List (Fin n))
    (iterations : ℕ) : Fin n → Fin dim → ℝ :=
  springLoop A (k.getD (√(1 / n))) fixed (1 / 10 / (iterations + 1)) iterations (1 / 10) pos

/-- The greatest entry of an array, and of zero (`lim`, `_layout.py:226-229`). -/
noncomputable def limOf {dim : ℕ} (pos : Fin n → Fin dim → ℝ) : ℝ :=
  ((List.finRange n).flatMap fun i => (List.finRange dim).map fun c => pos i c).foldr max 0

/-- `_rescale_layout` (`_layout.py:222-233`); `none` is an array of NaN: `scale / lim` is infinite when all the points coincide. -/
noncomputable def rescale {dim : ℕ} (pos : Fin n → Fin dim → ℝ) (scale : ℝ) : Option (Fin n → Fin dim → ℝ) :=
  let centred : Fin n → Fin dim → ℝ := fun i c => pos i c - (∑ j, pos j c) / n
  let lim := limOf centred
  if lim = 0 then none else some fun i c => centred i c * (scale / lim)

/-- The centre: zeros when `center` is None or has the wrong width (`_layout.py:136-141`). -/
noncomputable def centerOf (p : Spring n) : Fin p.dim → ℝ :=
  match p.center with
  | none => 0
  | some ⟨d, c⟩ => if h : d = p.dim then fun i => c (h ▸ i) else 0

/-- `dom_size` (`_layout.py:143-148`): 1, or the greatest of the given coordinates. -/
noncomputable def domSize (p : Spring n) : ℝ :=
  match p.pos with
  | none => 1
  | some pos => (((List.finRange n).flatMap fun i => (List.finRange p.dim).map fun c => pos i c).max?).getD 0

/-- The value of `k` that the iterations use (`_layout.py:155-157`, `_layout.py:184-186`). -/
noncomputable def springK (p : Spring n) : ℝ :=
  (if p.k = none ∧ 0 < p.fixed.length then some (domSize p / √n) else p.k).getD (√(1 / n))

/-- `_fruchterman_reingold` (`_layout.py:121-166`) on the matrix `A`.  Without vertices, `1.0 / nnodes` is a division by zero, and the maximum of an empty column
does not exist.  When `k` is zero the division by `k` makes every row that an iteration moves NaN (the term of the vertex itself is `0 * NaN` or `0 * inf`). -/
noncomputable def spring (p : Spring n) (draw : (d : ℕ) → Fin n → Fin d → ℝ) (A : Fin n → Fin n → Bool) : Py Coords :=
  let start := p.pos.getD (draw p.dim)
  if n = 0 ∧ p.k = none then .error .zeroDivisionError
  else if n = 0 ∧ 0 < p.dim then .error .valueError
  else if springK p = 0 ∧ 0 < p.iterations then
    if p.fixed.length = 0 then .ok (.nan [n, p.dim])
    else .ok (.partNan (.of2 start) (((List.finRange n).filter fun i => i ∉ p.fixed).map Fin.val))
  else
    let pos := sparseSpring A (some (springK p)) start p.fixed p.iterations
    if p.fixed.length = 0 then
      match rescale pos p.scale with
      | none => .ok (.nan [n, p.dim])
      | some q => .ok (.array (.of2 fun i c => q i c + centerOf p c))
    else .ok (.array (.of2 pos))

/-- `com_coords`: the centres of the communities (`_layout.py:82-89`). -/
noncomputable def centres (worldRad : ℝ) (Nc : ℕ) : List (ℝ × ℝ) :=
  (List.range Nc).map fun i : ℕ => (worldRad * Real.cos (2 * Real.pi * (i + 1) / Nc), worldRad * Real.sin (2 * Real.pi * (i + 1) / Nc))

/-- The loop that moves the vertices to their communities (`_layout.py:104-112`), over a list of vertices: the coordinates may have
been changed when it fails. -/
noncomputable def moveLoop (info : Info n) (sizes : List ℕ) (cc : List (ℝ × ℝ)) : List (Fin n) → (Fin n → Fin 2 → ℝ) → Py Unit × (Fin n → Fin 2 → ℝ)
  | [], x => (.ok (), x)
  | i :: l, x =>
    match info.nodeCom with
    | none => (.error .keyError, x)
    | some com =>
      match sizes[com i]?, cc[com i]? with
      | some size, some c =>
        moveLoop info sizes cc l (Function.update x i ![c.1 + √size * x i 0, c.2 + √size * x i 1])
      | _, _ => (.error .indexError, x)

/-- `set_coordinates('community2D')` (`_layout.py:64-112`).  The ValueError of line 66 is constructed but not raised, and the name
`Counter` is not defined in the module. -/
noncomputable def community2D (draw : (d : ℕ) → Fin n → Fin d → ℝ) (s : LState n) : Py Unit × LState n :=
  match s.info with
  | none => (.error .attributeError, s)
  | some info =>
    let rad := info.worldRad.getD (√n)
    let info := { info with worldRad := some rad }
    match info.commSizes with
    | none => (.error .nameError, { s with info := some info })
    | some sizes =>
      let cc := centres rad sizes.length
      let info := { info with comCoords := some cc }
      let x : Fin n → Fin 2 → ℝ := fun i => ![draw 2 i 0 * Real.cos (2 * Real.pi * draw 2 i 1), draw 2 i 0 * Real.sin (2 * Real.pi * draw 2 i 1)]
      let (r, x) := moveLoop info sizes cc (List.finRange n) x
      (r, { s with info := some info, coords := .array (.of2 x) })

/-- `set_coordinates('laplacian_eigenmap2D')` and `3D` (`_layout.py:112-117`): `self.U[:, 1:d+1]`. -/
noncomputable def eigenmap (S : Solvers n) (d : ℕ) (s : LState n) : Py Unit × LState n :=
  match s.g.computeFourierBasis S (some (d + 1)) with
  | (.error e, g) => (.error e, { s with g := g })
  | (.ok (), g) =>
    match g.getBasis S with
    | (.error e, g) => (.error e, { s with g := g })
    | (.ok none, g) => (.error .typeError, { s with g := g })
    | (.ok (some b), g) =>
      let w := min (b.k - 1) d
      (.ok (), { s with g := g, coords := .array (.of2 fun (i : Fin n) (j : Fin w) => b.U i ⟨j + 1, by omega⟩) })

/-- `set_coordinates(kind, seed, **kwargs)` (`_layout.py:32-119`).  The `kwargs` are used by `spring` only
(`np.max(pos)` of an empty array raises ValueError, `_layout.py:148`). -/
noncomputable def setCoordinates (S : Solvers n) (draw : (d : ℕ) → Fin n → Fin d → ℝ) (kind : Kind) (p : Spring n) (s : LState n) :
    Py Unit × LState n :=
  match kind with
  | .array a =>
    let c := a.squeeze
    match c.shape with
    | [] => (.error .indexError, s)
    | m :: rest =>
      if m ≠ n ∨ ¬ (rest = [] ∨ ∃ w, rest = [w] ∧ 2 ≤ w ∧ w ≤ 3) then (.error .valueError, s)
      else (.ok (), { s with coords := .array c })
  | .name "line1D" => (.ok (), { s with coords := .array (.of1 fun i : Fin n => (i : ℝ)) })
  | .name "line2D" => (.ok (), { s with coords := .array (.of2 fun i : Fin n => ![(i : ℝ), 0]) })
  | .name "ring2D" =>
    (.ok (), { s with coords := .array (.of2 fun i : Fin n => ![Real.cos (i * 2 * Real.pi / n), Real.sin (i * 2 * Real.pi / n)]) })
  | .name "random2D" => (.ok (), { s with coords := .array (.of2 (draw 2)) })
  | .name "random3D" => (.ok (), { s with coords := .array (.of2 (draw 3)) })
  | .name "spring" =>
    if p.pos.isSome ∧ n * p.dim = 0 then (.error .valueError, s)
    else
      let (A, g) := s.g.getA
      match spring p draw A with
      | .error e => (.error e, { s with g := g })
      | .ok x => (.ok (), { s with g := g, coords := x })
  | .name "community2D" => community2D draw s
  | .name "laplacian_eigenmap2D" => eigenmap S 2 s
  | .name "laplacian_eigenmap3D" => eigenmap S 3 s
  | .name _ => (.error .valueError, s)

end PyGSP.Layout
