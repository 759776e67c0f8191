import Verif.Model.Generators
import Verif.Model.Sparsify

/-!
# `pygsp/graphs/community.py`

The random numbers and the pairs that the kd-tree finds are arbitrary functions (`CommunityRng`).  The iteration order of a Python set is
the order of insertion.  Numbers of vertices and communities, and the sizes of the communities, are natural numbers.  The logging and the
strings of `repr` are not modelled.  The dictionary `info` is made of the attributes below.
-/

namespace PyGSP.Gen

open Matrix Classical Reduction

/-- The arguments of `Community` other than `N`, `seed` and the keyword arguments of `Graph` (`community.py:59-73`). -/
structure CommunityArgs where
  nc : Option ℕ := none
  minComm : Option ℕ := none
  minDeg : Option ℤ := none
  commSizes : Option (List ℕ) := none
  sizeRatio : ℝ := 1
  worldDensity : Option ℝ := none
  commDensity : Option ℝ := none
  kNeigh : Option ℤ := none
  epsilon : Option ℝ := none

/-- What the constructor asks of the outside: `rng.choice(Nc, m)` (`community.py:120`), `rng.uniform(size=(N, 2))` (`community.py:171`), the `i`-th
`rng.permutation(m)` (`community.py:197`, `community.py:245`), the `t`-th `rng.integers(0, N, 2)` (`community.py:240`) and
`KDTree(points).query_pairs(eps)` (`community.py:223-224`). -/
structure CommunityRng where
  choice : ℕ → ℕ → List ℕ
  uniform : ℕ → List (ℝ × ℝ)
  perm : ℕ → ℕ → List ℕ
  point : ℕ → ℕ × ℕ
  pairs : List (ℝ × ℝ) → ℝ → List (ℕ × ℕ)

/-- The object: `G.Nc`, `G.min_comm`, `G.world_density`, `G.epsilon` (`community.py:87-95`), the graph, `info['node_com']`, `info['comm_sizes']`,
`info['world_rad']`, `info['com_coords']` and `G.coords`. -/
structure Community (N : ℕ) where
  nc : ℕ
  minComm : ℕ
  worldDensity : ℝ
  epsilon : ℝ
  graph : Graph N ℝ
  nodeCom : List ℕ
  sizes : List ℕ
  worldRad : ℝ
  centers : List (ℝ × ℝ)
  coords : List (ℝ × ℝ)

/-- The labels (`community.py:116-135`).  `rng.choice(0, m)` raises ValueError unless `m` is zero, `np.concatenate([])` always does. -/
noncomputable def communityLabels (N nc mc : ℕ) (sizes : Option (List ℕ)) (r : CommunityRng) : Py (List ℕ) :=
  match sizes with
  | none =>
    if nc = 0 ∧ N - mc * nc ≠ 0 then .error .valueError
    else .ok (((List.replicate mc (List.range nc)).flatten ++ r.choice nc (N - mc * nc)).mergeSort fun x y => decide (x ≤ y))
  | some s =>
    if s.length ≠ nc then .error .valueError
    else if s.sum ≠ N then .error .valueError
    else if s = [] then .error .valueError
    else .ok ((List.range s.length).flatMap fun c : ℕ => List.replicate (s.getD c 0) c)

/-- `np.array([cnt[1] for cnt in sorted(collections.Counter(labels).items())])` (`community.py:137-138`): only the labels that occur are in
the counter.  (The labels are smaller than `nc`.) -/
def communityCounts (nc : ℕ) (labels : List ℕ) : List ℕ := ((List.range nc).map fun c : ℕ => labels.count c).filter (· ≠ 0)

/-- The centres of the communities (`community.py:162-169`). -/
noncomputable def communityCenter (nc : ℕ) (rad : ℝ) (c : ℕ) : ℝ × ℝ :=
  (rad * Real.cos (2 * Real.pi * (c + 1) / nc), rad * Real.sin (2 * Real.pi * (c + 1) / nc))

/-- The coordinates (`community.py:171-187`).  `info["comm_sizes"][comm_idx]` raises IndexError out of range. -/
noncomputable def communityCoords (nc : ℕ) (rad : ℝ) (labels sizes : List ℕ) (u : List (ℝ × ℝ)) : Py (List (ℝ × ℝ)) :=
  if ∀ c ∈ labels, c < sizes.length then
    .ok (List.zipWith (fun (c : ℕ) (e : ℝ × ℝ) =>
      ((communityCenter nc rad c).1 + Real.sqrt (sizes.getD c 0 : ℕ) * (e.1 * Real.cos (2 * Real.pi * e.2)),
        (communityCenter nc rad c).2 + Real.sqrt (sizes.getD c 0 : ℕ) * (e.1 * Real.sin (2 * Real.pi * e.2)))) labels u)
  else .error .indexError

/-- `np.tril_indices(c, -1)`: the pairs (row, column) with the column smaller than the row, row by row. -/
def trilPairs (c : ℕ) : List (ℕ × ℕ) := (List.range c).flatMap fun r : ℕ => (List.range r).map fun k : ℕ => (r, k)

/-- The edges inside the community number `i` of `size` vertices from `first` on (`community.py:190-228`).  In the branch of `k_neigh`, the object
`map` of line 209 is never iterated over, so that `pairs_set` stays empty. -/
noncomputable def intraPairs (a : CommunityArgs) (eps : ℝ) (r : CommunityRng) (coords : List (ℝ × ℝ)) (i first size : ℕ) : List (ℕ × ℕ) :=
  match a.commDensity, a.kNeigh with
  | some d, _ =>
    let M : ℝ := (size : ℝ) * ((size : ℝ) - 1) / 2
    let nb := ⌊d * M⌋₊
    ((r.perm i ⌊M⌋₊).take nb).map fun e => (first + ((trilPairs size).getD e (0, 0)).2, first + ((trilPairs size).getD e (0, 0)).1)
  | none, some _ => []
  | none, none => (r.pairs ((coords.drop first).take size) eps).map fun e => (first + e.1, first + e.2)

/-- The loop over the communities (`community.py:189-230`). -/
noncomputable def intraAll (a : CommunityArgs) (eps : ℝ) (r : CommunityRng) (coords : List (ℝ × ℝ)) : ℕ → ℕ → List ℕ → List (ℕ × ℕ)
  | _, _, [] => []
  | i, first, s :: t => intraPairs a eps r coords i first s ++ intraAll a eps r coords (i + 1) (first + s) t

/-- The list `all_points` (`community.py:246-260`): `first_row` and `first_col` are the numbers of vertices in the communities before `j`
and `i`. -/
def allPoints (nc : ℕ) (sizes : List ℕ) : List (ℕ × ℕ) :=
  (List.range (nc - 1)).flatMap fun i : ℕ => (List.range' (i + 1) (nc - 1 - i)).flatMap fun j : ℕ =>
    (List.range (sizes.getD j 0)).flatMap fun r : ℕ => (List.range (sizes.getD i 0)).map fun c : ℕ =>
      ((sizes.take j).sum + r, (sizes.take i).sum + c)

/-- The rejection sampling (`community.py:236-242`), stopped after `fuel` draws (`none`). -/
def interSample (labels : List ℕ) (nb : ℕ) (point : ℕ → ℕ × ℕ) : ℕ → ℕ → List (ℕ × ℕ) → Option (List (ℕ × ℕ))
  | fuel, t, acc =>
    if nb ≤ acc.length then some acc
    else match fuel with
      | 0 => none
      | fuel + 1 =>
        let q := (min (point t).1 (point t).2, max (point t).1 (point t).2)
        if labels.getD q.1 0 ≠ labels.getD q.2 0 then
          interSample labels nb point fuel (t + 1) (if q ∈ acc then acc else acc ++ [q])
        else interSample labels nb point fuel (t + 1) acc

/-- The edges between the communities (`community.py:232-262`).  `np.array(all_points)[indices]` raises IndexError out of range. -/
noncomputable def interPairs (N nc : ℕ) (wd : ℝ) (labels sizes : List ℕ) (r : CommunityRng) (fuel : ℕ) : Py (Option (List (ℕ × ℕ))) :=
  let M : ℝ := ((N : ℝ) ^ 2 - ((sizes.map fun s : ℕ => s ^ 2).sum : ℕ)) / 2
  let nb := ⌊wd * M⌋₊
  if wd < 35 / 100 then .ok (interSample labels nb r.point fuel 0 [])
  else
    let indices := (r.perm nc ⌊M⌋₊).take nb
    if ∀ e ∈ indices, e < (allPoints nc sizes).length then .ok (some (indices.map fun e => (allPoints nc sizes).getD e (0, 0)))
    else .error .indexError

/-- The rows, columns and values of `w_data` (`community.py:264-274`): a value `1` for every pair, in both directions. -/
def bothWays (P : List (ℕ × ℕ)) : List (ℕ × ℕ × ℝ) :=
  ones (P.map (·.1) ++ P.map (·.2)) (P.map (·.2) ++ P.map (·.1))

/-- The checks of `comm_density` and `k_neigh` (`community.py:142-154`) that raise ValueError. -/
def badIntra (a : CommunityArgs) : Prop :=
  match a.commDensity, a.kNeigh with
  | some d, _ => ¬ (0 ≤ d ∧ d ≤ 1)
  | none, some k => k < 0
  | none, none => False

/-- `Community.__init__` from line 100 on, with the default values replaced. -/
noncomputable def communityBuild (N : ℕ) (a : CommunityArgs) (nc mc : ℕ) (wd eps : ℝ) (r : CommunityRng) (fuel : ℕ) (lt : LapType) :
    Py (Option (Community N)) :=
  if N < mc * nc then .error .valueError
  else match communityLabels N nc mc a.commSizes r with
    | .error e => .error e
    | .ok labels =>
      let sizes := communityCounts nc labels
      let rad := a.sizeRatio * Real.sqrt N
      if badIntra a then .error .valueError
      else match communityCoords nc rad labels sizes (r.uniform N) with
        | .error e => .error e
        | .ok coords =>
          -- info["comm_sizes"][i] for i in range(Nc)
          if sizes.length < nc then .error .indexError
          else match interPairs N nc wd labels sizes r fuel with
            | .error e => .error e
            | .ok none => .ok none
            | .ok (some inter) =>
              match ofEdges N (bothWays (intraAll a eps r coords 0 0 sizes ++ inter)) lt with
              | .error e => .error e
              | .ok g => .ok (some ⟨nc, mc, wd, eps, g, labels, sizes, rad, (List.range nc).map (communityCenter nc rad), coords⟩)

/-- `Community(N, Nc, min_comm, ...)` (`community.py:59-279`).  `N / (3 * Nc)` and `1 / N` are divisions of Python integers. -/
noncomputable def community (N : ℕ) (a : CommunityArgs) (r : CommunityRng) (fuel : ℕ) (lt : LapType) : Py (Option (Community N)) :=
  let nc : ℕ := a.nc.getD (roundHalfEven (Real.sqrt N / 2)).toNat
  if a.minComm = none ∧ nc = 0 then .error .zeroDivisionError
  else
    let mc : ℕ := a.minComm.getD (roundHalfEven ((N : ℝ) / (3 * nc))).toNat
    if a.minDeg ≠ none then .error .notImplementedError
    else if a.worldDensity = none ∧ N = 0 then .error .zeroDivisionError
    else
      let wd : ℝ := a.worldDensity.getD (1 / N)
      if ¬ (0 ≤ wd ∧ wd ≤ 1) then .error .valueError
      else
        let eps : ℝ := a.epsilon.getD (Real.sqrt (2 * Real.sqrt N) / 2)
        communityBuild N a nc mc wd eps r fuel lt

/-- What the generator and the kd-tree guarantee by their documentation. -/
structure CommunityRng.Spec (N : ℕ) (r : CommunityRng) : Prop where
  choice_length : ∀ k m, (r.choice k m).length = m
  choice_lt : ∀ k m, 0 < k → ∀ c ∈ r.choice k m, c < k
  uniform_length : (r.uniform N).length = N
  uniform_range : ∀ e ∈ r.uniform N, (0 ≤ e.1 ∧ e.1 < 1) ∧ 0 ≤ e.2 ∧ e.2 < 1
  perm_perm : ∀ i m, (r.perm i m).Perm (List.range m)
  point_lt : 0 < N → ∀ t, (r.point t).1 < N ∧ (r.point t).2 < N
  pairs_nodup : ∀ pts eps, 0 ≤ eps → (r.pairs pts eps).Nodup
  pairs_mem : ∀ pts eps, 0 ≤ eps → ∀ p : ℕ × ℕ, p ∈ r.pairs pts eps ↔ p.1 < p.2 ∧ p.2 < pts.length ∧
    Real.sqrt (((pts.getD p.1 (0, 0)).1 - (pts.getD p.2 (0, 0)).1) ^ 2 + ((pts.getD p.1 (0, 0)).2 - (pts.getD p.2 (0, 0)).2) ^ 2) ≤ eps

end PyGSP.Gen
