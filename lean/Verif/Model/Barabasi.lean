import Verif.Model.Generators

/-!
# `pygsp/graphs/barabasialbert.py`

`rng.choice(N, size=m, replace=False, p=p)` is an arbitrary function of the step and of the probabilities.
-/

namespace PyGSP.Gen

open Matrix

variable {N : ℕ}

/-- The body of the loop (`barabasialbert.py:54-63`) for the vertex `i`.  The generator raises ValueError when the probabilities are
NaN (`distr.sum() == 0`) or when fewer than `m` of them are not zero. -/
noncomputable def baStep (m : ℕ) (choice : ℕ → (Fin N → ℝ) → List (Fin N)) (i : ℕ) (W : Matrix (Fin N) (Fin N) ℝ) :
    Py (Matrix (Fin N) (Fin N) ℝ) :=
  open Classical in
  let distr : Fin N → ℝ := fun v => (∑ u, W v u) + if v.1 < i then 1 else 0
  let total := ∑ v, distr v
  if total = 0 then .error .valueError
  else
    let p : Fin N → ℝ := fun v => distr v / total
    if (Finset.univ.filter fun v => p v ≠ 0).card < m then .error .valueError
    else
      -- W[elem, i] = 1; W[i, elem] = 1
      .ok ((choice i p).foldl (fun W e => Matrix.of fun a b => if (a = e ∧ b.1 = i) ∨ (a.1 = i ∧ b = e) then 1 else W a b) W)

/-- The loop over the vertices `i, i+1, ...` (`t` of them). -/
noncomputable def baLoop (m : ℕ) (choice : ℕ → (Fin N → ℝ) → List (Fin N)) : ℕ → ℕ → Matrix (Fin N) (Fin N) ℝ → Py (Matrix (Fin N) (Fin N) ℝ)
  | _, 0, W => .ok W
  | i, t + 1, W => match baStep m choice i W with
    | .error e => .error e
    | .ok W => baLoop m choice (i + 1) t W

/-- `BarabasiAlbert(N, m0, m)` (`barabasialbert.py:43-65`). -/
noncomputable def barabasiAlbert (N m0 m : ℕ) (choice : ℕ → (Fin N → ℝ) → List (Fin N)) (lt : LapType) : Py (Graph N ℝ) :=
  if m0 < m then .error .valueError
  else match baLoop m choice m0 (N - m0) 0 with
    | .error e => .error e
    | .ok W => Graph.ofCsr (Sp.ofDense W) lt

/-- What `rng.choice(N, size=m, replace=False, p=p)` guarantees for probabilities with at least `m` nonzero ones: `m` different
indices of positive probability. -/
def ChoiceSpec (m : ℕ) (choice : ℕ → (Fin N → ℝ) → List (Fin N)) : Prop :=
  ∀ i p, (∀ v, 0 ≤ p v) → ∑ v, p v = 1 → m ≤ (Finset.univ.filter fun v => p v ≠ 0).card →
    (choice i p).Nodup ∧ (choice i p).length = m ∧ ∀ v ∈ choice i p, p v ≠ 0

/-- `rng.choice(N, size=1, replace=False, p=p)` of `numpy.random.Generator`, called at `barabasialbert.py:58-60`, as a function of the uniform number `x` that it draws:
`np.cumsum(p).searchsorted(x, side='right')`, the index whose slice of the cumulated probabilities contains `x`. -/
noncomputable def pickOne (x : ℝ) (p : Fin N → ℝ) : List (Fin N) :=
  open Classical in
  (List.finRange N).filter fun v => (∑ w with w < v, p w) ≤ x ∧ x < (∑ w with w < v, p w) + p v

end PyGSP.Gen
