import Verif.Spec.Potential
import Mathlib.Topology.Algebra.InfiniteSum.Real

/-!
# Specification: the random walk on a weighted graph

The walker at `v` moves to `w` with a probability proportional to the weight of the edge between `v` and `w`.
Before each move, it may decide to stop: at `v`, with probability `κ v`.
-/

namespace PyGSP.Spec

open Matrix

variable {n : ℕ}

/-- The probability that the walker at `v` moves to `w`. -/
noncomputable def step (M : Matrix (Fin n) (Fin n) ℝ) (v w : Fin n) : ℝ := wsym M v w / wdeg M v

/-- The probability that the walker at `v` does not stop there and moves to `w`. -/
noncomputable def goOn (M : Matrix (Fin n) (Fin n) ℝ) (κ : Fin n → ℝ) : Matrix (Fin n) (Fin n) ℝ :=
  Matrix.of fun v w => (1 - κ v) * step M v w

/-- The probability that the walker started at `v` makes `t` moves and stops at `b`. -/
noncomputable def stopsAt (M : Matrix (Fin n) (Fin n) ℝ) (κ : Fin n → ℝ) (v b : Fin n) (t : ℕ) : ℝ := (goOn M κ ^ t) v b * κ b

/-- The probability that the walker started at `v` makes more than `t` moves. -/
noncomputable def keepsOn (M : Matrix (Fin n) (Fin n) ℝ) (κ : Fin n → ℝ) (v : Fin n) (t : ℕ) : ℝ := ∑ w, (goOn M κ ^ t) v w * (1 - κ w)

/-- Stop as soon as a vertex of the set is reached. -/
noncomputable def onArrival (B : Fin n → Prop) (v : Fin n) : ℝ := open Classical in if B v then 1 else 0

/-- The expected number of moves of the walk from `a` to `b` is `h`: the sum over `t` of the probabilities of more than `t` moves. -/
def MeanTime (M : Matrix (Fin n) (Fin n) ℝ) (a b : Fin n) (h : ℝ) : Prop := HasSum (keepsOn M (onArrival (· = b)) a) h

end PyGSP.Spec
