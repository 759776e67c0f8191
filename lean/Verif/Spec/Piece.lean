import Verif.Spec.Graph
import Mathlib.Data.Real.Basic

/-!
# Specification: a piece of a graph
-/

namespace PyGSP.Spec

variable {n m : ℕ}

/-- The graph of weights `M'` is made of the vertices `ι 0, ι 1, ...` of the graph of weights `M`, with the same weights between them, and no
edge of `M` joins them to other vertices. -/
structure Piece (ι : Fin m → Fin n) (M : Matrix (Fin n) (Fin n) ℝ) (M' : Matrix (Fin m) (Fin m) ℝ) : Prop where
  injective : Function.Injective ι
  weights : ∀ a b, M' a b = M (ι a) (ι b)
  closed : ∀ a j, (∀ b, ι b ≠ j) → M (ι a) j = 0 ∧ M j (ι a) = 0

end PyGSP.Spec
