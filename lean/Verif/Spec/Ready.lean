import Verif.Spec.Solvers
import Verif.Lemmas.GraphState

/-!
# A graph object in use
-/

namespace PyGSP.Spec

variable {n : ℕ}

/-- `s` is the state of a graph object made from `g`, after any sequence of method calls: the weights are non-negative, there is at least one
vertex, the Laplacian is of a known type, the eigensolvers are exact, and the Fourier basis is complete if there is one. -/
structure Ready (S : Solvers n) (g : Graph n ℝ) (s : GState n) : Prop where
  sound : Sound S
  built : g.Built
  nonneg : NonnegW g.W.dense
  pos : 0 < n
  reached : ∃ hist : List (Op n), s = runAll S hist (GState.ofGraph g)
  known : GState.Known s.lapType
  complete : ∀ b, s.basis = some b → b.k = n

end PyGSP.Spec
