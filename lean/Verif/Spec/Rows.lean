import Verif.Model.Array

/-!
# Specification: renaming and picking the rows of an array
-/

namespace PyGSP

variable {n m : ℕ}

/-- The array `a` with its first index renamed by `σ`: row `σ i` of the result is row `i` of `a`. -/
def Spec.Arr.relabel (σ : Equiv.Perm (Fin n)) (a : Arr) : Arr where
  shape := a.shape
  val
    | [] => a.val []
    | i :: r => if h : i < n then a.val ((σ.symm ⟨i, h⟩).1 :: r) else a.val (i :: r)

/-- The rows `ι 0, ι 1, ...` of the array `a`. -/
def Spec.Arr.pick (ι : Fin m → Fin n) (a : Arr) : Arr where
  shape := m :: a.shape.tail
  val
    | [] => a.val []
    | i :: r => if h : i < m then a.val ((ι ⟨i, h⟩).1 :: r) else 0

end PyGSP
