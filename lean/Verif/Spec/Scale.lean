import Verif.Model.Filter

/-!
# Filter banks with rescaled frequencies
-/

namespace PyGSP.Spec

/-- The kernel that responds to the frequency `c x` as `g` responds to `x`. -/
noncomputable def _root_.PyGSP.Kernel.scaled (c : ℝ) (g : Kernel) : Kernel := fun k x => g k fun j => x j / c

/-- The bank that responds to the frequency `c x` as `f` responds to `x`. -/
noncomputable def _root_.PyGSP.Bank.scaled (c : ℝ) (f : Bank) : Bank := ⟨f.kernels.map (Kernel.scaled c)⟩

end PyGSP.Spec

namespace PyGSP.Spec

/-- What multiplying the weights by `c` does to the Laplacian: the combinatorial one is multiplied by `c`, the normalized one does not change. -/
def lapFactor (c : ℝ) : LapType → ℝ
  | .normalized => 1
  | _ => c

end PyGSP.Spec
