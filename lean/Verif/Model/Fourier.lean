import Verif.Model.GraphState

/-!
# `gft` and `igft` (`pygsp/graphs/fourier.py:197-264`)

A signal is an array of shape `(len, ...)`; its rows (the trailing dimensions) live in any real vector space `R`.
-/

namespace PyGSP

open Matrix

variable {n : ℕ} {R : Type} [AddCommGroup R] [Module ℝ R]

/-- `FourierMixIn.gft` (`fourier.py:228-230`): `np.tensordot(np.conjugate(U), s, ([0], [0]))` (`U` is real).  The
length is checked first, then `self.U` is read (and computed if needed). -/
noncomputable def GState.gft (S : Solvers n) (x : Rows R) (s : GState n) : Py (Rows R) × GState n :=
  match checkSignal n x with
  | .error e => (.error e, s)
  | .ok x =>
    match s.getBasis S with
    | (.error e, s) => (.error e, s)
    | (.ok none, s) => (.error .typeError, s)
    | (.ok (some b), s) => (.ok ⟨b.k, fun j => ∑ i, b.U i j • x i⟩, s)

/-- `FourierMixIn.igft` (`fourier.py:263-264`): `np.tensordot(U, s_hat, ([1], [0]))` raises ValueError when the
number of columns of `U` is not the length of `s_hat`. -/
noncomputable def GState.igft (S : Solvers n) (y : Rows R) (s : GState n) : Py (Rows R) × GState n :=
  match checkSignal n y with
  | .error e => (.error e, s)
  | .ok y =>
    match s.getBasis S with
    | (.error e, s) => (.error e, s)
    | (.ok none, s) => (.error .typeError, s)
    | (.ok (some b), s) =>
      if h : b.k = n then (.ok ⟨n, fun i => ∑ j : Fin n, b.U i (j.cast h.symm) • y j⟩, s)
      else (.error .valueError, s)

end PyGSP
