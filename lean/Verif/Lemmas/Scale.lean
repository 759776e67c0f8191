import Verif.Lemmas.Transport
import Verif.Spec.Scale

/-!
# Scaling the frequencies of filter banks
-/

namespace PyGSP

open Matrix Spec GState Polynomial Real Design

variable {n : ℕ}

theorem seqFin_cast_scale {α : Type} {q q' : ℕ} (h : q' = q) (f : Fin q → Py α) :
    seqFin q' (fun i => f (i.cast h)) = (seqFin q f).map fun y i => y (i.cast h) := by
  subst h
  cases hf : seqFin q' f with
  | error e => exact hf
  | ok y => exact hf

theorem Bank.scaled_Nf (c : ℝ) (f : Bank) : (f.scaled c).Nf = f.Nf := List.length_map _

theorem Bank.scaled_evaluate (c : ℝ) (f : Bank) {k : ℕ} (x : Fin k → ℝ) :
    (f.scaled c).evaluate x = (f.evaluate fun j => x j / c).map fun y i => y (i.cast (f.scaled_Nf c)) := by
  unfold Bank.evaluate
  rw [← seqFin_cast_scale (f.scaled_Nf c)]
  congr 1
  funext i
  have : (f.scaled c).kernels.get i = (f.kernels.get (i.cast (f.scaled_Nf c))).scaled c := by
    exact List.getElem_map (Kernel.scaled c)
  rw [this]
  rfl

theorem filter_act {q q' : ℕ} (h : q' = q) {M : Fin q → Matrix (Fin n) (Fin n) ℝ} {M' : Fin q' → Matrix (Fin n) (Fin n) ℝ}
    (hM : ∀ i, M' i = M (i.cast h)) (a : Arr) :
    (match parseSignal n q' a with
      | .error e => (.error e : Py Arr)
      | .ok sig => .ok (Bank.act M' sig).squeeze) = match parseSignal n q a with
      | .error e => .error e
      | .ok sig => .ok (Bank.act M sig).squeeze := by
  subst h
  obtain rfl : M' = M := funext hM
  rfl

/-- The same filtering, from the matrices of the two banks. -/
theorem filter_same {S S' : Solvers n} {f f' : Bank} (hN : f'.Nf = f.Nf) {method : FMethod} {order : ℕ} {s s' : GState n}
    (h : (∃ e, (f.ops S method order s).1 = .error e ∧ (f'.ops S' method order s').1 = .error e) ∨
      ∃ M M', (f.ops S method order s).1 = .ok M ∧ (f'.ops S' method order s').1 = .ok M' ∧ ∀ i, M' i = M (i.cast hN)) (a : Arr) :
    (f'.filter S' a method order s').1 = (f.filter S a method order s).1 := by
  rw [Bank.filter_eq, Bank.filter_eq]
  rcases h with ⟨e, h1, h2⟩ | ⟨M, M', h1, h2, h3⟩
  · have hp : (parseSignal n f'.Nf a).map (fun _ => ()) = (parseSignal n f.Nf a).map fun _ => () := by rw [hN]
    revert h1 h2 hp
    cases f.ops S method order s with
    | mk r t =>
      cases f'.ops S' method order s' with
      | mk r' t' =>
        intro h1 h2
        dsimp only at h1 h2
        subst h1 h2
        cases parseSignal n f.Nf a <;> cases parseSignal n f'.Nf a <;> intro h <;> simp_all [Except.map]
  · have := filter_act hN h3 a
    revert h1 h2
    cases f.ops S method order s with
    | mk r t =>
      cases f'.ops S' method order s' with
      | mk r' t' =>
        intro h1 h2
        dsimp only at h1 h2
        subst h1 h2
        dsimp only
        revert this
        cases parseSignal n f.Nf a <;> cases parseSignal n f'.Nf a <;> exact fun h => h

/-! ### the designs -/

theorem scaled_pointwise (c : ℝ) (φ : ℝ → ℝ) : (Kernel.pointwise φ).scaled c = Kernel.pointwise fun x => φ (x / c) := rfl

theorem scaled_onEmpty (c : ℝ) (junk : Junk) (p : ℝ → Option ℝ) : (Kernel.onEmpty junk p).scaled c = Kernel.onEmpty junk fun x => p (x / c) := rfl

theorem scaled_orNaN (c : ℝ) (p : ℝ → Option ℝ) : (Kernel.orNaN p).scaled c = Kernel.orNaN fun x => p (x / c) := rfl

theorem scaled_one (c : ℝ) (g : Kernel) : (Bank.ofArg (.one g)).scaled c = Bank.ofArg (.one (g.scaled c)) := rfl

theorem scaled_many (c : ℝ) (gs : List Kernel) : (Bank.ofArg (.many gs)).scaled c = Bank.ofArg (.many (gs.map (Kernel.scaled c))) := rfl

theorem scaled_withComplement (c : ℝ) (g : Kernel) : withComplement (g.scaled c) = (withComplement g).scaled c := by
  unfold withComplement
  simp only [scaled_many, List.map_append]
  have he : ∀ (k : ℕ) (x : Fin k → ℝ), (Bank.ofArg (.one (g.scaled c))).evaluate x = (Bank.ofArg (.one g)).evaluate fun j => x j / c := by
    intro k x
    unfold Bank.evaluate
    refine congrArg (seqFin 1) (funext fun i : Fin 1 => ?_)
    fin_cases i
    rfl
  refine congrArg (fun z => Bank.ofArg (KernelArg.many ([g.scaled c] ++ [z]))) (funext fun k => funext fun x => ?_)
  have hs : (Bank.ofArg (.one (g.scaled c))).sumSquares x = (Bank.ofArg (.one g)).sumSquares fun j => x j / c := by
    unfold Bank.sumSquares
    rw [he]
    cases (Bank.ofArg (.one g)).evaluate fun j => x j / c <;> rfl
  change Bank.complementKernel _ (some 1) k x = Bank.complementKernel _ (some 1) k fun j => x j / c
  unfold Bank.complementKernel
  rw [hs]

theorem scaled_waveletBank {c : ℝ} (ker : ℝ → WKind → ℝ) (Nf : ℕ) (scales : List ℝ) :
    waveletBank ker Nf (scales.map (· / c)) = (waveletBank ker Nf scales).map (Bank.scaled c) := by
  unfold waveletBank
  rw [List.length_map]
  split
  · rfl
  · simp only [Except.map, scaled_many, List.map_cons, List.map_map]
    congr 4
    · funext k x
      cases scales with
      | nil => rfl
      | cons s r =>
        simp only [List.map_cons, Kernel.scaled]
        congr 1
        funext j
        congr 1
        ring
    · refine List.map_congr_left fun s _ => ?_
      simp only [Function.comp, scaled_pointwise]
      congr 1
      funext x
      congr 1
      ring

theorem dyadicScales_div (a c : ℝ) (Nf : ℕ) : dyadicScales (a / c) Nf = (dyadicScales a Nf).map (· / c) := by
  unfold dyadicScales
  rw [List.map_map]
  refine List.map_congr_left fun i _ => ?_
  simp only [Function.comp]
  ring

theorem logScales_scale {c lmin lmax t1 t2 : ℝ} (hc : 0 < c) (h1 : lmin ≠ 0) (h2 : lmax ≠ 0) (h3 : t1 ≠ 0) (h4 : t2 ≠ 0) (N : ℕ) :
    logScales (c * lmin) (c * lmax) N t1 t2 = (logScales lmin lmax N t1 t2).map (· / c) := by
  have e1 : log (t2 / (c * lmin)) = log (t2 / lmin) - log c := by
    rw [mul_comm, ← div_div, Real.log_div (div_ne_zero h4 h1) hc.ne']
  have e2 : log (t1 / (c * lmax)) = log (t1 / lmax) - log c := by
    rw [mul_comm, ← div_div, Real.log_div (div_ne_zero h3 h2) hc.ne']
  unfold logScales
  simp only [List.map_map, e1, e2]
  refine List.map_congr_left fun i _ => ?_
  simp only [Function.comp, sub_sub_sub_cancel_right]
  rw [sub_add_eq_add_sub, Real.exp_sub, Real.exp_log hc]

end PyGSP
