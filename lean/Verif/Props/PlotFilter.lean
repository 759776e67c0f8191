import Verif.Model.PlotFilter
import Verif.Props.LiveFilter

/-! # C100: pictures of filter banks -/

namespace PyGSP

open GState Spec

/-! ### The abscissae -/

/-- The regular abscissae: `n` of them, from zero to `l`, equally spaced. -/
theorem C100_linspace (l : ℝ) (n : ℕ) :
    (linspace l n).length = n ∧
    (∀ (j : ℕ) (hj : j < (linspace l n).length), (linspace l n)[j] = (j : ℝ) * (l / ((n - 1 : ℕ) : ℝ))) ∧
    (0 < n → (0 : ℝ) ∈ linspace l n) ∧ (2 ≤ n → l ∈ linspace l n) ∧ (0 ≤ l → ∀ x ∈ linspace l n, 0 ≤ x ∧ x ≤ l) := by
  refine ⟨by simp [linspace], fun j hj => by simp [linspace], fun h => ?_, fun h => ?_, fun hl x hx => ?_⟩
  · exact List.mem_ofFn.2 ⟨⟨0, h⟩, by simp⟩
  · refine List.mem_ofFn.2 ⟨⟨n - 1, by omega⟩, ?_⟩
    have : ((n - 1 : ℕ) : ℝ) ≠ 0 := by rw [Nat.cast_ne_zero]; omega
    simp only
    field_simp
  · obtain ⟨j, rfl⟩ := List.mem_ofFn.1 hx
    by_cases h1 : n - 1 = 0
    · rw [h1]; simp [hl]
    · have h2 : (0 : ℝ) < ((n - 1 : ℕ) : ℝ) := by exact_mod_cast Nat.pos_of_ne_zero h1
      have h3 : (j : ℝ) ≤ ((n - 1 : ℕ) : ℝ) := by exact_mod_cast (by have := j.2; omega : (j : ℕ) ≤ n - 1)
      refine ⟨by positivity, ?_⟩
      rw [mul_div_assoc', div_le_iff₀ h2, mul_comm]
      exact mul_le_mul_of_nonneg_left h3 hl

theorem arrMin_ok' {k : ℕ} (y : Fin k → ℝ) (a : ℝ) (h : arrMin y = .ok a) : (∃ i, y i = a) ∧ ∀ i, a ≤ y i := by
  unfold arrMin at h
  split at h
  · rename_i hk
    have := Except.ok.inj h
    subst this
    obtain ⟨i, -, hi⟩ := Finset.exists_mem_eq_inf' (s := Finset.univ) ⟨⟨0, hk⟩, Finset.mem_univ _⟩ y
    exact ⟨⟨i, hi.symm⟩, fun i => Finset.inf'_le _ (Finset.mem_univ _)⟩
  · simp at h

theorem arrMax_ok' {k : ℕ} (y : Fin k → ℝ) (a : ℝ) (h : arrMax y = .ok a) : (∃ i, y i = a) ∧ ∀ i, y i ≤ a := by
  unfold arrMax at h
  split at h
  · rename_i hk
    have := Except.ok.inj h
    subst this
    obtain ⟨i, -, hi⟩ := Finset.exists_mem_eq_sup' (s := Finset.univ) ⟨⟨0, hk⟩, Finset.mem_univ _⟩ y
    exact ⟨⟨i, hi.symm⟩, fun i => Finset.le_sup' _ (Finset.mem_univ _)⟩
  · simp at h

variable {p : ℕ} {size : Fin p → ℕ} {S : Sols size}

/-- the memory once `G.lmax` has been read -/
noncomputable def Spec.afterLmax (S : Sols size) (i : Fin p) (h : Heap size) : Heap size := Function.update h i ((h i).getLmax (S i)).2

/-- the memory once `G.e` has been read -/
noncomputable def Spec.afterE (S : Sols size) (i : Fin p) (h : Heap size) : Heap size := Function.update h i ((h i).getBasis (S i)).2

theorem at_lmax (h : Heap size) (i : Fin p) : h.at i (Bank.lmaxNum (S i)) = ((Bank.lmaxNum (S i) (h i)).1, afterLmax S i h) := by
  unfold Heap.at afterLmax; rw [lmaxNum_state]

theorem lmaxNum_ok {n : ℕ} {T : Solvers n} {s : GState n} {l : ℝ} (h : (Bank.lmaxNum T s).1 = .ok l) : (s.getLmax T).1 = .ok (some (.fin l)) := by
  revert h
  unfold Bank.lmaxNum
  cases s.getLmax T with
  | mk r t =>
    rcases r with e | _ | v
    · simp
    · simp
    · cases v <;> simp

theorem sumOpt {q k : ℕ} (b : Bool) (y : Fin q → Fin k → ℝ) :
    ((if b then some (sumSq y) else none).isSome = b) ∧ ∀ t, (if b then some (sumSq y) else none) = some t → ∀ j, t j = ∑ i, y i j ^ 2 := by
  cases b
  · simp
  · refine ⟨rfl, fun t ht j => ?_⟩
    have := Option.some.inj ht
    subst this
    rfl

/-- **What is drawn.**  Let `l` be `G.lmax`.  If the eigenvalues are not shown (the default while `G.e` has not been computed) the abscissae are
`n` regular points from 0 to `l`; if they are shown, the abscissae are these and the eigenvalues, in ascending order, and the eigenvalues
are marked.  The curves are the responses at these abscissae, the dots those at the eigenvalues, in the memory left by reading `G.lmax` and
`G.e`.  The sum of the squares is drawn, and the curves labelled, on request or if there are several filters. -/
theorem C100_drawn (f : LFilter size) (n : ℕ) (eigenvalues sum labels : Option Bool) (h : Heap size) (pic : FilterPicture f.Nf)
    (hpic : (f.plot S n eigenvalues sum labels h).1 = .ok pic) :
    ∃ l, ((h f.graph).getLmax (S f.graph)).1 = .ok (some (.fin l)) ∧
      (eigenvalues.getD (h f.graph).basis.isSome = false → pic.x = linspace l n ∧ pic.marks = none ∧
        (f.evaluate (afterLmax S f.graph h) pic.x.get).1 = .ok pic.curves) ∧
      (eigenvalues.getD (h f.graph).basis.isSome = true →
        ∃ b z t, (((afterLmax S f.graph h) f.graph).getBasis (S f.graph)).1 = .ok (some b) ∧
          pic.x.Perm (linspace l n ++ List.ofFn b.e) ∧ pic.x.Pairwise (· ≤ ·) ∧
          (f.evaluate (afterE S f.graph (afterLmax S f.graph h)) pic.x.get).1 = .ok pic.curves ∧ pic.marks = some ⟨b.k, b.e, z, t⟩ ∧
          (f.evaluate (f.evaluate (afterE S f.graph (afterLmax S f.graph h)) pic.x.get).2 b.e).1 = .ok z ∧
          (t.isSome = sum.getD (decide (1 < f.Nf))) ∧ ∀ t', t = some t' → ∀ j, t' j = ∑ i, z i j ^ 2) ∧
      (pic.total.isSome = sum.getD (decide (1 < f.Nf))) ∧ (∀ t, pic.total = some t → ∀ j, t j = ∑ i, pic.curves i j ^ 2) ∧
      pic.legend = labels.getD (decide (1 < f.Nf)) := by
  unfold LFilter.plot at hpic
  dsimp only at hpic
  rw [at_lmax] at hpic
  cases hl : (Bank.lmaxNum (S f.graph) (h f.graph)).1 with
  | error e => rw [hl] at hpic; simp at hpic
  | ok l =>
    rw [hl] at hpic
    dsimp only at hpic
    refine ⟨l, lmaxNum_ok hl, ?_⟩
    split at hpic
    · rename_i hshow
      refine ⟨fun h0 => by rw [h0] at hshow; simp at hshow, ?_⟩
      unfold LFilter.plotMarked at hpic
      have hat : (afterLmax S f.graph h).at f.graph (fun s => s.getBasis (S f.graph)) =
          ((((afterLmax S f.graph h) f.graph).getBasis (S f.graph)).1, afterE S f.graph (afterLmax S f.graph h)) := rfl
      rw [hat] at hpic
      rcases hb : (((afterLmax S f.graph h) f.graph).getBasis (S f.graph)).1 with e | _ | b
      · rw [hb] at hpic; simp at hpic
      · rw [hb] at hpic; simp at hpic
      · rw [hb] at hpic
        dsimp only at hpic
        set xs := (linspace l n ++ List.ofFn b.e).mergeSort (fun u v => decide (u ≤ v)) with hxs
        cases hy : f.evaluate (afterE S f.graph (afterLmax S f.graph h)) xs.get with
        | mk r1 h1 =>
          rw [hy] at hpic
          cases r1 with
          | error e => simp at hpic
          | ok y =>
            dsimp only at hpic
            cases hz : f.evaluate h1 b.e with
            | mk r2 h2 =>
              rw [hz] at hpic
              cases r2 with
              | error e => simp at hpic
              | ok z =>
                dsimp only at hpic
                have := Except.ok.inj hpic
                subst this
                refine ⟨fun _ => ⟨b, z, _, rfl, List.mergeSort_perm _ _, ?_, ?_, rfl, ?_, sumOpt _ z⟩, sumOpt _ y |>.1, sumOpt _ y |>.2, rfl⟩
                · have := List.pairwise_mergeSort (le := fun u v : ℝ => decide (u ≤ v))
                    (fun a b c h1 h2 => by simp only [decide_eq_true_eq] at *; exact h1.trans h2)
                    (fun a b => by simpa using le_total a b) (linspace l n ++ List.ofFn b.e)
                  exact this.imp (fun h => by simpa using h)
                · show (f.evaluate (afterE S f.graph (afterLmax S f.graph h)) xs.get).1 = _
                  rw [hy]; rfl
                · show (f.evaluate (f.evaluate (afterE S f.graph (afterLmax S f.graph h)) xs.get).2 b.e).1 = _
                  rw [hy]
                  exact congrArg Prod.fst hz
    · rename_i hshow
      refine ⟨fun _ => ?_, fun h0 => absurd h0 hshow, ?_⟩
      · unfold LFilter.plotPlain at hpic
        cases hy : f.evaluate (afterLmax S f.graph h) (linspace l n).get with
        | mk r1 h1 =>
          rw [hy] at hpic
          cases r1 with
          | error e => simp at hpic
          | ok y =>
            dsimp only at hpic
            have := Except.ok.inj hpic
            subst this
            exact ⟨rfl, rfl, congrArg Prod.fst hy⟩
      · unfold LFilter.plotPlain at hpic
        cases hy : f.evaluate (afterLmax S f.graph h) (linspace l n).get with
        | mk r1 h1 =>
          rw [hy] at hpic
          cases r1 with
          | error e => simp at hpic
          | ok y =>
            dsimp only at hpic
            have := Except.ok.inj hpic
            subst this
            exact ⟨sumOpt _ y |>.1, sumOpt _ y |>.2, rfl⟩

/-! ### Banks of functions -/

namespace Spec

/-- The bank of the functions `gs`. -/
def bankOf (g : Fin p) (gs : List (ℝ → ℝ)) : LFilter size := ⟨g, (gs.map Kernel.pointwise).map LKernel.fixed⟩

end Spec

theorem bankOf_Nf (g : Fin p) (gs : List (ℝ → ℝ)) : (bankOf (size := size) g gs).Nf = gs.length := by simp [bankOf, LFilter.Nf]

theorem bankOf_evaluate (g : Fin p) (gs : List (ℝ → ℝ)) (h : Heap size) {k : ℕ} (x : Fin k → ℝ) :
    (bankOf (size := size) g gs).evaluate h x = (.ok fun i j => (gs.get (i.cast (bankOf_Nf g gs))) (x j), h) := by
  have key := seqHeap_follows (P := fun h'' => h'' = h) (bankOf (size := size) g gs).Nf
      (fun i h => (bankOf (size := size) g gs).kernels.get i h k x) (fun i => .ok fun j => gs.get (i.cast (bankOf_Nf g gs)) (x j)) (fun a h1 hP => ?_)
      (h := h) rfl
  · refine Prod.ext (key.1.trans ?_) key.2
    exact seqFin_pure _ _
  · subst hP
    have e : (bankOf (size := size) g gs).kernels.get a = LKernel.fixed (Kernel.pointwise (gs.get (a.cast (bankOf_Nf g gs)))) := by
      show ((gs.map Kernel.pointwise).map LKernel.fixed).get a = _
      have e2 : ∀ (ks : List (LKernel size)) (h2 : ks = (gs.map Kernel.pointwise).map LKernel.fixed) (a : Fin ks.length),
          ks.get a = LKernel.fixed (Kernel.pointwise (gs.get (a.cast (by rw [h2]; simp)))) := by
        rintro ks rfl a
        simp
      exact e2 _ rfl a
    rw [e]
    exact ⟨rfl, rfl⟩

/-- The picture of a bank of functions: the curve of the `i`-th filter is its graph over the abscissae, the dots lie on the curves, the total is
the sum of the squares; the picture exists as soon as `G.lmax` is a number (and `G.e` can be computed, if it is shown). -/
theorem C100_functions (g : Fin p) (gs : List (ℝ → ℝ)) (n : ℕ) (eigenvalues sum labels : Option Bool) (h : Heap size) {l : ℝ}
    (hl : ((h g).getLmax (S g)).1 = .ok (some (.fin l)))
    (hb : eigenvalues.getD (h g).basis.isSome = true → ∃ b, (((afterLmax S g h) g).getBasis (S g)).1 = .ok (some b)) :
    ∃ pic, ((bankOf g gs).plot S n eigenvalues sum labels h).1 = .ok pic ∧
      (∀ i j, pic.curves i j = gs.get (i.cast (bankOf_Nf g gs)) (pic.x.get j)) ∧
      (∀ k e z t, pic.marks = some ⟨k, e, z, t⟩ → (∀ i j, z i j = gs.get (i.cast (bankOf_Nf g gs)) (e j)) ∧ (∀ j, e j ∈ pic.x) ∧
        ∀ t', t = some t' → ∀ j, t' j = (gs.map fun g => g (e j) ^ 2).sum) ∧
      ∀ t, pic.total = some t → ∀ j, t j = (gs.map fun g => g (pic.x.get j) ^ 2).sum := by
  have hsum : ∀ x : ℝ, (gs.map fun g => g x ^ 2).sum = ∑ i : Fin (bankOf (size := size) g gs).Nf, gs.get (i.cast (bankOf_Nf g gs)) x ^ 2 := by
    intro x
    rw [← List.sum_ofFn]
    congr 1
    apply List.ext_getElem
    · simp [bankOf_Nf]
    · intro i h1 h2
      simp
  have hl' : Bank.lmaxNum (S g) (h g) = (.ok l, ((h g).getLmax (S g)).2) := lmaxNum_of hl
  have hex : ∃ pic, ((bankOf g gs).plot S n eigenvalues sum labels h).1 = .ok pic := by
    unfold LFilter.plot
    dsimp only
    rw [show (bankOf (size := size) g gs).graph = g from rfl, at_lmax, hl']
    dsimp only
    split
    · rename_i hshow
      obtain ⟨b, hb⟩ := hb hshow
      unfold LFilter.plotMarked
      have hat : (afterLmax S g h).at g (fun s => s.getBasis (S g)) =
          ((((afterLmax S g h) g).getBasis (S g)).1, afterE S g (afterLmax S g h)) := rfl
      have hat' : (afterLmax S g h).at (bankOf (size := size) g gs).graph (fun s => s.getBasis (S (bankOf (size := size) g gs).graph)) =
          (.ok (some b), afterE S g (afterLmax S g h)) := Prod.ext hb rfl
      rw [hat']
      dsimp only
      rw [bankOf_evaluate]
      dsimp only
      rw [bankOf_evaluate]
      exact ⟨_, rfl⟩
    · unfold LFilter.plotPlain
      rw [bankOf_evaluate]
      exact ⟨_, rfl⟩
  obtain ⟨pic, hpic⟩ := hex
  obtain ⟨l', -, h1, h2, h3, h4, -⟩ := C100_drawn (bankOf g gs) n eigenvalues sum labels h pic hpic
  have hcur : ∀ i j, pic.curves i j = gs.get (i.cast (bankOf_Nf g gs)) (pic.x.get j) := by
    intro i j
    cases hsh : eigenvalues.getD (h (bankOf (size := size) g gs).graph).basis.isSome with
    | false =>
      have h5 := (h1 hsh).2.2
      rw [bankOf_evaluate] at h5
      exact (congrFun (congrFun (Except.ok.inj h5) i) j).symm
    | true =>
      obtain ⟨b, z, t, -, -, -, h5, -⟩ := h2 hsh
      rw [bankOf_evaluate] at h5
      exact (congrFun (congrFun (Except.ok.inj h5) i) j).symm
  refine ⟨pic, hpic, hcur, fun k e z t hm => ?_, fun t ht j => ?_⟩
  · cases hsh : eigenvalues.getD (h (bankOf (size := size) g gs).graph).basis.isSome with
    | false => rw [(h1 hsh).2.1] at hm; simp at hm
    | true =>
      obtain ⟨b, z', t', h5, h6, -, h8, h9, h10, h11, h12⟩ := h2 hsh
      rw [h9] at hm
      have hm := Option.some.inj hm
      simp only [Sigma.mk.injEq] at hm
      obtain ⟨rfl, hm⟩ := hm
      have hm := eq_of_heq hm
      simp only [Prod.mk.injEq] at hm
      obtain ⟨rfl, rfl, rfl⟩ := hm
      rw [bankOf_evaluate, bankOf_evaluate] at h10
      have hz : ∀ i j, z' i j = gs.get (i.cast (bankOf_Nf g gs)) (b.e j) := fun i j => (congrFun (congrFun (Except.ok.inj h10) i) j).symm
      refine ⟨hz, fun j => h6.mem_iff.2 (List.mem_append_right _ (List.mem_ofFn.2 ⟨j, rfl⟩)), fun t'' ht j => ?_⟩
      rw [h12 t'' ht j, hsum]
      simp only [hz]
  · rw [h4 t ht j, hsum]
    simp only [hcur]

/-- In particular the total of a tight bank is drawn as a horizontal line: if the squares sum to `A` between 0 and `lmax` and no eigenvalue is
greater than `lmax`, all its points have ordinate `A`. -/
theorem C100_tight (g : Fin p) (gs : List (ℝ → ℝ)) (n : ℕ) (eigenvalues sum labels : Option Bool) (h : Heap size) {l A : ℝ} (hl0 : 0 ≤ l)
    (hl : ((h g).getLmax (S g)).1 = .ok (some (.fin l)))
    (hb : eigenvalues.getD (h g).basis.isSome = true → ∃ b, (((afterLmax S g h) g).getBasis (S g)).1 = .ok (some b) ∧
      ∀ j, 0 ≤ b.e j ∧ b.e j ≤ l)
    (hA : ∀ x, 0 ≤ x → x ≤ l → (gs.map fun g => g x ^ 2).sum = A) :
    ∃ pic, ((bankOf g gs).plot S n eigenvalues sum labels h).1 = .ok pic ∧ ∀ t, pic.total = some t → ∀ j, t j = A := by
  obtain ⟨pic, hpic, -, -, h3⟩ := C100_functions g gs n eigenvalues sum labels h hl (fun hs => by obtain ⟨b, h, -⟩ := hb hs; exact ⟨b, h⟩)
  refine ⟨pic, hpic, fun t ht j => ?_⟩
  obtain ⟨l', hl', h1, h2, -⟩ := C100_drawn (bankOf g gs) n eigenvalues sum labels h pic hpic
  have hll : l' = l := by
    have := hl.symm.trans hl'
    simp only [Except.ok.injEq, Option.some.injEq, PyNum.fin.injEq] at this
    exact this.symm
  subst hll
  rw [h3 t ht j]
  have hmem : pic.x.get j ∈ pic.x := List.get_mem _ _
  cases hsh : eigenvalues.getD (h (bankOf (size := size) g gs).graph).basis.isSome with
  | false =>
    have hmem' : ∀ x ∈ pic.x, x ∈ linspace l' n := by rw [(h1 hsh).1]; exact fun x h => h
    have hx := (C100_linspace l' n).2.2.2.2 hl0 _ (hmem' _ hmem)
    exact hA _ hx.1 hx.2
  | true =>
    obtain ⟨b, z, t', h5, h6, -⟩ := h2 hsh
    obtain ⟨b', h7, h8⟩ := hb hsh
    have hbb : b = b' := by
      have := h5.symm.trans h7
      exact Option.some.inj (Except.ok.inj this)
    subst hbb
    rcases List.mem_append.1 (h6.mem_iff.1 hmem) with hx | hx
    · have hx := (C100_linspace l' n).2.2.2.2 hl0 _ hx
      exact hA _ hx.1 hx.2
    · obtain ⟨i, hi⟩ := List.mem_ofFn.1 hx
      rw [← hi]
      exact hA _ (h8 i).1 (h8 i).2

/-- The picture with 1000 abscissae and no eigenvalues shows the frame bounds: `estimate_frame_bounds()` returns the least and the greatest
ordinates of the total. -/
theorem C100_bounds (g : Fin p) (gs : List (ℝ → ℝ)) (labels : Option Bool) (h : Heap size) {A B : ℝ}
    (hAB : ((⟨gs.map Kernel.pointwise⟩ : Bank).estimateFrameBounds (S g) none (h g)).1 = .ok (A, B)) :
    ∃ pic t, ((bankOf g gs).plot S 1000 (some false) (some true) labels h).1 = .ok pic ∧ pic.total = some t ∧
      (∀ j, A ≤ t j ∧ t j ≤ B) ∧ (∃ j, t j = A) ∧ ∃ j, t j = B := by
  unfold Bank.estimateFrameBounds at hAB
  dsimp only at hAB
  cases hl : Bank.lmaxNum (S g) (h g) with
  | mk r s1 =>
    rw [hl] at hAB
    cases r with
    | error e => simp at hAB
    | ok l =>
      dsimp only at hAB
      have hl' : ((h g).getLmax (S g)).1 = .ok (some (.fin l)) := lmaxNum_ok (by rw [hl])
      obtain ⟨pic, hpic, hcur, -, htot⟩ := C100_functions g gs 1000 (some false) (some true) labels h hl' (by simp)
      obtain ⟨l', hl'', h1, -, h3, -⟩ := C100_drawn (bankOf g gs) 1000 (some false) (some true) labels h pic hpic
      have hll : l' = l := by
        have := hl'.symm.trans hl''
        simp only [Except.ok.injEq, Option.some.injEq, PyNum.fin.injEq] at this
        exact this.symm
      subst hll
      obtain ⟨t, ht⟩ := Option.isSome_iff_exists.1 (show pic.total.isSome = true from h3)
      have hx := (h1 rfl).1
      have hlen : pic.x.length = 1000 := by rw [hx]; exact (C100_linspace l' 1000).1
      have hpt : ∀ j : Fin 1000, pic.x.get (j.cast hlen.symm) = Bank.linspace1000 l' j := by
        intro j
        have : pic.x.get (j.cast hlen.symm) = (linspace l' 1000)[(j : ℕ)]'(by rw [(C100_linspace l' 1000).1]; exact j.2) := by
          simp [hx]
        rw [this, (C100_linspace l' 1000).2.1]
        unfold Bank.linspace1000
        norm_num
      have hsq : (⟨gs.map Kernel.pointwise⟩ : Bank).sumSquares (Bank.linspace1000 l') =
          .ok fun j => (gs.map fun g => g (Bank.linspace1000 l' j) ^ 2).sum := by
        have hev : (⟨gs.map Kernel.pointwise⟩ : Bank).evaluate (Bank.linspace1000 l') =
            .ok fun i j => gs.get (i.cast (List.length_map ..)) (Bank.linspace1000 l' j) := by
          unfold Bank.evaluate
          rw [← seqFin_pure]
          congr 1
          funext i
          show (gs.map Kernel.pointwise).get i 1000 (Bank.linspace1000 l') = _
          rw [List.get_eq_getElem, List.getElem_map]
          rfl
        unfold Bank.sumSquares
        rw [hev]
        dsimp only
        congr 1
        funext j
        have e1 : ∀ (x : ℝ), ∑ i : Fin (⟨gs.map Kernel.pointwise⟩ : Bank).Nf, gs.get (i.cast (List.length_map ..)) x ^ 2
            = (gs.map fun g => g x ^ 2).sum := by
          intro x
          rw [← List.sum_ofFn]
          congr 1
          apply List.ext_getElem
          · simp [Bank.Nf]
          · intro i h1 h2; simp
        exact e1 _
      unfold Bank.boundsAt at hAB
      rw [hsq] at hAB
      dsimp only at hAB
      have hT : ∀ j : Fin 1000, t (j.cast hlen.symm) = (gs.map fun g => g (Bank.linspace1000 l' j) ^ 2).sum := by
        intro j
        rw [htot t ht]
        simp only [hpt]
      generalize hF : (fun j : Fin 1000 => (gs.map fun g => g (Bank.linspace1000 l' j) ^ 2).sum) = F at hAB
      have hT' : ∀ j : Fin 1000, t (j.cast hlen.symm) = F j := fun j => by rw [hT j, ← hF]
      have hcast : ∀ j, ∃ i : Fin 1000, i.cast hlen.symm = j := fun j => ⟨j.cast hlen, by ext; rfl⟩
      cases hmin : arrMin F with
      | error e => rw [hmin] at hAB; simp at hAB
      | ok a =>
        cases hmax : arrMax F with
        | error e => rw [hmin, hmax] at hAB; simp at hAB
        | ok b =>
          rw [hmin, hmax] at hAB
          simp only [Except.ok.injEq, Prod.mk.injEq] at hAB
          obtain ⟨rfl, rfl⟩ := hAB
          obtain ⟨⟨i1, h5⟩, h6⟩ := arrMin_ok' F a hmin
          obtain ⟨⟨i2, h7⟩, h8⟩ := arrMax_ok' F b hmax
          refine ⟨pic, t, hpic, ht, fun j => ?_, ⟨_, (hT' i1).trans h5⟩, ⟨_, (hT' i2).trans h7⟩⟩
          obtain ⟨i, rfl⟩ := hcast j
          rw [hT' i]
          exact ⟨h6 i, h8 i⟩

/-! ### Designs bound to the graph -/

/-- The picture of a lazy design on its own graph, without eigenvalues: the curves are those of the design for `lmax`, the last abscissa; the
basis is not computed. -/
theorem C100_lazy (d : LazyDesign) (g : Fin p) {f : LFilter size} (hf : d.build S g = .ok f) (n : ℕ) (eigenvalues sum labels : Option Bool)
    (h : Heap size) (hshow : eigenvalues.getD (h g).basis.isSome = false) (pic : FilterPicture f.Nf)
    (hpic : (f.plot S n eigenvalues sum labels h).1 = .ok pic) :
    ∃ (l : ℝ) (B : Bank), ((h g).getLmax (S g)).1 = .ok (some (.fin l)) ∧ d.bank l = .ok B ∧ pic.x = linspace l n ∧
      (B.evaluate pic.x.get).map List.ofFn = .ok (List.ofFn pic.curves) ∧ (f.plot S n eigenvalues sum labels h).2 = afterLmax S g h := by
  obtain ⟨h1, B, h2, hT⟩ := build_tracks hf
  subst h1
  obtain ⟨l, hl, h3, -⟩ := C100_drawn f n eigenvalues sum labels h pic hpic
  obtain ⟨h4, -, h5⟩ := h3 hshow
  have hl1 : Bank.lmaxNum (S f.graph) (afterLmax S f.graph h f.graph) = (.ok l, afterLmax S f.graph h f.graph) := by
    unfold afterLmax
    rw [Function.update_self]
    exact lmaxNum_settled (lmaxNum_of hl)
  have h6 := hT.evaluate hl1 pic.x.get
  refine ⟨l, B l, hl, h2 l, h4, ?_, ?_⟩
  · rw [← h6.1, h5]; rfl
  · have h7 := hT.evaluate hl1 (linspace l n).get
    have h8 : (f.evaluate (afterLmax S f.graph h) (linspace l n).get).2 = afterLmax S f.graph h := by
      rcases h7.2 with h | h
      · exact h
      · rw [h, Function.update_eq_self]
    unfold LFilter.plot
    dsimp only
    rw [hshow, at_lmax, lmaxNum_of hl]
    dsimp only
    rw [if_neg (by simp)]
    unfold LFilter.plotPlain
    revert h8
    cases f.evaluate (afterLmax S f.graph h) (linspace l n).get with
    | mk r t => intro h8; cases r <;> exact h8

/-- Drawing reads `G.lmax` and `G.e` at most: no graph is changed otherwise. -/
theorem C100_history {f : LFilter size} (hf : Obtained S f) (n : ℕ) (eigenvalues sum labels : Option Bool) (h : Heap size) (i : Fin p) :
    ∃ ops : List (Op (size i)), (∀ op ∈ ops, op = .getLmax ∨ op = .getBasis) ∧
      (f.plot S n eigenvalues sum labels h).2 i = runAll (S i) ops (h i) := by
  have key : HReads S h (f.plot S n eigenvalues sum labels h).2 := by
    have h0 := hreads_at (S := S) h f.graph (Bank.lmaxNum (S f.graph)) (reads_lmaxNum _)
    unfold LFilter.plot
    dsimp only
    revert h0
    cases h.at f.graph (Bank.lmaxNum (S f.graph)) with
    | mk r t =>
      intro h0
      cases r with
      | error e => exact h0
      | ok l =>
        dsimp only
        split
        · unfold LFilter.plotMarked
          have h1 := hreads_at (S := S) t f.graph (fun s => s.getBasis (S f.graph)) (reads_getBasis _)
          revert h1
          cases t.at f.graph (fun s => s.getBasis (S f.graph)) with
          | mk r u =>
            intro h1
            rcases r with e | _ | b
            · exact h0.trans h1
            · exact h0.trans h1
            · have h2 := hf.clean.evaluate u ((linspace l n ++ List.ofFn b.e).mergeSort (fun u v => decide (u ≤ v))).get
              dsimp only
              revert h2
              cases f.evaluate u ((linspace l n ++ List.ofFn b.e).mergeSort (fun u v => decide (u ≤ v))).get with
              | mk r v =>
                intro h2
                cases r with
                | error e => exact (h0.trans h1).trans h2
                | ok y =>
                  have h3 := hf.clean.evaluate v b.e
                  dsimp only
                  revert h3
                  cases f.evaluate v b.e with
                  | mk r w => intro h3; cases r <;> exact ((h0.trans h1).trans h2).trans h3
        · unfold LFilter.plotPlain
          have h1 := hf.clean.evaluate t (linspace l n).get
          revert h1
          cases f.evaluate t (linspace l n).get with
          | mk r u => intro h1; cases r <;> exact h0.trans h1
  obtain ⟨ops, h1, h2⟩ := key i
  refine ⟨ops, fun op hop => ?_, h2⟩
  have := h1 op hop
  cases op <;> simp_all [Op.isRead]

/-- **Drawing the eigenvalues the first time.**  On a graph just constructed (non-negative weights, an edge), `f.plot(eigenvalues=True)` draws
abscissae up to 1.01 times the largest eigenvalue; the same call again draws up to the largest eigenvalue only: the first one has changed
`G.lmax`. -/
theorem C100_twice_violated {n : ℕ} {T : Solvers n} (hS : Sound T) (hc : Converges T) (hE : ExactLM T) {g : Graph n ℝ} (hg : g.Built)
    (hW : NonnegW g.W.dense) (hn : 2 ≤ n) (hpos : ∃ e, 0 < e ∧ IsEigenvalue (ofGraph g).L e) (gs : List (ℝ → ℝ)) (m : ℕ) (hm : 2 ≤ m) :
    let h : Heap (fun _ : Fin 1 => n) := fun _ => ofGraph g
    let f : LFilter (fun _ : Fin 1 => n) := bankOf 0 gs
    let h' := (f.plot (fun _ => T) m (some true) none none h).2
    ∃ pic pic' v, (f.plot (fun _ => T) m (some true) none none h).1 = .ok pic ∧
      (f.plot (fun _ => T) m (some true) none none h').1 = .ok pic' ∧ 0 < v ∧ IsEigenvalue (ofGraph g).L v ∧
      101 / 100 * v ∈ pic.x ∧ ∀ x ∈ pic'.x, x ≤ v := by
  intro h f h'
  obtain ⟨hi, hb0, hl0, hm0, hmm0, hnb⟩ := ofGraph_inv (S := T) g hg
  have hW0 : NonnegW (ofGraph g).W.dense := by unfold GState.W; rw [hb0]; exact hW
  have hk0 : Known (ofGraph g).lapType := by rw [hl0]; exact hg.lapType_known
  obtain ⟨r, t, hr, hlm⟩ := fresh_lmax hS hc.1 hg hW hn
  obtain ⟨hre, hrm⟩ := hE t _ hi.L_symm r hr (hi.psd hW0)
  have hL1 : ((ofGraph g).getLmax T).2.L = (ofGraph g).L := by
    unfold getLmax
    rw [hm0]
    have := estimateLmax_L T .lanczos (ofGraph g)
    revert this
    cases (ofGraph g).estimateLmax T .lanczos with
    | mk q u => intro h; cases q <;> exact h
  set s1 := ((ofGraph g).getLmax T).2 with hs1
  have hrun1 : s1 = runAll T [.getLmax] (ofGraph g) := rfl
  have hnb1 : s1.basis = none := by rw [hs1, getLmax_basis, hnb]
  have hk1 : Known s1.lapType := by
    have := (reach_inv hS hg [.getLmax]).1
    have h2 := GState.run_lapType hi Op.getLmax
    rw [show s1 = ((Op.getLmax : Op n).run T (ofGraph g)).2 from rfl, h2]
    exact hk0
  obtain ⟨h1, b, hbp, h2, h3, h4, h5, h6⟩ := C20_lmax_exact hS hg hW (by omega) [.getLmax] hrun1 hk1 (by rw [hnb1]; simp)
  rw [hL1] at h5 h6
  set v := b.e ⟨b.k - 1, by omega⟩ with hv
  have hrv : r = v := le_antisymm (h6 _ hre) (hrm _ h5)
  obtain ⟨e0, he0, he1⟩ := hpos
  have hv0 : 0 < v := lt_of_lt_of_le he0 (h6 _ he1)
  have hgb : s1.getBasis T = (.ok (some b), (s1.computeFourierBasis T none).2) := by
    unfold GState.getBasis
    rw [hnb1]
    revert h1 h2
    cases s1.computeFourierBasis T none with
    | mk q u =>
      intro h1 h2
      simp only at h1 h2
      subst h1
      simp only [h2]
  set s2 := (s1.computeFourierBasis T none).2 with hs2
  have ha1 : afterLmax (fun _ => T) 0 h 0 = s1 := by unfold afterLmax; rw [Function.update_self]
  obtain ⟨pic, hpic, -⟩ := C100_functions (S := fun _ : Fin 1 => T) 0 gs m (some true) none none h (l := r * (101 / 100)) hlm
    (fun _ => ⟨b, by rw [ha1, hgb]⟩)
  -- the memory after the first picture
  have hh' : h' 0 = s2 := by
    show (f.plot (fun _ => T) m (some true) none none h).2 0 = s2
    unfold LFilter.plot
    dsimp only
    rw [show (h f.graph) = ofGraph g from rfl]
    have hat1 : h.at f.graph (Bank.lmaxNum T) = (.ok (r * (101 / 100)), Function.update h 0 s1) := by
      unfold Heap.at
      rw [show (h f.graph) = ofGraph g from rfl, lmaxNum_of hlm]
      rfl
    rw [hat1]
    dsimp only
    rw [if_pos (by rfl)]
    unfold LFilter.plotMarked
    have hat2 : Heap.at (size := fun _ : Fin 1 => n) (Function.update h 0 s1) f.graph (fun s => s.getBasis T) = (.ok (some b), Function.update (Function.update h 0 s1) 0 s2) := by
      unfold Heap.at
      have e : (Function.update h 0 s1) f.graph = s1 := Function.update_self ..
      dsimp only
      rw [e, hgb]
      rfl
    rw [hat2]
    dsimp only
    rw [bankOf_evaluate]
    dsimp only
    rw [bankOf_evaluate]
    show Function.update (Function.update h 0 s1) 0 s2 0 = s2
    rw [Function.update_self]
  have hl2 : ((h' 0).getLmax T).1 = .ok (some (.fin v)) := by rw [hh']; exact h4
  have hb2 : (afterLmax (fun _ => T) 0 h' 0).basis = some b := by
    unfold afterLmax
    rw [Function.update_self, getLmax_basis, hh']
    exact h2
  obtain ⟨pic', hpic', -⟩ := C100_functions (S := fun _ : Fin 1 => T) 0 gs m (some true) none none h' (l := v) hl2
    (fun _ => ⟨b, by rw [getBasis_of hb2]⟩)
  refine ⟨pic, pic', v, hpic, hpic', hv0, h5, ?_, fun x hx => ?_⟩
  · obtain ⟨l, hl, -, h7, -⟩ := C100_drawn _ _ _ _ _ _ pic hpic
    have hll : l = r * (101 / 100) := by
      have := hlm.symm.trans hl
      simp only [Except.ok.injEq, Option.some.injEq, PyNum.fin.injEq] at this
      exact this.symm
    obtain ⟨b', z, t', -, h8, -⟩ := h7 rfl
    refine h8.mem_iff.2 (List.mem_append_left _ ?_)
    have := (C100_linspace l m).2.2.2.1 hm
    rw [hll, hrv, mul_comm] at this
    rw [hll, hrv, mul_comm v]
    exact this
  · obtain ⟨l, hl, -, h7, -⟩ := C100_drawn _ _ _ _ _ _ pic' hpic'
    have hll : l = v := by
      have := hl2.symm.trans hl
      simp only [Except.ok.injEq, Option.some.injEq, PyNum.fin.injEq] at this
      exact this.symm
    obtain ⟨b', z, t', h8, h9, -⟩ := h7 rfl
    have hbb : b' = b := by
      have e : (afterLmax (fun _ => T) (bankOf (size := fun _ : Fin 1 => n) 0 gs).graph h' (bankOf (size := fun _ : Fin 1 => n) 0 gs).graph).getBasis T
          = (.ok (some b), _) := getBasis_of hb2
      rw [e] at h8
      exact (Option.some.inj (Except.ok.inj h8)).symm
    subst hbb
    rcases List.mem_append.1 (h9.mem_iff.1 hx) with hx | hx
    · have := ((C100_linspace l m).2.2.2.2 (by rw [hll]; exact hv0.le) _ hx).2
      rw [hll] at this
      exact this
    · obtain ⟨j, rfl⟩ := List.mem_ofFn.1 hx
      have hi2 := (computeFourierBasis_inv hS (getLmax_inv hi) none).basis b' h2
      have hL2 : (s1.computeFourierBasis T none).2.L = (ofGraph g).L := by rw [computeFourierBasis_L, hL1]
      rw [hL2] at hi2
      obtain ⟨h10, -⟩ := hi2.exact (hi.psd hW0) (hi.zero hW0)
      exact h6 _ (h10.isEigenvalue j)

/-- the cosine and the sine form a tight bank: on a graph just constructed, the default picture has a total drawn at ordinate 1 -/
example {n : ℕ} {T : Solvers n} (hS : Sound T) (hc : Converges T) {g : Graph n ℝ} (hg : g.Built) (hW : NonnegW g.W.dense) (hn : 2 ≤ n)
    (hE : ExactLM T) : ∃ pic t, ((bankOf (size := fun _ : Fin 1 => n) 0 [Real.cos, Real.sin]).plot (fun _ => T) 500 none none none
      (fun _ => ofGraph g)).1 = .ok pic ∧ pic.total = some t ∧ pic.legend = true ∧ ∀ j, t j = 1 := by
  obtain ⟨hi, hb0, hl0, hm0, hmm0, hnb⟩ := ofGraph_inv (S := T) g hg
  have hW0 : NonnegW (ofGraph g).W.dense := by unfold GState.W; rw [hb0]; exact hW
  obtain ⟨r, t, hr, hlm⟩ := fresh_lmax hS hc.1 hg hW hn
  obtain ⟨⟨x, hx, hxe⟩, -⟩ := hE t _ hi.L_symm r hr (hi.psd hW0)
  have hr0 : 0 ≤ r := by
    have h1 := hi.psd hW0 x
    rw [hxe, dotProduct_smul, smul_eq_mul] at h1
    exact nonneg_of_mul_nonneg_left h1 (dot_self_pos hx)
  obtain ⟨pic, h1, h2⟩ := C100_tight (S := fun _ : Fin 1 => T) 0 [Real.cos, Real.sin] 500 none none none (fun _ => ofGraph g)
    (l := r * (101 / 100)) (A := 1) (by positivity) hlm (by simp [hnb]) (by intro x _ _; simp [Real.cos_sq_add_sin_sq])
  obtain ⟨-, -, -, -, h3, -, h4⟩ := C100_drawn _ _ _ _ _ _ pic h1
  obtain ⟨t', ht⟩ := Option.isSome_iff_exists.1 (h3.trans rfl)
  exact ⟨pic, t', h1, ht, by rw [h4]; rfl, h2 t' ht⟩

end PyGSP
