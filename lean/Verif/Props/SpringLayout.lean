import Verif.Lemmas.Spring

/-!
# C138: symmetries of the spring layout
-/

namespace PyGSP.Layout

open Matrix Spec GState

variable {n dim : ℕ}

/-- The call has returned and the positions are now `x`. -/
def _root_.PyGSP.Spec.Drawn (r : Py Unit × LState n) (x : Fin n → Fin dim → ℝ) : Prop := r.1 = .ok () ∧ r.2.coords = .array (.of2 x)

/-- The call has returned and all the positions are NaN. -/
def _root_.PyGSP.Spec.Lost (r : Py Unit × LState n) : Prop := r.1 = .ok () ∧ ∃ shape, r.2.coords = .nan shape

/-- the result of the call, without the state -/
noncomputable def outcome (p : Spring n) (draw : (d : ℕ) → Fin n → Fin d → ℝ) (A : Fin n → Fin n → Bool) : Py Coords :=
  if p.pos.isSome ∧ n * p.dim = 0 then .error .valueError else spring p draw A

theorem call_eq (S : Solvers n) (draw : (d : ℕ) → Fin n → Fin d → ℝ) (p : Spring n) (s : LState n) :
    (setCoordinates S draw (.name "spring") p s).1 = (outcome p draw s.g.getA.1).map (fun _ => ()) ∧
    ∀ x, outcome p draw s.g.getA.1 = .ok x → (setCoordinates S draw (.name "spring") p s).2.coords = x := by
  unfold outcome
  simp only [setCoordinates]
  by_cases h : p.pos.isSome ∧ n * p.dim = 0
  · rw [if_pos h, if_pos h]
    exact ⟨rfl, fun x hx => by simp at hx⟩
  · rw [if_neg h, if_neg h]
    cases spring p draw s.g.getA.1 with
    | error e => exact ⟨rfl, fun x hx => by simp at hx⟩
    | ok x => exact ⟨rfl, fun y hy => Except.ok.inj hy⟩

theorem drawn_iff (S : Solvers n) (draw : (d : ℕ) → Fin n → Fin d → ℝ) (p : Spring n) (s : LState n) (x : Fin n → Fin dim → ℝ) :
    Drawn (setCoordinates S draw (.name "spring") p s) x ↔ outcome p draw s.g.getA.1 = .ok (.array (.of2 x)) := by
  obtain ⟨h1, h2⟩ := call_eq S draw p s
  unfold Drawn
  rw [h1]
  cases h : outcome p draw s.g.getA.1 with
  | error e => simp [Except.map]
  | ok y =>
    rw [h2 y h]
    simp [Except.map]

theorem lost_iff (S : Solvers n) (draw : (d : ℕ) → Fin n → Fin d → ℝ) (p : Spring n) (s : LState n) :
    Lost (setCoordinates S draw (.name "spring") p s) ↔ ∃ shape, outcome p draw s.g.getA.1 = .ok (.nan shape) := by
  obtain ⟨h1, h2⟩ := call_eq S draw p s
  unfold Lost
  rw [h1]
  cases h : outcome p draw s.g.getA.1 with
  | error e => simp [Except.map]
  | ok y =>
    rw [h2 y h]
    simp [Except.map]

theorem adj_of {S : Solvers n} (hS : Sound S) {g : Graph n ℝ} (hg : g.Built) {hist : List (Op n)} {s : LState n} (hs : s.g = runAll S hist (GState.ofGraph g)) :
    s.g.getA.1 = fun i j => decide (0 < g.W.dense i j) := by
  rw [(C18_structure hS hg hist hs).2.2.2.1]
  funext i j
  exact decide_eq_decide.2 Iff.rfl

theorem limOf_le {pos : Fin n → Fin dim → ℝ} {M : ℝ} (h : ∀ i c, pos i c ≤ M) (h0 : 0 ≤ M) : limOf pos ≤ M := by
  obtain ⟨-, h2, h3⟩ := limOf_spec pos
  rcases h2.eq_or_lt with h | h'
  · rw [← h]
    exact h0
  · obtain ⟨i, c, e⟩ := h3 h'
    rw [← e]
    exact h i c

/-- the centred positions -/
noncomputable def centred (pos : Fin n → Fin dim → ℝ) : Fin n → Fin dim → ℝ := fun i c => pos i c - (∑ j, pos j c) / n

theorem rescale_eq (pos : Fin n → Fin dim → ℝ) (scale : ℝ) :
    rescale pos scale = if limOf (centred pos) = 0 then none else some fun i c => centred pos i c * (scale / limOf (centred pos)) := rfl

section perm
variable {σ : Equiv.Perm (Fin n)} {pos pos' : Fin n → Fin dim → ℝ} (hp : ∀ i, pos' (σ i) = pos i)
include hp

theorem limOf_perm : limOf pos' = limOf pos := by
  have hp' : ∀ i, pos' i = pos (σ.symm i) := fun i => by rw [← hp, Equiv.apply_symm_apply]
  refine le_antisymm (limOf_le (fun i c => ?_) (limOf_spec pos).2.1) (limOf_le (fun i c => ?_) (limOf_spec pos').2.1)
  · rw [hp']
    exact (limOf_spec pos).1 _ c
  · rw [← hp]
    exact (limOf_spec pos').1 _ c

theorem centred_perm (i : Fin n) : centred pos' (σ i) = centred pos i := by
  funext c
  unfold centred
  rw [← Equiv.sum_comp σ]
  simp only [hp]

theorem rescale_perm (scale : ℝ) : rescale pos' scale = (rescale pos scale).map fun x i => x (σ.symm i) := by
  rw [rescale_eq, rescale_eq, limOf_perm (centred_perm hp)]
  split
  · rfl
  · simp only [Option.map_some, Option.some.injEq]
    funext i c
    rw [← centred_perm hp (σ.symm i), Equiv.apply_symm_apply]

end perm

section iso
variable {Q : Matrix (Fin dim) (Fin dim) ℝ} (b : Fin dim → ℝ)

theorem centred_iso (hn : 0 < n) (pos : Fin n → Fin dim → ℝ) : centred (fun i => Q *ᵥ pos i + b) = fun i => Q *ᵥ centred pos i := by
  have hn' : (n : ℝ) ≠ 0 := by exact_mod_cast hn.ne'
  funext i c
  unfold centred
  simp only [Matrix.mulVec, dotProduct, Pi.add_apply]
  rw [Finset.sum_add_distrib, Finset.sum_const, Finset.card_univ, Fintype.card_fin, nsmul_eq_mul, Finset.sum_comm, add_div, mul_div_cancel_left₀ _ hn', add_sub_add_right_eq_sub, Finset.sum_div,
    ← Finset.sum_sub_distrib]
  refine Finset.sum_congr rfl fun a _ => ?_
  rw [← Finset.mul_sum]
  ring

theorem centred_sum (hn : 0 < n) (pos : Fin n → Fin dim → ℝ) (c : Fin dim) : ∑ i, centred pos i c = 0 := by
  have hn' : (n : ℝ) ≠ 0 := by exact_mod_cast hn.ne'
  unfold centred
  rw [Finset.sum_sub_distrib, Finset.sum_const, Finset.card_univ, Fintype.card_fin, nsmul_eq_mul, mul_div_cancel₀ _ hn', sub_self]

theorem limOf_zero {x : Fin n → Fin dim → ℝ} (hs : ∀ c, ∑ i, x i c = 0) : limOf x = 0 ↔ x = 0 := by
  constructor
  · intro h
    have hle : ∀ i c, x i c ≤ 0 := fun i c => h ▸ (limOf_spec x).1 i c
    funext i c
    have := (Finset.sum_eq_zero_iff_of_nonpos fun i _ => hle i c).mp (hs c) i (Finset.mem_univ i)
    exact this
  · intro h
    rw [h]
    exact le_antisymm (limOf_le (fun _ _ => le_rfl) le_rfl) (limOf_spec _).2.1

end iso

section
variable {S : Solvers n} (hS : Sound S) {g g' : Graph n ℝ} (hg : g.Built) (hg' : g'.Built) {hist hist' : List (Op n)} {s s' : LState n}
  (hs : s.g = runAll S hist (GState.ofGraph g)) (hs' : s'.g = runAll S hist' (GState.ofGraph g')) (draw draw' : (d : ℕ) → Fin n → Fin d → ℝ)
include hS hg hs

include hg' hs' in
/-- **C138, only the links count.**  The spring layout depends on the graph only through the set of positive weights: graphs with the same links are drawn alike, whatever the weights and the histories. -/
theorem C138_links (p : Spring n) (hW : ∀ i j, 0 < g.W.dense i j ↔ 0 < g'.W.dense i j) :
    (setCoordinates S draw (.name "spring") p s).1 = (setCoordinates S draw (.name "spring") p s').1 ∧
    ((setCoordinates S draw (.name "spring") p s).1 = .ok () →
      (setCoordinates S draw (.name "spring") p s).2.coords = (setCoordinates S draw (.name "spring") p s').2.coords) := by
  have hA : s.g.getA.1 = s'.g.getA.1 := by
    rw [adj_of hS hg hs, adj_of hS hg' hs']
    funext i j
    exact decide_eq_decide.2 (hW i j)
  obtain ⟨h1, h2⟩ := call_eq S draw p s
  obtain ⟨h1', h2'⟩ := call_eq S draw p s'
  rw [h1, h1', hA]
  refine ⟨rfl, fun h => ?_⟩
  rw [← hA] at h h2'
  cases ho : outcome p draw s.g.getA.1 with
  | error e => rw [ho] at h; simp [Except.map] at h
  | ok x => rw [h2 x ho, h2' x ho]

include hg' hs' in
/-- **C138, renaming the vertices** in the weights, in the starting positions (given or drawn) and in the list of fixed vertices renames the layout. -/
theorem C138_renaming (σ : Equiv.Perm (Fin n)) (hW : ∀ i j, g'.W.dense (σ i) (σ j) = g.W.dense i j) {k : Option ℝ} {pos : Option (Fin n → Fin dim → ℝ)} {fixed fixed' : List (Fin n)}
    {iterations : ℕ} {scale : ℝ} {center : Option (Σ d, Fin d → ℝ)} (hf : ∀ i, σ i ∈ fixed' ↔ i ∈ fixed) (hdraw : ∀ d i, draw' d (σ i) = draw d i) :
    (∀ x : Fin n → Fin dim → ℝ,
      Drawn (setCoordinates S draw (.name "spring") { dim := dim, k := k, pos := pos, fixed := fixed, iterations := iterations, scale := scale, center := center } s) x →
      Drawn (setCoordinates S draw' (.name "spring") { dim := dim, k := k, pos := pos.map fun y i => y (σ.symm i), fixed := fixed', iterations := iterations, scale := scale, center := center } s')
        fun i => x (σ.symm i)) ∧
    (Lost (setCoordinates S draw (.name "spring") { dim := dim, k := k, pos := pos, fixed := fixed, iterations := iterations, scale := scale, center := center } s) →
      Lost (setCoordinates S draw' (.name "spring") { dim := dim, k := k, pos := pos.map fun y i => y (σ.symm i), fixed := fixed', iterations := iterations, scale := scale, center := center } s')) := by
  set p : Spring n := { dim := dim, k := k, pos := pos, fixed := fixed, iterations := iterations, scale := scale, center := center } with hpdef
  set p' : Spring n := { dim := dim, k := k, pos := pos.map fun y i => y (σ.symm i), fixed := fixed', iterations := iterations, scale := scale, center := center } with hpdef'
  set A := s.g.getA.1 with hAdef
  set A' := s'.g.getA.1 with hAdef'
  have hA : ∀ i j, A' (σ i) (σ j) = A i j := by
    intro i j
    rw [hAdef, hAdef', adj_of hS hg hs, adj_of hS hg' hs']
    simp only [hW]
  have hlen : fixed'.length = 0 ↔ fixed.length = 0 := by
    simp only [List.length_eq_zero_iff, List.eq_nil_iff_forall_not_mem]
    constructor
    · intro h i hi
      exact h (σ i) ((hf i).mpr hi)
    · intro h i hi
      have := hf (σ.symm i)
      rw [Equiv.apply_symm_apply] at this
      exact h _ (this.mp hi)
  have hsome : (p'.pos.isSome ∧ n * p'.dim = 0) ↔ (p.pos.isSome ∧ n * p.dim = 0) := by
    simp [p, p']
  have hstart : ∀ i, p'.pos.getD (draw' p'.dim) (σ i) = p.pos.getD (draw p.dim) i := by
    intro i
    show (pos.map fun y i => y (σ.symm i)).getD (draw' dim) (σ i) = pos.getD (draw dim) i
    cases pos with
    | none => exact hdraw dim i
    | some y => simp
  have key : ¬ (p.pos.isSome ∧ n * p.dim = 0) → springK p' = springK p := by
    intro h
    have hdom : domSize p' = domSize p := by
      cases hpos : pos with
      | none =>
        have e1 : p'.pos = none := by simp [p', hpos]
        have e2 : p.pos = none := hpos
        unfold domSize
        rw [e1, e2]
      | some y =>
        have e1 : p'.pos = some fun i => y (σ.symm i) := by simp [p', hpos]
        have e2 : p.pos = some y := hpos
        have hnd : n * dim ≠ 0 := fun h0 => h ⟨by rw [e2]; rfl, h0⟩
        have hn : 0 < n := Nat.pos_of_ne_zero fun h0 => hnd (by simp [h0])
        have hd : 0 < dim := Nat.pos_of_ne_zero fun h0 => hnd (by simp [h0])
        have g1 := domSize_spec hn (p := p') hd e1
        have g2 := domSize_spec hn (p := p) hd e2
        have hset : {x | ∃ i c, y (σ.symm i) c = x} = {x | ∃ i c, y i c = x} := by
          ext x
          constructor
          · rintro ⟨i, c, e⟩
            exact ⟨_, c, e⟩
          · rintro ⟨i, c, e⟩
            exact ⟨σ i, c, by rw [Equiv.symm_apply_apply]; exact e⟩
        rw [hset] at g1
        exact g1.unique g2
    have hl : 0 < p'.fixed.length ↔ 0 < p.fixed.length := by
      rw [Nat.pos_iff_ne_zero, Nat.pos_iff_ne_zero]
      exact not_congr hlen
    unfold springK
    rw [hdom]
    simp only [hl]
    rfl
  have hloop : ∀ K : ℝ, ∀ i, sparseSpring A' (some K) (p'.pos.getD (draw' p'.dim)) p'.fixed p'.iterations (σ i) =
      sparseSpring A (some K) (p.pos.getD (draw p.dim)) p.fixed p.iterations i := by
    intro K i
    unfold sparseSpring
    exact springLoop_perm hA hf _ _ _ hstart i
  have hcen : centerOf p' = centerOf p := rfl
  simp only [drawn_iff, lost_iff]
  unfold outcome
  by_cases h : p.pos.isSome ∧ n * p.dim = 0
  · rw [if_pos h, if_pos (hsome.mpr h)]
    simp
  · rw [if_neg h, if_neg fun h' => h (hsome.mp h')]
    have hk := key h
    unfold spring
    simp only [hk]
    have hl : p'.fixed.length = 0 ↔ p.fixed.length = 0 := hlen
    simp only [hl]
    have e1 : p'.k = p.k := rfl
    have e2 : p'.iterations = p.iterations := rfl
    have e3 : p'.dim = p.dim := rfl
    by_cases c1 : n = 0 ∧ p.k = none
    · rw [if_pos c1, if_pos c1]
      simp
    rw [if_neg c1, if_neg c1]
    by_cases c2 : n = 0 ∧ 0 < p.dim
    · rw [if_pos c2, if_pos c2]
      simp
    rw [if_neg c2, if_neg c2]
    by_cases c3 : springK p = 0 ∧ 0 < p.iterations
    · rw [if_pos c3, if_pos c3]
      by_cases c4 : p.fixed.length = 0
      · rw [if_pos c4, if_pos c4]
        simp
      · rw [if_neg c4, if_neg c4]
        simp
    rw [if_neg c3, if_neg c3]
    by_cases c4 : p.fixed.length = 0
    · rw [if_pos c4, if_pos c4]
      rw [rescale_perm (hloop (springK p))]
      have e4 : p'.scale = p.scale := rfl
      rw [e4]
      cases hr : rescale (sparseSpring A (some (springK p)) (p.pos.getD (draw p.dim)) p.fixed p.iterations) p.scale with
      | none => simp
      | some q =>
        simp only [Option.map_some]
        constructor
        · intro x hx
          have := array_inj (Except.ok.inj hx)
          rw [hcen]
          subst this
          rfl
        · rintro ⟨sh, hx⟩
          simp at hx
    · rw [if_neg c4, if_neg c4]
      constructor
      · intro x hx
        have := array_inj (Except.ok.inj hx)
        subst this
        congr 3
        funext i
        rw [← hloop, Equiv.apply_symm_apply]
      · rintro ⟨sh, hx⟩
        simp at hx

/-- **C138, symmetric starts stay symmetric**: a permutation of the vertices that keeps the weights, the starting positions and the set of fixed vertices keeps the layout. -/
theorem C138_symmetry (σ : Equiv.Perm (Fin n)) (hW : ∀ i j, g.W.dense (σ i) (σ j) = g.W.dense i j) {k : Option ℝ} {pos : Fin n → Fin dim → ℝ} {fixed : List (Fin n)}
    {iterations : ℕ} {scale : ℝ} {center : Option (Σ d, Fin d → ℝ)} (hp : ∀ i, pos (σ i) = pos i) (hf : ∀ i, σ i ∈ fixed ↔ i ∈ fixed) {x : Fin n → Fin dim → ℝ}
    (hx : Drawn (setCoordinates S draw (.name "spring") { dim := dim, k := k, pos := some pos, fixed := fixed, iterations := iterations, scale := scale, center := center } s) x) (i : Fin n) :
    x (σ i) = x i := by
  have h := (C138_renaming (dim := dim) hS hg hg hs hs draw (fun d i => draw d (σ.symm i)) σ hW (k := k) (pos := some pos) (iterations := iterations) (scale := scale) (center := center)
    hf (fun d i => by simp)).1 x hx
  have e : (some pos).map (fun (y : Fin n → Fin dim → ℝ) i => y (σ.symm i)) = some pos := by
    simp only [Option.map_some, Option.some.injEq]
    funext i
    rw [← hp, Equiv.apply_symm_apply]
  rw [e] at h
  have h2 : (setCoordinates S (fun d i => draw d (σ.symm i)) (.name "spring") { dim := dim, k := k, pos := some pos, fixed := fixed, iterations := iterations, scale := scale, center := center } s) =
      setCoordinates S draw (.name "spring") { dim := dim, k := k, pos := some pos, fixed := fixed, iterations := iterations, scale := scale, center := center } s := rfl
  rw [h2] at h
  have := array_inj (hx.2.symm.trans h.2)
  conv_lhs => rw [this]
  simp

/-- **C138, vertices that start together and have the same neighbours are never told apart.** -/
theorem C138_twins {a b : Fin n} (hW : ∀ j, j ≠ a → j ≠ b → g.W.dense a j = g.W.dense b j ∧ g.W.dense j a = g.W.dense j b) (hab : g.W.dense a b = g.W.dense b a)
    (hloop : g.W.dense a a = g.W.dense b b) {k : Option ℝ} {pos : Fin n → Fin dim → ℝ} {fixed : List (Fin n)}
    {iterations : ℕ} {scale : ℝ} {center : Option (Σ d, Fin d → ℝ)} (hp : pos a = pos b) (hf : a ∈ fixed ↔ b ∈ fixed) {x : Fin n → Fin dim → ℝ}
    (hx : Drawn (setCoordinates S draw (.name "spring") { dim := dim, k := k, pos := some pos, fixed := fixed, iterations := iterations, scale := scale, center := center } s) x) :
    x a = x b := by
  have h := C138_symmetry hS hg hs draw (Equiv.swap a b) (fun i j => ?_) (fun i => ?_) (fun i => ?_) hx b
  · rwa [Equiv.swap_apply_right] at h
  · by_cases hab' : a = b
    · subst hab'; simp
    have hba : b ≠ a := fun h => hab' h.symm
    by_cases hia : i = a
    · subst hia
      by_cases hji : j = i
      · subst hji; simp [hloop]
      · by_cases hjb : j = b
        · subst hjb; simp [hab]
        · rw [Equiv.swap_apply_left, Equiv.swap_apply_of_ne_of_ne hji hjb, (hW j hji hjb).1]
    · by_cases hib : i = b
      · subst hib
        by_cases hja : j = a
        · subst hja; simp [hab]
        · by_cases hji : j = i
          · subst hji; simp [hloop]
          · rw [Equiv.swap_apply_right, Equiv.swap_apply_of_ne_of_ne hja hji, (hW j hja hji).1]
      · rw [Equiv.swap_apply_of_ne_of_ne hia hib]
        by_cases hja : j = a
        · subst hja
          rw [Equiv.swap_apply_left, (hW i hia hib).2]
        · by_cases hjb : j = b
          · subst hjb
            rw [Equiv.swap_apply_right, (hW i hia hib).2]
          · rw [Equiv.swap_apply_of_ne_of_ne hja hjb]
  · by_cases hia : i = a
    · subst hia; rw [Equiv.swap_apply_left, hp]
    · by_cases hib : i = b
      · subst hib; rw [Equiv.swap_apply_right, hp]
      · rw [Equiv.swap_apply_of_ne_of_ne hia hib]
  · by_cases hia : i = a
    · subst hia; rw [Equiv.swap_apply_left, hf]
    · by_cases hib : i = b
      · subst hib; rw [Equiv.swap_apply_right, hf]
      · rw [Equiv.swap_apply_of_ne_of_ne hia hib]

omit hS hg hs

theorem fixed_drawn {k : Option ℝ} {pos : Fin n → Fin dim → ℝ} {fixed : List (Fin n)} (hf : fixed ≠ []) {iterations : ℕ} {scale : ℝ} {center : Option (Σ d, Fin d → ℝ)} {x : Fin n → Fin dim → ℝ}
    (hx : Drawn (setCoordinates S draw (.name "spring") { dim := dim, k := k, pos := some pos, fixed := fixed, iterations := iterations, scale := scale, center := center } s) x) :
    x = springLoop s.g.getA.1 (springK { dim := dim, k := k, pos := some pos, fixed := fixed, iterations := iterations, scale := scale, center := center }) fixed
      (1 / 10 / (iterations + 1)) iterations (1 / 10) pos ∧ 0 < n ∧ n * dim ≠ 0 ∧
      ¬ (springK { dim := dim, k := k, pos := some pos, fixed := fixed, iterations := iterations, scale := scale, center := center } = 0 ∧ 0 < iterations) := by
  rw [drawn_iff] at hx
  have hl : fixed.length ≠ 0 := by simpa using hf
  have hn : 0 < n := by
    cases fixed with
    | nil => exact absurd rfl hf
    | cons a _ => exact a.pos
  unfold outcome at hx
  split at hx
  · simp at hx
  rename_i h1
  have hnd : n * dim ≠ 0 := fun h => h1 ⟨rfl, h⟩
  unfold spring at hx
  rw [if_neg (by omega), if_neg (by omega)] at hx
  split at hx
  · simp at hx
  · rename_i hk
    exact ⟨(array_inj (Except.ok.inj hx)).symm, hn, hnd, hk⟩

theorem free_drawn {k : Option ℝ} {pos : Fin n → Fin dim → ℝ} {iterations : ℕ} {scale : ℝ} {center : Option (Σ d, Fin d → ℝ)} :
    let p : Spring n := { dim := dim, k := k, pos := some pos, fixed := [], iterations := iterations, scale := scale, center := center }
    let y := springLoop s.g.getA.1 (k.getD (√(1 / n))) [] (1 / 10 / (iterations + 1)) iterations (1 / 10) pos
    ((∃ x : Fin n → Fin dim → ℝ, Drawn (setCoordinates S draw (.name "spring") p s) x) ↔
      n * dim ≠ 0 ∧ ¬ (k.getD (√(1 / n)) = 0 ∧ 0 < iterations) ∧ limOf (centred y) ≠ 0) ∧
    (∀ x : Fin n → Fin dim → ℝ, Drawn (setCoordinates S draw (.name "spring") p s) x → ∀ i c, x i c = centred y i c * (scale / limOf (centred y)) + centerOf p c) := by
  intro p y
  have hK : springK p = k.getD (√(1 / n)) := by
    unfold springK
    rw [if_neg (by simp [p])]
  simp only [drawn_iff]
  unfold outcome
  by_cases h0 : n * dim = 0
  · rw [if_pos ⟨rfl, h0⟩]
    simp [h0]
  rw [if_neg fun h => h0 h.2]
  have hn : n ≠ 0 := fun h => h0 (by simp [h])
  unfold spring
  rw [if_neg (by tauto), if_neg (by tauto), hK]
  by_cases hk : k.getD (√(1 / n)) = 0 ∧ 0 < iterations
  · rw [if_pos (show k.getD (√(1 / n)) = 0 ∧ 0 < p.iterations from hk), if_pos (show p.fixed.length = 0 from rfl)]
    constructor
    · constructor
      · rintro ⟨x, hx⟩
        simp at hx
      · intro h
        exact absurd hk h.2.1
    · intro x hx
      simp at hx
  rw [if_neg (show ¬ (k.getD (√(1 / n)) = 0 ∧ 0 < p.iterations) from hk)]
  dsimp only
  rw [if_pos (show p.fixed.length = 0 from rfl)]
  have hy : sparseSpring s.g.getA.1 (some (k.getD (√(1 / n)))) (p.pos.getD (draw p.dim)) p.fixed p.iterations = y := rfl
  rw [hy, rescale_eq]
  by_cases hl : limOf (centred y) = 0
  · rw [if_pos hl]
    simp [hl]
  · rw [if_neg hl]
    refine ⟨⟨fun _ => ⟨h0, hk, hl⟩, fun _ => ⟨_, rfl⟩⟩, fun x hx i c => ?_⟩
    rw [← array_inj (Except.ok.inj hx)]

/-- **C138, isometries.**  With some fixed vertices and an explicit `k`, moving all the given positions by an isometry moves the layout by the same isometry. -/
theorem C138_isometry {Q : Matrix (Fin dim) (Fin dim) ℝ} (hQ : Qᵀ * Q = 1) (b : Fin dim → ℝ) {k : ℝ} {pos : Fin n → Fin dim → ℝ} {fixed : List (Fin n)} (hf : fixed ≠ []) {iterations : ℕ}
    {scale : ℝ} {center : Option (Σ d, Fin d → ℝ)} {x : Fin n → Fin dim → ℝ}
    (hx : Drawn (setCoordinates S draw (.name "spring") { dim := dim, k := some k, pos := some pos, fixed := fixed, iterations := iterations, scale := scale, center := center } s) x) :
    Drawn (setCoordinates S draw (.name "spring")
      { dim := dim, k := some k, pos := some fun i => Q *ᵥ pos i + b, fixed := fixed, iterations := iterations, scale := scale, center := center } s) fun i => Q *ᵥ x i + b := by
  obtain ⟨e, hn, hnd, hk⟩ := fixed_drawn draw hf hx
  have hl : fixed.length ≠ 0 := by simpa using hf
  rw [drawn_iff]
  unfold outcome
  rw [if_neg fun h => hnd h.2]
  unfold spring
  rw [if_neg (by omega), if_neg (by omega)]
  have hK : ∀ q, springK (n := n) { dim := dim, k := some k, pos := some q, fixed := fixed, iterations := iterations, scale := scale, center := center } = k := by
    intro q
    simp [springK]
  rw [hK] at e hk
  rw [hK, if_neg (show ¬ (k = 0 ∧ 0 < iterations) from hk), if_neg (show ¬ fixed.length = 0 from hl), e]
  congr 3
  exact springLoop_iso hQ b _ _ _ pos

/-- **C138, without fixed vertices**, moving the starting positions by an isometry `Q`, `b` gives the layout moved by `Q` around the centre, up to a positive factor (the layout is scaled by its largest
coordinate, which a rotation changes); translating them changes nothing.  If the layout is not lost (NaN) from one start, it is not from the
other one. -/
theorem C138_similar {Q : Matrix (Fin dim) (Fin dim) ℝ} (hQ : Qᵀ * Q = 1) (b : Fin dim → ℝ) {k : Option ℝ} {pos : Fin n → Fin dim → ℝ} {iterations : ℕ} {scale : ℝ}
    {center : Option (Σ d, Fin d → ℝ)} {cen : Fin dim → ℝ} (hc : center = some ⟨dim, cen⟩ ∨ (center = none ∧ cen = 0)) {x : Fin n → Fin dim → ℝ}
    (hx : Drawn (setCoordinates S draw (.name "spring") { dim := dim, k := k, pos := some pos, iterations := iterations, scale := scale, center := center } s) x) :
    ∃ x' : Fin n → Fin dim → ℝ,
      Drawn (setCoordinates S draw (.name "spring") { dim := dim, k := k, pos := some fun i => Q *ᵥ pos i + b, iterations := iterations, scale := scale, center := center } s) x' ∧
      (∃ r : ℝ, 0 < r ∧ ∀ i, x' i - cen = r • (Q *ᵥ (x i - cen))) ∧ (Q = 1 → x' = x) := by
  obtain ⟨h1, h2⟩ := free_drawn (S := S) (s := s) (dim := dim) draw (k := k) (pos := pos) (iterations := iterations) (scale := scale) (center := center)
  obtain ⟨h1', h2'⟩ := free_drawn (S := S) (s := s) (dim := dim) draw (k := k) (pos := fun i => Q *ᵥ pos i + b) (iterations := iterations) (scale := scale) (center := center)
  have hcen : ∀ q c, centerOf (n := n) { dim := dim, k := k, pos := q, fixed := [], iterations := iterations, scale := scale, center := center } c = cen c := by
    intro q c
    unfold centerOf
    rcases hc with h | ⟨h, h'⟩
    · rw [h]
      simp
    · rw [h, h']
  set y := springLoop s.g.getA.1 (k.getD (√(1 / n))) [] (1 / 10 / (iterations + 1)) iterations (1 / 10) pos with hy
  have hy' : springLoop s.g.getA.1 (k.getD (√(1 / n))) [] (1 / 10 / (iterations + 1)) iterations (1 / 10) (fun i => Q *ᵥ pos i + b) = fun i => Q *ᵥ y i + b :=
    springLoop_iso hQ b _ _ _ pos
  rw [hy'] at h1' h2'
  obtain ⟨hnd, hk, hl⟩ := h1.mp ⟨x, hx⟩
  have hn : 0 < n := Nat.pos_of_ne_zero fun h => hnd (by simp [h])
  have hcy : centred (fun i => Q *ᵥ y i + b) = fun i => Q *ᵥ centred y i := centred_iso b hn y
  have hl' : limOf (centred fun i => Q *ᵥ y i + b) ≠ 0 := by
    rw [ne_eq, limOf_zero (centred_sum hn _)] at hl ⊢
    rw [hcy]
    intro h
    apply hl
    funext i
    have := congrFun h i
    have e : Qᵀ *ᵥ (Q *ᵥ centred y i) = centred y i := by rw [Matrix.mulVec_mulVec, hQ, Matrix.one_mulVec]
    rw [← e, this]
    simp
  obtain ⟨x', hx'⟩ := h1'.mpr ⟨hnd, hk, hl'⟩
  have f := h2 x hx
  have f' := h2' x' hx'
  have hp : 0 < limOf (centred y) := lt_of_le_of_ne (limOf_spec _).2.1 (Ne.symm hl)
  have hp' : 0 < limOf (centred fun i => Q *ᵥ y i + b) := lt_of_le_of_ne (limOf_spec _).2.1 (Ne.symm hl')
  refine ⟨x', hx', ⟨limOf (centred y) / limOf (centred fun i => Q *ᵥ y i + b), div_pos hp hp', fun i => ?_⟩, fun h1 => ?_⟩
  · have ex : x i - cen = (scale / limOf (centred y)) • centred y i := by
      funext c
      rw [Pi.sub_apply, f, hcen, Pi.smul_apply, smul_eq_mul]
      ring
    rw [ex, Matrix.mulVec_smul]
    funext c
    rw [Pi.sub_apply, f', hcen, hcy]
    simp only [Pi.smul_apply, smul_eq_mul]
    rw [hcy] at hp'
    field_simp
    simp only [Matrix.mulVec, dotProduct]
    ring
  · subst h1
    have e : (centred fun i => (1 : Matrix (Fin dim) (Fin dim) ℝ) *ᵥ y i + b) = centred y := by
      rw [hcy]
      funext i
      rw [Matrix.one_mulVec]
    funext i c
    rw [f, f', e, hcen, hcen]

/-- **C138, flat starts stay flat**: a linear equation that all the given positions satisfy is satisfied by the layout; without fixed vertices, by the layout seen from its centre (with 0 on the right).
In particular points given on a line are drawn on a line. -/
theorem C138_flat {a : Fin dim → ℝ} {b : ℝ} {k : Option ℝ} {pos : Fin n → Fin dim → ℝ} (hp : ∀ i, ∑ c, a c * pos i c = b) {fixed : List (Fin n)} {iterations : ℕ} {scale : ℝ}
    {center : Option (Σ d, Fin d → ℝ)} {cen : Fin dim → ℝ} (hc : center = some ⟨dim, cen⟩ ∨ (center = none ∧ cen = 0)) {x : Fin n → Fin dim → ℝ}
    (hx : Drawn (setCoordinates S draw (.name "spring") { dim := dim, k := k, pos := some pos, fixed := fixed, iterations := iterations, scale := scale, center := center } s) x) (i : Fin n) :
    (fixed ≠ [] → ∑ c, a c * x i c = b) ∧ (fixed = [] → ∑ c, a c * (x i c - cen c) = 0) := by
  constructor
  · intro hf
    obtain ⟨e, -⟩ := fixed_drawn draw hf hx
    rw [e]
    exact springLoop_flat _ _ _ hp i
  · intro hf
    subst hf
    obtain ⟨h1, h2⟩ := free_drawn (S := S) (s := s) (dim := dim) draw (k := k) (pos := pos) (iterations := iterations) (scale := scale) (center := center)
    have hcen : ∀ c, centerOf (n := n) { dim := dim, k := k, pos := some pos, fixed := [], iterations := iterations, scale := scale, center := center } c = cen c := by
      intro c
      unfold centerOf
      rcases hc with h | ⟨h, h'⟩
      · rw [h]
        simp
      · rw [h, h']
    set y := springLoop s.g.getA.1 (k.getD (√(1 / n))) [] (1 / 10 / (iterations + 1)) iterations (1 / 10) pos with hy
    have hyf : ∀ i, ∑ c, a c * y i c = b := fun i => springLoop_flat _ _ _ hp i
    have hn : (n : ℝ) ≠ 0 := by exact_mod_cast i.pos.ne'
    have hcf : ∑ c, a c * centred y i c = 0 := by
      unfold centred
      simp only [mul_sub]
      rw [Finset.sum_sub_distrib, hyf]
      have : ∀ c, a c * ((∑ j, y j c) / n) = (∑ j, a c * y j c) / n := fun c => by rw [← Finset.mul_sum, mul_div_assoc]
      simp only [this]
      rw [← Finset.sum_div, Finset.sum_comm]
      simp only [hyf, Finset.sum_const, Finset.card_univ, Fintype.card_fin, nsmul_eq_mul]
      rw [mul_div_cancel_left₀ _ hn, sub_self]
    have : ∀ c, a c * (x i c - cen c) = (a c * centred y i c) * (scale / limOf (centred y)) := by
      intro c
      rw [h2 x hx i c, hcen]
      ring
    simp only [this]
    rw [← Finset.sum_mul, hcf, zero_mul]

end

/-- the hypotheses are met: a star with two leaves that start at the same place, the centre being fixed; the leaves stay together, on the line where everything started -/
example : ∃ (S : Solvers 3) (g : Graph 3 ℝ) (s : LState 3) (draw : (d : ℕ) → Fin 3 → Fin d → ℝ) (x : Fin 3 → Fin 2 → ℝ), Sound S ∧ g.Built ∧ s.g = runAll S [] (GState.ofGraph g) ∧
    Drawn (setCoordinates S draw (.name "spring") { dim := 2, k := some 1, pos := some ![![0, 0], ![1, 1], ![1, 1]], fixed := [0] } s) x ∧ x 1 = x 2 ∧ x 1 0 = x 1 1 := by
  obtain ⟨S, hS, -⟩ := exists_sound 3
  obtain ⟨g, hg, hW, -⟩ := Graph.exists_built (Matrix.of ![![0, 1, 1], ![1, 0, 0], ![1, 0, 0]] : Matrix (Fin 3) (Fin 3) ℝ)
  let s : LState 3 := ⟨GState.ofGraph g, .unset, none⟩
  let p : Spring 3 := { dim := 2, k := some 1, pos := some ![![0, 0], ![1, 1], ![1, 1]], fixed := [0] }
  obtain ⟨x, hx, -⟩ := C85_spring_fixed S (fun _ _ _ => 0) p (by simp [p]) (by norm_num [p]) (by simp [p]) (by simp [p]) s
  have hd : Drawn (setCoordinates S (fun _ _ _ => 0) (.name "spring") p s) x := by
    rw [hx]
    exact ⟨rfl, rfl⟩
  refine ⟨S, g, s, fun _ _ _ => 0, x, hS, hg, rfl, hd, ?_, ?_⟩
  · refine C138_twins (hist := []) hS hg rfl _ (a := 1) (b := 2) ?_ ?_ ?_ ?_ ?_ hd
    · intro j h1 h2
      rw [hW]
      fin_cases j
      · simp
      · exact absurd rfl h1
      · exact absurd rfl h2
    · rw [hW]; simp
    · rw [hW]; simp
    · rfl
    · simp
  · have h := (C138_flat (a := ![1, -1]) (b := 0) (fun _ _ _ => 0) (fun i => ?_) (.inr ⟨rfl, rfl⟩) hd 1).1 (by simp)
    · rw [Fin.sum_univ_two] at h
      simp at h
      linarith
    · fin_cases i <;> simp [Fin.sum_univ_two]

end PyGSP.Layout
