import Verif.Model.Layout
import Verif.Props.State
import Verif.Props.Fourier
import Verif.Lemmas.Single

/-!
# C85: `set_coordinates`
-/

namespace PyGSP.Layout

open Matrix Spec GState Classical

variable {n : ℕ}

theorem displacement_fixed {dim : ℕ} (A : Fin n → Fin n → Bool) (k : ℝ) {fixed : List (Fin n)} (pos : Fin n → Fin dim → ℝ) {i : Fin n}
    (h : i ∈ fixed) : displacement A k fixed pos i = 0 := if_pos h

theorem springStep_fixed {dim : ℕ} (A : Fin n → Fin n → Bool) (k : ℝ) {fixed : List (Fin n)} (t : ℝ) (pos : Fin n → Fin dim → ℝ) {i : Fin n}
    (h : i ∈ fixed) : springStep A k fixed t pos i = pos i := by
  funext c
  simp only [springStep, displacement_fixed A k pos h, Pi.zero_apply, zero_mul, zero_div, add_zero]

theorem springLoop_fixed {dim : ℕ} (A : Fin n → Fin n → Bool) (k : ℝ) {fixed : List (Fin n)} (dt : ℝ) {i : Fin n}
    (h : i ∈ fixed) (m : ℕ) (t : ℝ) (pos : Fin n → Fin dim → ℝ) : springLoop A k fixed dt m t pos i = pos i := by
  induction m generalizing t pos with
  | zero => rfl
  | succ m ih => rw [springLoop, ih, springStep_fixed A k t pos h]

/-- The Euclidean length of a vector. -/
noncomputable def norm2 {d : ℕ} (x : Fin d → ℝ) : ℝ := √(∑ c, x c ^ 2)

theorem norm2_eq {d : ℕ} (x : Fin d → ℝ) : norm2 x = ‖WithLp.toLp 2 x‖ := by
  rw [EuclideanSpace.norm_eq]
  simp [norm2]

theorem norm2_add {d : ℕ} (x y : Fin d → ℝ) : norm2 (x + y) ≤ norm2 x + norm2 y := by
  rw [norm2_eq, norm2_eq, norm2_eq, WithLp.toLp_add]
  exact norm_add_le _ _

theorem norm2_smul {d : ℕ} (a : ℝ) (x : Fin d → ℝ) : norm2 (a • x) = |a| * norm2 x := by
  rw [norm2_eq, norm2_eq, WithLp.toLp_smul, norm_smul, Real.norm_eq_abs]

theorem springStep_moves {dim : ℕ} (A : Fin n → Fin n → Bool) (k : ℝ) (fixed : List (Fin n)) {t : ℝ} (ht : 0 ≤ t) (pos : Fin n → Fin dim → ℝ)
    (i : Fin n) : norm2 (springStep A k fixed t pos i - pos i) ≤ t := by
  set d := displacement A k fixed pos i with hd
  have key : springStep A k fixed t pos i - pos i = (t / (if norm2 d < 1 / 100 then 1 / 10 else norm2 d)) • d := by
    funext c
    simp only [springStep, Pi.sub_apply, add_sub_cancel_left, Pi.smul_apply, smul_eq_mul, ← hd]
    rw [mul_div_assoc, mul_comm]
    rfl
  have h0 : 0 ≤ norm2 d := Real.sqrt_nonneg _
  rw [key, norm2_smul]
  split
  · rename_i h
    rw [abs_of_nonneg (by positivity)]
    have : norm2 d ≤ 1 / 10 := by linarith
    calc t / (1 / 10) * norm2 d ≤ t / (1 / 10) * (1 / 10) := by gcongr
      _ = t := by ring
  · rename_i h
    have hp : 0 < norm2 d := by linarith
    rw [abs_of_nonneg (by positivity), div_mul_cancel₀ _ hp.ne']

theorem springLoop_moves {dim : ℕ} (A : Fin n → Fin n → Bool) (k : ℝ) (fixed : List (Fin n)) {dt : ℝ} (hdt : 0 ≤ dt) (m : ℕ) {t : ℝ}
    (ht : (m - 1 : ℝ) * dt ≤ t) (pos : Fin n → Fin dim → ℝ) (i : Fin n) :
    norm2 (springLoop A k fixed dt m t pos i - pos i) ≤ m * t - m * (m - 1) / 2 * dt := by
  induction m generalizing t pos with
  | zero => simp [springLoop, norm2]
  | succ m ih =>
    push_cast at ht ⊢
    have h0 : 0 ≤ t := le_trans (by positivity) (by simpa using ht : (m : ℝ) * dt ≤ t)
    have h1 := springStep_moves A k fixed h0 pos i
    have h2 := ih (t := t - dt) (by linarith) (springStep A k fixed t pos)
    have h3 : springLoop A k fixed dt (m + 1) t pos i - pos i =
        (springLoop A k fixed dt m (t - dt) (springStep A k fixed t pos) i - springStep A k fixed t pos i) + (springStep A k fixed t pos i - pos i) := by
      rw [springLoop]
      abel
    rw [h3]
    refine (norm2_add _ _).trans ((add_le_add h2 h1).trans (le_of_eq ?_))
    ring

/-- the greatest of the given coordinates -/
theorem domSize_spec (hn : 0 < n) {p : Spring n} (hd : 0 < p.dim) {pos : Fin n → Fin p.dim → ℝ} (hp : p.pos = some pos) :
    IsGreatest {x | ∃ i c, pos i c = x} (domSize p) := by
  have hne : ((List.finRange n).flatMap fun i => (List.finRange p.dim).map fun c => pos i c) ≠ [] := by
    intro h
    have := List.flatMap_eq_nil_iff.1 h ⟨0, hn⟩ (List.mem_finRange _)
    rw [List.map_eq_nil_iff] at this
    have h0 : (⟨0, hd⟩ : Fin p.dim) ∈ List.finRange p.dim := List.mem_finRange _
    rw [this] at h0
    cases h0
  unfold domSize
  rw [hp]
  dsimp only
  cases hm : ((List.finRange n).flatMap fun i => (List.finRange p.dim).map fun c => pos i c).max? with
  | none => exact absurd (List.max?_eq_none_iff.1 hm) hne
  | some m =>
    obtain ⟨h1, h2⟩ := List.max?_eq_some_iff.1 hm
    simp only [List.mem_flatMap, List.mem_map, List.mem_finRange, true_and] at h1 h2
    refine ⟨h1, ?_⟩
    rintro x ⟨i, c, rfl⟩
    exact h2 _ ⟨i, c, rfl⟩

/-- when the value of `k` that the iterations use is not zero -/
theorem springK_ne (hn : 0 < n) {p : Spring n} (hd : 0 < p.dim) (hk : p.k ≠ some 0)
    (hp : p.k = none → p.fixed ≠ [] → ∀ pos, p.pos = some pos → ¬ IsGreatest {x | ∃ i c, pos i c = x} 0) : springK p ≠ 0 := by
  have hn' : (0 : ℝ) < n := by exact_mod_cast hn
  unfold springK
  split
  · rename_i h
    obtain ⟨h1, h2⟩ := h
    rw [Option.getD_some]
    refine div_ne_zero ?_ (Real.sqrt_pos.2 hn').ne'
    cases hpos : p.pos with
    | none => simp [domSize, hpos]
    | some pos =>
      intro h0
      have := domSize_spec hn hd hpos
      rw [h0] at this
      exact hp h1 (fun h => by rw [h] at h2; exact absurd h2 (lt_irrefl 0)) pos hpos this
  · cases hkk : p.k with
    | none => exact (Real.sqrt_pos.2 (by positivity)).ne'
    | some k =>
      rw [Option.getD_some]
      rintro rfl
      exact hk hkk

/-- **C85** In the spring layout, the vertices of `fixed` stay where they are, and no vertex moves farther than
`0.05 I (I + 3) / (I + 1)` in `I` iterations, whatever the graph and the parameter `k ≠ 0` (`k` may be None unless the greatest of the given coordinates is zero). -/
theorem C85_spring_fixed (S : Solvers n) (draw : (d : ℕ) → Fin n → Fin d → ℝ) (p : Spring n) (hf : p.fixed ≠ []) (hdim : 0 < p.dim) (hk : p.k ≠ some 0)
    (hp : p.k = none → ∀ pos, p.pos = some pos → ¬ IsGreatest {x | ∃ i c, pos i c = x} 0) (s : LState n) :
    ∃ x : Fin n → Fin p.dim → ℝ, setCoordinates S draw (.name "spring") p s =
        (.ok (), { s with g := s.g.getA.2, coords := .array (.of2 x) }) ∧
      (∀ i ∈ p.fixed, x i = (p.pos.getD (draw p.dim)) i) ∧
      ∀ i, √(∑ c, (x i c - (p.pos.getD (draw p.dim)) i c) ^ 2) ≤ 5 / 100 * p.iterations * (p.iterations + 3) / (p.iterations + 1) := by
  have hl : p.fixed.length ≠ 0 := fun h => hf (List.length_eq_zero_iff.1 h)
  have hn : 0 < n := (p.fixed.head hf).pos
  have h1 : ¬ (p.pos.isSome ∧ n * p.dim = 0) := fun h => (Nat.mul_pos hn hdim).ne' h.2
  have h2 : ¬ (springK p = 0 ∧ 0 < p.iterations) := fun h => springK_ne hn hdim hk (fun h _ => hp h) h.1
  simp only [setCoordinates, if_neg h1, spring, hn.ne', false_and, if_false, if_neg h2, if_neg hl]
  refine ⟨_, rfl, fun i hi => ?_, fun i => ?_⟩
  · exact springLoop_fixed _ _ _ hi _ _ _
  · have hI : (0 : ℝ) < p.iterations + 1 := by positivity
    have := springLoop_moves s.g.getA.1 (springK p)
      p.fixed (dt := 1 / 10 / (p.iterations + 1)) (by positivity) p.iterations (t := 1 / 10)
      (by rw [mul_div_assoc', div_le_iff₀ hI]; linarith) (p.pos.getD (draw p.dim)) i
    refine le_trans this (le_of_eq ?_)
    field_simp
    ring

/-- Violation: when the given coordinates are at most zero, and one is zero (a vertex at the origin, the others below and to the left), the vertices that are not fixed get the
coordinates NaN at the first iteration. -/
theorem C85_spring_zero_violated (S : Solvers n) (draw : (d : ℕ) → Fin n → Fin d → ℝ) (p : Spring n) (hf : p.fixed ≠ []) (hdim : 0 < p.dim) (hk : p.k = none)
    {pos : Fin n → Fin p.dim → ℝ} (hpos : p.pos = some pos) (hmax : IsGreatest {x | ∃ i c, pos i c = x} 0) (hI : 0 < p.iterations) (s : LState n) :
    ∃ rows : List ℕ, setCoordinates S draw (.name "spring") p s = (.ok (), { s with g := s.g.getA.2, coords := .partNan (.of2 pos) rows }) ∧
      ∀ i : Fin n, (i : ℕ) ∈ rows ↔ i ∉ p.fixed := by
  have hl : p.fixed.length ≠ 0 := fun h => hf (List.length_eq_zero_iff.1 h)
  have hn : 0 < n := (p.fixed.head hf).pos
  have h1 : ¬ (p.pos.isSome ∧ n * p.dim = 0) := fun h => (Nat.mul_pos hn hdim).ne' h.2
  have h0 : domSize p = 0 := (domSize_spec hn hdim hpos).unique hmax
  have h2 : springK p = 0 ∧ 0 < p.iterations := by
    refine ⟨?_, hI⟩
    unfold springK
    rw [if_pos ⟨hk, Nat.pos_of_ne_zero hl⟩, Option.getD_some, h0, zero_div]
  refine ⟨((List.finRange n).filter fun i => i ∉ p.fixed).map Fin.val, ?_, fun i => ?_⟩
  · simp only [setCoordinates, if_neg h1, spring, hn.ne', false_and, if_false, if_pos h2, if_neg hl]
    rw [hpos, Option.getD_some]
  · simp only [List.mem_map, List.mem_filter, List.mem_finRange, true_and, decide_eq_true_eq]
    constructor
    · rintro ⟨j, hj, e⟩
      rwa [← Fin.ext e]
    · exact fun h => ⟨i, h, rfl⟩

theorem foldr_max {l : List ℝ} : (∀ x ∈ l, x ≤ l.foldr max 0) ∧ 0 ≤ l.foldr max 0 ∧ (0 < l.foldr max 0 → l.foldr max 0 ∈ l) := by
  induction l with
  | nil => simp
  | cons a l ih =>
    obtain ⟨h1, h2, h3⟩ := ih
    simp only [List.foldr_cons]
    refine ⟨fun x hx => ?_, le_max_of_le_right h2, fun h => ?_⟩
    · rcases List.mem_cons.1 hx with rfl | hx
      · exact le_max_left _ _
      · exact (h1 x hx).trans (le_max_right _ _)
    · rcases le_total a (l.foldr max 0) with hc | hc
      · rw [max_eq_right hc] at h ⊢
        exact List.mem_cons_of_mem _ (h3 h)
      · rw [max_eq_left hc]
        exact List.mem_cons_self

theorem limOf_spec {dim : ℕ} (pos : Fin n → Fin dim → ℝ) :
    (∀ i c, pos i c ≤ limOf pos) ∧ 0 ≤ limOf pos ∧ (0 < limOf pos → ∃ i c, pos i c = limOf pos) := by
  obtain ⟨h1, h2, h3⟩ := foldr_max (l := (List.finRange n).flatMap fun i => (List.finRange dim).map fun c => pos i c)
  refine ⟨fun i c => h1 _ ?_, h2, fun h => ?_⟩
  · simp only [List.mem_flatMap, List.mem_map, List.mem_finRange, true_and]
    exact ⟨i, c, rfl⟩
  · have := h3 h
    simp only [List.mem_flatMap, List.mem_map, List.mem_finRange, true_and] at this
    exact this

theorem sum_centred (hn : 0 < n) {dim : ℕ} (pos : Fin n → Fin dim → ℝ) (c : Fin dim) : ∑ i, (pos i c - (∑ j, pos j c) / n) = 0 := by
  rw [Finset.sum_sub_distrib, Finset.sum_const, Finset.card_univ, Fintype.card_fin, nsmul_eq_mul,
    mul_div_cancel₀ _ (by exact_mod_cast hn.ne'), sub_self]

/-- the rescaling fails exactly when all the points coincide -/
theorem rescale_none (hn : 0 < n) {dim : ℕ} (pos : Fin n → Fin dim → ℝ) (scale : ℝ) : rescale pos scale = none ↔ ∀ i j, pos i = pos j := by
  simp only [rescale]
  set q : Fin n → Fin dim → ℝ := fun i c => pos i c - (∑ j, pos j c) / n with hq
  obtain ⟨h1, h2, -⟩ := limOf_spec q
  have h0 : limOf q = 0 ↔ ∀ i j, pos i = pos j := by
    constructor
    · intro h
      have hz : ∀ c i, q i c = 0 := by
        intro c
        have hs : ∑ i, -q i c = 0 := by rw [Finset.sum_neg_distrib, sum_centred hn pos c, neg_zero]
        have := (Finset.sum_eq_zero_iff_of_nonneg fun i _ => by have := h1 i c; linarith).1 hs
        intro i
        simpa using this i (Finset.mem_univ i)
      intro i j
      funext c
      have h3 := hz c i
      have h4 := hz c j
      simp only [hq] at h3 h4
      linarith
    · intro h
      have hz : ∀ i c, q i c = 0 := by
        intro i c
        simp only [hq]
        rw [Finset.sum_congr rfl fun j _ => by rw [h j i], Finset.sum_const, Finset.card_univ, Fintype.card_fin, nsmul_eq_mul,
          mul_div_cancel_left₀ _ (by exact_mod_cast hn.ne' : (n : ℝ) ≠ 0), sub_self]
      by_contra hne
      obtain ⟨i, c, hic⟩ := (limOf_spec q).2.2 (lt_of_le_of_ne h2 (Ne.symm hne))
      exact hne (by rw [← hic, hz])
  split
  · rename_i h
    exact ⟨fun _ => h0.1 h, fun _ => rfl⟩
  · rename_i h
    exact ⟨fun e => (by cases e), fun e => absurd (h0.2 e) h⟩

/-- **C85** In the spring layout without fixed vertices, the barycentre is `center`, and the greatest coordinate relative to it is exactly
`scale`; if all the points coincide all the coordinates are NaN, and also if `k` is zero. -/
theorem C85_spring_free (hn : 0 < n) (S : Solvers n) (draw : (d : ℕ) → Fin n → Fin d → ℝ) (p : Spring n) (hf : p.fixed = []) (hdim : 0 < p.dim)
    (hs : 0 ≤ p.scale) (hk : p.k ≠ some 0)
    (s : LState n) (center : Fin p.dim → ℝ) (hc : p.center = some ⟨p.dim, center⟩ ∨ (p.center = none ∧ center = 0)) :
    (setCoordinates S draw (.name "spring") p s).1 = .ok () ∧
    ((∃ x : Fin n → Fin p.dim → ℝ, (setCoordinates S draw (.name "spring") p s).2.coords = .array (.of2 x) ∧
        (∀ c, (∑ i, x i c) / n = center c) ∧ (∀ i c, x i c ≤ center c + p.scale) ∧ ∃ i c, x i c = center c + p.scale) ∨
      (setCoordinates S draw (.name "spring") p s).2.coords = .nan [n, p.dim]) := by
  have hl : p.fixed.length = 0 := by rw [hf]; rfl
  have hcent : centerOf p = center := by
    unfold centerOf
    rcases hc with h | ⟨h, rfl⟩
    · rw [h]
      simp
    · rw [h]
  have hn' : (n : ℝ) ≠ 0 := by exact_mod_cast hn.ne'
  have h1 : ¬ (p.pos.isSome ∧ n * p.dim = 0) := fun h => (Nat.mul_pos hn hdim).ne' h.2
  have h2 : ¬ (springK p = 0 ∧ 0 < p.iterations) := fun h => springK_ne hn hdim hk (fun _ h => absurd hf h) h.1
  simp only [setCoordinates, if_neg h1, spring, hn.ne', false_and, if_false, if_neg h2, if_pos hl, hcent]
  generalize sparseSpring _ _ _ _ _ = pos
  cases hr : rescale pos p.scale with
  | none => exact ⟨rfl, .inr rfl⟩
  | some q =>
    refine ⟨rfl, .inl ⟨_, rfl, ?_⟩⟩
    simp only [rescale] at hr
    split at hr
    · cases hr
    · rename_i hlim
      obtain ⟨h1, h2, h3⟩ := limOf_spec (fun i c => pos i c - (∑ j, pos j c) / n)
      set lim := limOf (fun i c => pos i c - (∑ j, pos j c) / n) with hlim'
      have hpos : 0 < lim := lt_of_le_of_ne h2 (Ne.symm hlim)
      obtain rfl := Option.some.inj hr
      refine ⟨fun c => ?_, fun i c => ?_, ?_⟩
      · rw [Finset.sum_add_distrib, ← Finset.sum_mul, sum_centred hn pos c, zero_mul, zero_add, Finset.sum_const, Finset.card_univ,
          Fintype.card_fin, nsmul_eq_mul, mul_div_cancel_left₀ _ hn']
      · have := h1 i c
        have h4 : (pos i c - (∑ j, pos j c) / n) * (p.scale / lim) ≤ lim * (p.scale / lim) := by gcongr
        rw [mul_div_cancel₀ _ hpos.ne'] at h4
        linarith
      · obtain ⟨i, c, hic⟩ := h3 hpos
        refine ⟨i, c, ?_⟩
        beta_reduce
        rw [hic, mul_div_cancel₀ _ hpos.ne', add_comm]

/-- Violation: the spring coordinates of a graph with one vertex are NaN. -/
theorem C85_spring_single_violated (S : Solvers 1) (draw : (d : ℕ) → Fin 1 → Fin d → ℝ) (p : Spring 1) (hf : p.fixed = []) (hdim : 0 < p.dim) (s : LState 1) :
    (setCoordinates S draw (.name "spring") p s).1 = .ok () ∧ (setCoordinates S draw (.name "spring") p s).2.coords = .nan [1, p.dim] := by
  have hl : p.fixed.length = 0 := by rw [hf]; rfl
  have : ∀ pos : Fin 1 → Fin p.dim → ℝ, rescale pos p.scale = none := fun pos =>
    (rescale_none one_pos pos p.scale).2 fun i j => by rw [Subsingleton.elim i j]
  have h1 : ¬ (p.pos.isSome ∧ 1 * p.dim = 0) := fun h => hdim.ne' (by omega)
  simp only [setCoordinates, if_neg h1, spring, one_ne_zero, false_and, if_false, if_pos hl, this]
  split_ifs <;> exact ⟨rfl, rfl⟩

/-- Violation: the coordinates are not rescaled to `(-scale, scale)`, contrary to the comment in the code: the points `(-2)`, `1`, `1` (with no
iteration) become `-2`, `1`, `1`. -/
theorem C85_spring_range_violated (S : Solvers 3) (draw : (d : ℕ) → Fin 3 → Fin d → ℝ) (s : LState 3) :
    ∃ p : Spring 3, p.scale = 1 ∧ ∃ x : Fin 3 → Fin p.dim → ℝ, (setCoordinates S draw (.name "spring") p s).2.coords = .array (.of2 x) ∧
      ∃ i c, x i c = -2 := by
  let pos : Fin 3 → Fin 1 → ℝ := fun i _ => if i = 0 then -2 else 1
  let p : Spring 3 := { dim := 1, pos := some pos, iterations := 0 }
  have hm : ∀ c : Fin 1, (∑ j, pos j c) / (3 : ℕ) = 0 := by
    intro c
    simp [pos, Fin.sum_univ_three]
    norm_num
  have hcp : (fun (i : Fin 3) (c : Fin 1) => pos i c - (∑ j, pos j c) / (3 : ℕ)) = pos := by
    funext i c
    rw [hm c, sub_zero]
  have hlim : limOf pos = 1 := by
    have hz : List.finRange 3 = [0, 1, 2] := by decide
    have ho : List.finRange 1 = [0] := by decide
    simp [limOf, hz, ho, pos]
    norm_num
  refine ⟨p, rfl, fun i c => pos i c * (1 / limOf pos) + 0, ?_, 0, 0, ?_⟩
  · have hloop : ∀ k : ℝ, sparseSpring s.g.getA.1 (some k) pos [] 0 = pos := fun _ => rfl
    have hr : rescale pos 1 = some fun i c => pos i c * (1 / limOf pos) := by
      simp only [rescale]
      rw [hcp, if_neg (by rw [hlim]; norm_num)]
      simp only [hm, sub_zero]
    simp only [setCoordinates, spring, p, List.length_nil, if_true, lt_irrefl, and_false, if_false, Option.getD_some, hloop, hr,
      Pi.zero_apply, Option.isSome_some, mul_one, OfNat.ofNat_ne_zero, false_and]
    rfl
  · rw [hlim]
    simp [pos]

/-! ## Arrays -/

/-- **C85** An array of shape `(N, 2)` or `(N, 3)` (with `N ≥ 2`) becomes the coordinates, as does one of shape `(N,)`. -/
theorem C85_array (hn : 2 ≤ n) (S : Solvers n) (draw : (d : ℕ) → Fin n → Fin d → ℝ) (p : Spring n) (s : LState n) :
    (∀ d, d = 2 ∨ d = 3 → ∀ x : Fin n → Fin d → ℝ,
      setCoordinates S draw (.array (.of2 x)) p s = (.ok (), { s with coords := .array (.of2 x) })) ∧
    (∀ x : Fin n → ℝ, setCoordinates S draw (.array (.of1 x)) p s = (.ok (), { s with coords := .array (.of1 x) })) ∧
    ∀ x : Fin n → ℝ, setCoordinates S draw (.array (.of2 fun i (_ : Fin 1) => x i)) p s = (.ok (), { s with coords := .array (.of1 x) }) := by
  have h1 : n ≠ 1 := by omega
  have hsq : ∀ d, d = 2 ∨ d = 3 → ∀ x : Fin n → Fin d → ℝ, (Arr.of2 x).squeeze = Arr.of2 x := by
    rintro d hd x
    have hd1 : d ≠ 1 := by omega
    refine Arr.ext ?_ ?_
    · simp [Arr.squeeze, Arr.of2, h1, hd1]
    · funext idx
      simp only [Arr.squeeze]
      show (Arr.of2 x).val (Arr.unsqueeze [n, d] idx) = _
      have hu : ∀ m : ℕ, m ≠ 1 → ∀ (l : List ℕ), Arr.unsqueeze (m :: l) [] = [] ∧ ∀ i idx, Arr.unsqueeze (m :: l) (i :: idx) = i :: Arr.unsqueeze l idx := by
        intro m hm l
        rcases m with _ | _ | m
        · exact ⟨rfl, fun _ _ => rfl⟩
        · exact absurd rfl hm
        · exact ⟨rfl, fun _ _ => rfl⟩
      rcases idx with _ | ⟨i, _ | ⟨j, idx⟩⟩
      · rw [(hu n h1 _).1]
      · rw [(hu n h1 _).2, (hu d hd1 _).1]
      · rw [(hu n h1 _).2, (hu d hd1 _).2]
        rfl
  have hsq1 : ∀ x : Fin n → ℝ, (Arr.of1 x).squeeze = Arr.of1 x := by
    intro x
    refine Arr.ext ?_ ?_
    · simp [Arr.squeeze, Arr.of1, h1]
    · funext idx
      simp only [Arr.squeeze]
      show (Arr.of1 x).val (Arr.unsqueeze [n] idx) = _
      rcases n with _ | _ | n
      · omega
      · omega
      · rcases idx with _ | ⟨i, idx⟩
        · rfl
        · rfl
  have hsq2 : ∀ x : Fin n → ℝ, (Arr.of2 fun i (_ : Fin 1) => x i).squeeze = Arr.of1 x := by
    intro x
    refine Arr.ext ?_ ?_
    · simp [Arr.squeeze, Arr.of1, Arr.of2, h1]
    · funext idx
      simp only [Arr.squeeze]
      show (Arr.of2 fun i (_ : Fin 1) => x i).val (Arr.unsqueeze [n, 1] idx) = _
      rcases n with _ | _ | n
      · omega
      · omega
      · rcases idx with _ | ⟨i, _ | ⟨j, idx⟩⟩
        · rfl
        · show (if h : i < n + 1 + 1 ∧ 0 < 1 then x ⟨i, h.1⟩ else 0) = if h : i < n + 1 + 1 then x ⟨i, h⟩ else 0
          by_cases h : i < n + 1 + 1
          · rw [dif_pos h, dif_pos ⟨h, one_pos⟩]
          · rw [dif_neg h, dif_neg fun h' => h h'.1]
        · rfl
  refine ⟨fun d hd x => ?_, fun x => ?_, fun x => ?_⟩
  · simp only [setCoordinates, hsq d hd x]
    show (if n ≠ n ∨ ¬ ([d] = [] ∨ ∃ w, [d] = [w] ∧ 2 ≤ w ∧ w ≤ 3) then _ else _) = _
    rw [if_neg]
    rintro (h | h)
    · exact h rfl
    · exact h (.inr ⟨d, rfl, by omega, by omega⟩)
  · simp only [setCoordinates, hsq1 x]
    show (if n ≠ n ∨ ¬ (([] : List ℕ) = [] ∨ ∃ w, [] = [w] ∧ 2 ≤ w ∧ w ≤ 3) then _ else _) = _
    rw [if_neg (by simp)]
  · simp only [setCoordinates, hsq2 x]
    show (if n ≠ n ∨ ¬ (([] : List ℕ) = [] ∨ ∃ w, [] = [w] ∧ 2 ≤ w ∧ w ≤ 3) then _ else _) = _
    rw [if_neg (by simp)]

/-- **C85** An array is accepted exactly when its shape, without the dimensions of size one, is `(N,)`, `(N, 2)` or `(N, 3)`.  Otherwise
ValueError is raised (IndexError if the array has one entry), and nothing changes. -/
theorem C85_array_iff (S : Solvers n) (draw : (d : ℕ) → Fin n → Fin d → ℝ) (p : Spring n) (s : LState n) (a : Arr) :
    ((setCoordinates S draw (.array a) p s).1 = .ok () ↔ a.shape.filter (· ≠ 1) ∈ [[n], [n, 2], [n, 3]]) ∧
    (¬ a.shape.filter (· ≠ 1) ∈ [[n], [n, 2], [n, 3]] →
      setCoordinates S draw (.array a) p s = (.error (if ∀ m ∈ a.shape, m = 1 then .indexError else .valueError), s)) := by
  have hall : (∀ m ∈ a.shape, m = 1) ↔ a.shape.filter (· ≠ 1) = [] := by
    rw [List.filter_eq_nil_iff]
    simp
  simp only [setCoordinates, Arr.squeeze]
  cases hsh : a.shape.filter (· ≠ 1) with
  | nil =>
    rw [if_pos (hall.2 hsh)]
    simp
  | cons m rest =>
    have hne : ¬ ∀ m ∈ a.shape, m = 1 := fun h => by
      rw [hall, hsh] at h
      cases h
    simp only
    have key : (m ≠ n ∨ ¬ (rest = [] ∨ ∃ w, rest = [w] ∧ 2 ≤ w ∧ w ≤ 3)) ↔ ¬ (m :: rest) ∈ [[n], [n, 2], [n, 3]] := by
      simp only [List.mem_cons, List.not_mem_nil, or_false, List.cons.injEq]
      constructor
      · rintro (h | h) (⟨e, h'⟩ | ⟨e, h'⟩ | ⟨e, h'⟩)
        · exact h e
        · exact h e
        · exact h e
        · exact h (.inl h')
        · exact h (.inr ⟨2, h', le_rfl, by norm_num⟩)
        · exact h (.inr ⟨3, h', by norm_num, le_rfl⟩)
      · intro h
        by_contra hc
        push Not at hc
        obtain ⟨rfl, h' | ⟨w, h', h2, h3⟩⟩ := hc
        · exact h (.inl ⟨rfl, h'⟩)
        · obtain rfl | rfl : w = 2 ∨ w = 3 := by omega
          · exact h (.inr (.inl ⟨rfl, h'⟩))
          · exact h (.inr (.inr ⟨rfl, h'⟩))
    by_cases hk : (m :: rest) ∈ [[n], [n, 2], [n, 3]]
    · rw [if_neg (fun h => key.1 h hk)]
      exact ⟨⟨fun _ => hk, fun _ => rfl⟩, fun h => absurd hk h⟩
    · rw [if_pos (key.2 hk), if_neg hne]
      exact ⟨⟨fun h => (by cases h), fun h => absurd h hk⟩, fun _ => rfl⟩

/-- Violation: the coordinates of a graph with one vertex cannot be set from an array. -/
theorem C85_single_vertex_violated (S : Solvers 1) (draw : (d : ℕ) → Fin 1 → Fin d → ℝ) (p : Spring 1) (s : LState 1) (a : Arr) :
    (setCoordinates S draw (.array a) p s).1 ≠ .ok () := by
  rw [Ne, (C85_array_iff S draw p s a).1]
  intro h
  have h1 : ∀ m ∈ a.shape.filter (· ≠ 1), m ≠ 1 := fun m hm => by simpa using (List.mem_filter.1 hm).2
  simp only [List.mem_cons, List.not_mem_nil, or_false] at h
  rcases h with h | h | h <;> rw [h] at h1 <;> exact h1 1 (by simp) rfl

/-- one iteration on two vertices, the first fixed -/
theorem spring_two {S : Solvers 2} (hS : Sound S) (draw : (d : ℕ) → Fin 2 → Fin d → ℝ) {g : Graph 2 ℝ} (hg : g.Built) (hist : List (Op 2)) {s : LState 2}
    (hs : s.g = runAll S hist (GState.ofGraph g)) {dim : ℕ} (ko : Option ℝ)
    (pos : Fin 2 → Fin dim → ℝ) (hd : 1 / 100 ≤ √(∑ c, (pos 1 c - pos 0 c) ^ 2)) {k : ℝ}
    (hk : k ≠ 0) (hK : springK (n := 2) { dim := dim, k := ko, pos := some pos, fixed := [0], iterations := 1 } = k) :
    ∃ (x : Fin 2 → Fin dim → ℝ) (l : ℝ),
      setCoordinates S draw (.name "spring") { dim := dim, k := ko, pos := some pos, fixed := [0], iterations := 1 } s =
        (.ok (), { s with g := s.g.getA.2, coords := .array (.of2 x) }) ∧ 0 < l ∧
      x 0 = pos 0 ∧ ∀ c, x 1 c - pos 1 c = (k * k / √(∑ c, (pos 1 c - pos 0 c) ^ 2) ^ 2 -
        (if 0 < g.W.dense 1 0 then 1 else 0) * √(∑ c, (pos 1 c - pos 0 c) ^ 2) / k) * (1 / 10) / l * (pos 1 c - pos 0 c) := by
  set δ := √(∑ c, (pos 1 c - pos 0 c) ^ 2) with hδ
  have hδ0 : 0 < δ := by linarith
  set A := s.g.getA.1 with hA
  have hA10 : A 1 0 = decide (0 < g.W.dense 1 0) := by
    rw [hA, (C18_structure hS hg hist hs).2.2.2.1]
    exact decide_eq_decide.2 Iff.rfl
  set f : ℝ := k * k / δ ^ 2 - (if 0 < g.W.dense 1 0 then 1 else 0) * δ / k with hf
  have hdisp : displacement A k [0] pos 1 = fun c => (pos 1 c - pos 0 c) * f := by
    unfold displacement
    rw [if_neg (by simp)]
    funext c
    rw [Fin.sum_univ_two, sub_self, zero_mul, add_zero]
    have : distance pos 1 0 = δ := by
      unfold distance
      exact if_neg (not_lt.2 hd)
    rw [this, hA10]
    simp only [decide_eq_true_eq, hf]
  let l0 : ℝ := √(∑ c, ((pos 1 c - pos 0 c) * f) ^ 2)
  let l : ℝ := if l0 < 1 / 100 then 1 / 10 else l0
  have hl : 0 < l := by
    show 0 < if l0 < 1 / 100 then (1 : ℝ) / 10 else l0
    split
    · norm_num
    · rename_i h; push Not at h; linarith
  let x := springStep A k [0] (1 / 10) pos
  have hx0 : x 0 = pos 0 := by
    funext c
    show pos 0 c + displacement A k [0] pos 0 c * (1 / 10) / _ = _
    unfold displacement
    rw [if_pos (by simp)]
    simp
  have hx1 : ∀ c, x 1 c - pos 1 c = f * (1 / 10) / l * (pos 1 c - pos 0 c) := fun c => by
    have : x 1 c = pos 1 c + (pos 1 c - pos 0 c) * f * (1 / 10) / l := by
      show pos 1 c + displacement A k [0] pos 1 c * (1 / 10) / (if √(∑ c, displacement A k [0] pos 1 c ^ 2) < 1 / 100 then 1 / 10 else √(∑ c, displacement A k [0] pos 1 c ^ 2)) = _
      rw [hdisp]
    rw [this]
    ring
  refine ⟨x, l, ?_, hl, hx0, hx1⟩
  have hsp : spring (n := 2) { dim := dim, k := ko, pos := some pos, fixed := [0], iterations := 1 } draw s.g.getA.1 = .ok (.array (.of2 x)) := by
    unfold spring
    simp only [hK, List.length_cons, List.length_nil, Option.getD_some, OfNat.ofNat_ne_zero, false_and, if_false, hk]
    rfl
  have hdim : dim ≠ 0 := by
    rintro rfl
    norm_num at hd
  simp only [setCoordinates, hsp, Option.isSome_some, true_and, mul_eq_zero, OfNat.ofNat_ne_zero, false_or, hdim, if_false]

/-- **C85** The forces of the spring layout, on two vertices of which the first is fixed: in one iteration the second moves along the line through both; away from the first
when they are not linked; when they are linked, towards it if they are farther apart than `k`, away from it if they are closer, and not at all at distance `k`. -/
theorem C85_spring_forces {S : Solvers 2} (hS : Sound S) (draw : (d : ℕ) → Fin 2 → Fin d → ℝ) {g : Graph 2 ℝ} (hg : g.Built) (hist : List (Op 2)) {s : LState 2}
    (hs : s.g = runAll S hist (GState.ofGraph g)) {dim : ℕ} {k : ℝ} (hk : 0 < k)
    (pos : Fin 2 → Fin dim → ℝ) (hd : 1 / 100 ≤ √(∑ c, (pos 1 c - pos 0 c) ^ 2)) :
    ∃ (x : Fin 2 → Fin dim → ℝ) (r : ℝ),
      setCoordinates S draw (.name "spring") { dim := dim, k := some k, pos := some pos, fixed := [0], iterations := 1 } s =
        (.ok (), { s with g := s.g.getA.2, coords := .array (.of2 x) }) ∧
      x 0 = pos 0 ∧ (∀ c, x 1 c - pos 1 c = r * (pos 1 c - pos 0 c)) ∧
      (g.W.dense 1 0 ≤ 0 → 0 < r) ∧
      (0 < g.W.dense 1 0 → (k < √(∑ c, (pos 1 c - pos 0 c) ^ 2) → r < 0) ∧ (√(∑ c, (pos 1 c - pos 0 c) ^ 2) < k → 0 < r) ∧
        (√(∑ c, (pos 1 c - pos 0 c) ^ 2) = k → r = 0)) := by
  obtain ⟨x, l, h1, hl, hx0, hx1⟩ := spring_two hS draw hg hist hs (some k) pos hd hk.ne' (by simp [springK])
  refine ⟨x, _, h1, hx0, hx1, ?_⟩
  set δ := √(∑ c, (pos 1 c - pos 0 c) ^ 2) with hδ
  have hδ0 : 0 < δ := by linarith
  refine ⟨fun h => ?_, fun h => ?_⟩
  · rw [if_neg (not_lt.2 h), zero_mul, zero_div, sub_zero]
    positivity
  · have hf : k * k / δ ^ 2 - 1 * δ / k = (k ^ 3 - δ ^ 3) / (δ ^ 2 * k) := by field_simp
    have hp : 0 < δ ^ 2 * k := by positivity
    rw [if_pos h, hf]
    refine ⟨fun h1 => ?_, fun h1 => ?_, fun h1 => ?_⟩
    · have : (k ^ 3 - δ ^ 3) / (δ ^ 2 * k) < 0 := div_neg_of_neg_of_pos (sub_neg.2 (pow_lt_pow_left₀ h1 hk.le (by norm_num))) hp
      exact div_neg_of_neg_of_pos (by linarith) hl
    · have : 0 < (k ^ 3 - δ ^ 3) / (δ ^ 2 * k) := div_pos (sub_pos.2 (pow_lt_pow_left₀ h1 hδ0.le (by norm_num))) hp
      positivity
    · rw [h1]
      simp

/-- Violation: when all the given coordinates are negative (and `k` is None), linked vertices repel each other at every distance. -/
theorem C85_spring_negative_violated {S : Solvers 2} (hS : Sound S) (draw : (d : ℕ) → Fin 2 → Fin d → ℝ) {g : Graph 2 ℝ} (hg : g.Built) (hist : List (Op 2))
    {s : LState 2} (hs : s.g = runAll S hist (GState.ofGraph g)) {dim : ℕ}
    (pos : Fin 2 → Fin dim → ℝ) (hd : 1 / 100 ≤ √(∑ c, (pos 1 c - pos 0 c) ^ 2)) (hneg : ∀ i c, pos i c < 0) :
    ∃ (x : Fin 2 → Fin dim → ℝ) (r : ℝ),
      setCoordinates S draw (.name "spring") { dim := dim, pos := some pos, fixed := [0], iterations := 1 } s =
        (.ok (), { s with g := s.g.getA.2, coords := .array (.of2 x) }) ∧
      x 0 = pos 0 ∧ (∀ c, x 1 c - pos 1 c = r * (pos 1 c - pos 0 c)) ∧ 0 < r := by
  let p : Spring 2 := { dim := dim, pos := some pos, fixed := [0], iterations := 1 }
  have hdim : 0 < dim := by
    rcases Nat.eq_zero_or_pos dim with rfl | h
    · norm_num at hd
    · exact h
  have hk : springK p < 0 := by
    obtain ⟨⟨i, c, h⟩, -⟩ := domSize_spec (p := p) two_pos hdim rfl
    have h0 : domSize p < 0 := by
      rw [← h]
      exact hneg i c
    have : springK p = domSize p / √(2 : ℕ) := rfl
    rw [this]
    exact div_neg_of_neg_of_pos h0 (Real.sqrt_pos.2 (by norm_num))
  obtain ⟨x, l, h1, hl, hx0, hx1⟩ := spring_two hS draw hg hist hs none pos hd hk.ne rfl
  refine ⟨x, _, h1, hx0, hx1, ?_⟩
  set δ := √(∑ c, (pos 1 c - pos 0 c) ^ 2) with hδ
  have hδ0 : 0 < δ := by linarith
  have h2 : 0 < springK p * springK p / δ ^ 2 := div_pos (mul_pos_of_neg_of_neg hk hk) (by positivity)
  have h3 : (if 0 < g.W.dense 1 0 then (1 : ℝ) else 0) * δ / springK p ≤ 0 := by
    refine div_nonpos_of_nonneg_of_nonpos ?_ hk.le
    split <;> nlinarith
  have : 0 < springK p * springK p / δ ^ 2 - (if 0 < g.W.dense 1 0 then (1 : ℝ) else 0) * δ / springK p := by linarith
  positivity

/-- Two points with negative coordinates, one apart. -/
example : ∃ pos : Fin 2 → Fin 2 → ℝ, (∀ i c, pos i c < 0) ∧ 1 / 100 ≤ √(∑ c, (pos 1 c - pos 0 c) ^ 2) := by
  refine ⟨![![-1, -1], ![-2, -1]], fun i c => by fin_cases i <;> fin_cases c <;> norm_num, ?_⟩
  have : ∑ c : Fin 2, ((![![-1, -1], ![-2, -1]] : Fin 2 → Fin 2 → ℝ) 1 c - (![![-1, -1], ![-2, -1]] : Fin 2 → Fin 2 → ℝ) 0 c) ^ 2 = 1 := by
    rw [Fin.sum_univ_two]
    norm_num
  rw [this, Real.sqrt_one]
  norm_num

/-! ## Named layouts -/

/-- **C85** The lines and the ring: vertex `i` is at `i`, at `(i, 0)`, and at angle `2πi/N` on the unit circle, where the vertices are distinct. -/
theorem C85_fixed_layouts (S : Solvers n) (draw : (d : ℕ) → Fin n → Fin d → ℝ) (p : Spring n) (s : LState n) :
    setCoordinates S draw (.name "line1D") p s = (.ok (), { s with coords := .array (.of1 fun i : Fin n => (i : ℝ)) }) ∧
    setCoordinates S draw (.name "line2D") p s = (.ok (), { s with coords := .array (.of2 fun i : Fin n => ![(i : ℝ), 0]) }) ∧
    ∃ x : Fin n → Fin 2 → ℝ, setCoordinates S draw (.name "ring2D") p s = (.ok (), { s with coords := .array (.of2 x) }) ∧
      (∀ i, x i 0 = Real.cos (2 * Real.pi * i / n) ∧ x i 1 = Real.sin (2 * Real.pi * i / n)) ∧ (∀ i, x i 0 ^ 2 + x i 1 ^ 2 = 1) ∧
      ∀ i j, x i = x j → i = j := by
  refine ⟨rfl, rfl, _, rfl, fun i => ?_, fun i => Real.cos_sq_add_sin_sq _, fun i j hij => ?_⟩
  · have : (i : ℝ) * 2 * Real.pi / n = 2 * Real.pi * i / n := by ring
    simp only [cons_val_zero, cons_val_one, this]
    exact ⟨trivial, trivial⟩
  · have hc : Real.cos (i * 2 * Real.pi / n) = Real.cos (j * 2 * Real.pi / n) := congrFun hij 0
    have hs : Real.sin (i * 2 * Real.pi / n) = Real.sin (j * 2 * Real.pi / n) := congrFun hij 1
    have hn : (0 : ℝ) < n := by exact_mod_cast i.pos
    have hang := Real.Angle.cos_sin_inj hc hs
    rw [Real.Angle.angle_eq_iff_two_pi_dvd_sub] at hang
    obtain ⟨k, hk⟩ := hang
    have hpi := Real.pi_pos
    have h1 : (i : ℝ) - j = n * k := by
      have h2 : ((i : ℝ) - j) * (2 * Real.pi / n) = k * (2 * Real.pi) := by
        rw [mul_comm (k : ℝ), ← hk]
        ring
      have h3 : ((i : ℝ) - j) * (2 * Real.pi) = (n * k) * (2 * Real.pi) := by
        rw [mul_div_assoc', div_eq_iff hn.ne'] at h2
        rw [h2]
        ring
      exact mul_right_cancel₀ (by positivity) h3
    have h2 : (i.1 : ℤ) - j.1 = n * k := by exact_mod_cast h1
    have hi := i.2
    have hj := j.2
    have : k = 0 := by
      by_contra hk0
      rcases lt_or_gt_of_ne hk0 with h | h
      · have : (n : ℤ) * k ≤ n * (-1) := by gcongr; omega
        omega
      · have : (n : ℤ) * 1 ≤ n * k := by gcongr; omega
        omega
    subst this
    exact Fin.ext (by omega)

/-- **C85** The random layouts: points in the unit square or cube, if the generator draws numbers in `[0, 1)`. -/
theorem C85_random (S : Solvers n) {draw : (d : ℕ) → Fin n → Fin d → ℝ} (hd : ∀ d i c, 0 ≤ draw d i c ∧ draw d i c < 1) (p : Spring n) (s : LState n)
    {name : String} {d : ℕ} (h : (name = "random2D" ∧ d = 2) ∨ (name = "random3D" ∧ d = 3)) :
    ∃ x : Fin n → Fin d → ℝ, setCoordinates S draw (.name name) p s = (.ok (), { s with coords := .array (.of2 x) }) ∧
      ∀ i c, 0 ≤ x i c ∧ x i c < 1 := by
  rcases h with ⟨rfl, rfl⟩ | ⟨rfl, rfl⟩
  · exact ⟨draw 2, rfl, hd 2⟩
  · exact ⟨draw 3, rfl, hd 3⟩

/-- **C85** An unknown layout raises ValueError, and nothing changes. -/
theorem C85_unknown (S : Solvers n) (draw : (d : ℕ) → Fin n → Fin d → ℝ) (p : Spring n) (s : LState n) {name : String}
    (h : name ∉ ["line1D", "line2D", "ring2D", "random2D", "random3D", "spring", "community2D", "laplacian_eigenmap2D", "laplacian_eigenmap3D"]) :
    setCoordinates S draw (.name name) p s = (.error .valueError, s) := by
  simp only [List.mem_cons, List.not_mem_nil, or_false, not_or] at h
  obtain ⟨h1, h2, h3, h4, h5, h6, h7, h8, h9⟩ := h
  unfold setCoordinates
  split <;> first | rfl | (simp_all; done) | skip
  all_goals (rename_i he; simp only [Kind.name.injEq] at he; exact absurd he ‹_›)

/-! ## Communities -/

theorem moveLoop_ok {info : Info n} {com : Fin n → ℕ} (hcom : info.nodeCom = some com) {sizes : List ℕ} {cc : List (ℝ × ℝ)}
    (h1 : ∀ i, com i < sizes.length) (h2 : ∀ i, com i < cc.length) (l : List (Fin n)) (hl : l.Nodup) (x : Fin n → Fin 2 → ℝ) :
    moveLoop info sizes cc l x = (.ok (), fun i => if i ∈ l then
      ![(cc[com i]'(h2 i)).1 + √(sizes[com i]'(h1 i)) * x i 0, (cc[com i]'(h2 i)).2 + √(sizes[com i]'(h1 i)) * x i 1] else x i) := by
  induction l generalizing x with
  | nil => simp [moveLoop]
  | cons a l ih =>
    have ha : a ∉ l := (List.nodup_cons.1 hl).1
    simp only [moveLoop, hcom, List.getElem?_eq_getElem (h1 a), List.getElem?_eq_getElem (h2 a)]
    rw [ih (List.nodup_cons.1 hl).2]
    refine congrArg (Prod.mk _) ?_
    funext i
    by_cases hia : i = a
    · subst hia
      rw [if_neg ha, if_pos (by simp)]
      simp
    · rw [Function.update_of_ne hia]
      by_cases hi : i ∈ l
      · rw [if_pos hi, if_pos (List.mem_cons_of_mem _ hi)]
      · rw [if_neg hi, if_neg (by simp [hia, hi])]

/-- **C85** The community layout: the centres of the `Nc` communities are equally spaced on a circle (of radius `world_rad`, or `√N` if it is not given), and
every vertex is in the disk around the centre of its community whose radius is the root of the size of the community. -/
theorem C85_community (S : Solvers n) {draw : (d : ℕ) → Fin n → Fin d → ℝ} (hd : ∀ d i c, 0 ≤ draw d i c ∧ draw d i c < 1) (p : Spring n) (s : LState n)
    {info : Info n} {com : Fin n → ℕ} {sizes : List ℕ} (hs : s.info = some info) (hcom : info.nodeCom = some com) (hsz : info.commSizes = some sizes)
    (hlt : ∀ i, com i < sizes.length) :
    ∃ x : Fin n → Fin 2 → ℝ, (setCoordinates S draw (.name "community2D") p s).1 = .ok () ∧
      (setCoordinates S draw (.name "community2D") p s).2.coords = .array (.of2 x) ∧
      (setCoordinates S draw (.name "community2D") p s).2.g = s.g ∧
      ∀ i, √((x i 0 - info.worldRad.getD (√n) * Real.cos (2 * Real.pi * (com i + 1) / sizes.length)) ^ 2 +
        (x i 1 - info.worldRad.getD (√n) * Real.sin (2 * Real.pi * (com i + 1) / sizes.length)) ^ 2) ≤ √(sizes[com i]'(hlt i)) := by
  simp only [setCoordinates, community2D, hs, hsz]
  rw [moveLoop_ok (com := com) (by exact hcom) hlt (by simpa [centres] using hlt) _ (List.nodup_finRange n)]
  refine ⟨_, rfl, rfl, trivial, fun i => ?_⟩
  simp only [List.mem_finRange, if_true, cons_val_zero, cons_val_one, centres, List.getElem_map, List.getElem_range, add_sub_cancel_left]
  set a := 2 * Real.pi * draw 2 i 1
  obtain ⟨h0, h1⟩ := hd 2 i 0
  have hz : (0 : ℝ) ≤ √(sizes[com i]'(hlt i)) := Real.sqrt_nonneg _
  have key : (√(sizes[com i]'(hlt i)) * (draw 2 i 0 * Real.cos a)) ^ 2 + (√(sizes[com i]'(hlt i)) * (draw 2 i 0 * Real.sin a)) ^ 2 =
      (√(sizes[com i]'(hlt i)) * draw 2 i 0) ^ 2 := by
    have := Real.cos_sq_add_sin_sq a
    calc _ = (√(sizes[com i]'(hlt i)) * draw 2 i 0) ^ 2 * (Real.cos a ^ 2 + Real.sin a ^ 2) := by ring
      _ = _ := by rw [this, mul_one]
  rw [key, Real.sqrt_sq (by positivity)]
  nlinarith

/-- Violation: what is missing in `info` is not reported as the ValueError that the code constructs.  Without `info`, AttributeError is raised (so the layout
fails on every graph but `Community`); without `comm_sizes`, NameError; without `node_com`, KeyError after the coordinates have been overwritten. -/
theorem C85_community_missing_violated (hn : 0 < n) (S : Solvers n) (draw : (d : ℕ) → Fin n → Fin d → ℝ) (p : Spring n) (s : LState n) :
    (s.info = none → setCoordinates S draw (.name "community2D") p s = (.error .attributeError, s)) ∧
    (∀ info, s.info = some info → info.commSizes = none → (setCoordinates S draw (.name "community2D") p s).1 = .error .nameError) ∧
    ∀ info sizes, s.info = some info → info.commSizes = some sizes → info.nodeCom = none →
      (setCoordinates S draw (.name "community2D") p s).1 = .error .keyError ∧
        ∃ x : Fin n → Fin 2 → ℝ, (setCoordinates S draw (.name "community2D") p s).2.coords = .array (.of2 x) := by
  refine ⟨fun h => ?_, fun info h h1 => ?_, fun info sizes h h1 h2 => ?_⟩
  · simp only [setCoordinates, community2D, h]
  · simp only [setCoordinates, community2D, h, h1]
  · simp only [setCoordinates, community2D, h, h1]
    have hne : List.finRange n ≠ [] := by
      intro e
      have := congrArg List.length e
      simp at this
      omega
    obtain ⟨a, l, hl⟩ := List.exists_cons_of_ne_nil hne
    rw [hl]
    simp only [moveLoop, h2]
    exact ⟨trivial, _, rfl⟩

/-! ## Eigenmaps -/

theorem of2_cast {w d : ℕ} (h : w = d) (f : Fin n → Fin w → ℝ) : Arr.of2 f = Arr.of2 fun i (j : Fin d) => f i (Fin.cast h.symm j) := by
  subst h
  rfl

section
variable {S : Solvers n} (hS : Sound S) {g : Graph n ℝ} (hg : g.Built) (ops : List (Op n)) {s : LState n}
  (hs : s.g = runAll S ops (GState.ofGraph g))

include hS hg hs

theorem eigenmap_basis {d : ℕ} (hn : d + 1 ≤ n) (hW : NonnegW g.W.dense) (hk : Known s.g.lapType)
    (hconv : ∀ t L, (S.eigshSM (d + 1) t L).isSome) :
    ∃ b g', (eigenmap S d s) = (.ok (), { s with g := g', coords := .array (.of2 fun (i : Fin n) (j : Fin (min (b.k - 1) d)) => b.U i ⟨j + 1, by omega⟩) }) ∧
      g'.basis = some b ∧ d + 1 ≤ b.k ∧ IsEigenPairs s.g.L b.e b.U ∧ Monotone b.e ∧ (∀ h : 0 < b.k, b.e ⟨0, h⟩ = 0) ∧
      (s.g.basis = none → b.k = d + 1) := by
  obtain ⟨hi, hWs, -⟩ := reach_inv hS hg ops
  rw [← hs] at hi hWs
  have hW' : NonnegW s.g.W.dense := by rw [hWs]; exact hW
  cases hc : s.g.hasBasis (d + 1) with
  | true =>
    have h1 : s.g.computeFourierBasis S (some (d + 1)) = (.ok (), s.g) := by
      unfold computeFourierBasis
      simp only [Option.getD_some, hc, if_true]
    unfold hasBasis at hc
    split at hc
    · rename_i b hb
      obtain ⟨e1, e2, e3, e4⟩ := (hi.basis b hb).exact (hi.psd hW') (hi.zero hW')
      refine ⟨b, s.g, ?_, hb, by simpa using hc, e1, e2, e4, fun h => ?_⟩
      · simp only [eigenmap, h1, getBasis_again hb]
      · rw [hb] at h
        cases h
    · cases hc
  | false =>
    obtain ⟨h1, b, h2, h3, h4, hbase, -⟩ := computeFourierBasis_ok hS hi hW' (by omega) hk (some (d + 1)) ⟨by simp, by simpa using hn⟩
      (.inr (by simpa using hconv)) (by simpa using hc)
    have hi' := computeFourierBasis_inv hS hi (some (d + 1))
    have hW'' : NonnegW (s.g.computeFourierBasis S (some (d + 1))).2.W.dense := by
      unfold GState.W
      rw [hbase]
      exact hW'
    obtain ⟨e1, e2, e3, e4⟩ := (hi'.basis b h2).exact (hi'.psd hW'') (hi'.zero hW'')
    rw [h4] at e1
    refine ⟨b, (s.g.computeFourierBasis S (some (d + 1))).2, ?_, h2, by rw [h3]; rfl, e1, e2, e4, fun _ => h3⟩
    have hpair : s.g.computeFourierBasis S (some (d + 1)) = (.ok (), (s.g.computeFourierBasis S (some (d + 1))).2) := by rw [← h1]
    simp only [eigenmap]
    rw [hpair]
    simp only [getBasis_again h2]

/-- **C85** The eigenmaps, after any history of calls: the columns of the coordinates are orthonormal eigenvectors of the Laplacian, for eigenvalues in ascending
order, orthogonal to a vector of its kernel; if the graph is connected (and its Laplacian combinatorial) the coordinates are centred. -/
theorem C85_eigenmap (draw : (d : ℕ) → Fin n → Fin d → ℝ) (p : Spring n) {name : String} {d : ℕ}
    (hname : (name = "laplacian_eigenmap2D" ∧ d = 2) ∨ (name = "laplacian_eigenmap3D" ∧ d = 3)) (hn : d + 1 ≤ n) (hW : NonnegW g.W.dense)
    (hk : Known s.g.lapType) (hconv : ∀ t L, (S.eigshSM (d + 1) t L).isSome) :
    ∃ (x : Fin n → Fin d → ℝ) (lam : Fin d → ℝ) (u : Fin n → ℝ), (setCoordinates S draw (.name name) p s).1 = .ok () ∧
      (setCoordinates S draw (.name name) p s).2.coords = .array (.of2 x) ∧
      (∀ j j', ∑ i, x i j * x i j' = if j = j' then 1 else 0) ∧ (∀ j, s.g.L *ᵥ (fun i => x i j) = lam j • fun i => x i j) ∧ Monotone lam ∧
      (∀ j, 0 ≤ lam j) ∧ (s.g.L *ᵥ u = 0 ∧ ∑ i, u i ^ 2 = 1 ∧ ∀ j, ∑ i, u i * x i j = 0) ∧
      (s.g.lapType = .combinatorial → (∀ i j, Relation.EqvGen (Arc g.W.dense) i j) → ∀ j, ∑ i, x i j = 0) := by
  obtain ⟨b, g', h1, h2, h3, h4, h5, h6, -⟩ := eigenmap_basis hS hg ops hs hn hW hk hconv
  have hset : setCoordinates S draw (.name name) p s = eigenmap S d s := by
    rcases hname with ⟨rfl, rfl⟩ | ⟨rfl, rfl⟩ <;> rfl
  have hw : min (b.k - 1) d = d := by omega
  have hb0 : 0 < b.k := by omega
  let col : Fin d → Fin b.k := fun j => ⟨j + 1, by omega⟩
  have horth : ∀ a c, ∑ i, b.U i a * b.U i c = if a = c then 1 else 0 := by
    intro a c
    have := congrFun (congrFun h4.orthonormal a) c
    rw [Matrix.mul_apply, Matrix.one_apply] at this
    exact this
  have heig : ∀ a, s.g.L *ᵥ (fun i => b.U i a) = b.e a • fun i => b.U i a := by
    intro a
    funext i
    have := congrFun (congrFun h4.eig i) a
    rw [Matrix.mul_diagonal, Matrix.mul_apply] at this
    simp only [Matrix.mulVec, dotProduct, Pi.smul_apply, smul_eq_mul]
    rw [this, mul_comm]
  have h00 : s.g.L *ᵥ (fun i => b.U i ⟨0, hb0⟩) = 0 := by
    rw [heig, h6 hb0, zero_smul]
  have hmono : Monotone fun j => b.e (col j) := fun i j hij => h5 (Fin.mk_le_mk.2 (Nat.add_le_add_right hij 1))
  have hz : ∀ j, ∑ i, b.U i ⟨0, hb0⟩ * b.U i (col j) = 0 := by
    intro j
    rw [horth, if_neg]
    intro e
    have := congrArg Fin.val e
    simp [col] at this
  refine ⟨fun i j => b.U i (col j), fun j => b.e (col j), fun i => b.U i ⟨0, hb0⟩, by rw [hset, h1], ?_, fun j j' => ?_, fun j => heig _, hmono, fun j => ?_,
    ⟨h00, ?_, hz⟩, fun hc hcon j => ?_⟩
  · rw [hset, h1]
    simp only
    rw [of2_cast hw]
    rfl
  · rw [horth]
    congr 1
    simp only [col, Fin.mk.injEq, add_left_inj, Fin.val_inj]
  · rw [← h6 hb0]
    exact h5 (Fin.mk_le_mk.2 (Nat.zero_le _))
  · have := horth ⟨0, hb0⟩ ⟨0, hb0⟩
    rw [if_pos rfl] at this
    rw [← this]
    exact Finset.sum_congr rfl fun i _ => sq _
  · obtain ⟨L, hL, hker⟩ := C27_kernel g.W hW
    have hLs : s.g.L = L := by
      rw [L_combinatorial hS hg ops hs hc]
      rw [laplacian_comb] at hL
      exact Except.ok.inj hL
    rw [hLs] at h00
    have hconst := (hker _).1 h00
    have hn0 : 0 < n := by omega
    set c := b.U ⟨0, hn0⟩ ⟨0, hb0⟩ with hcdef
    have hcc : ∀ i, b.U i ⟨0, hb0⟩ = c := fun i => hconst i ⟨0, hn0⟩ (hcon _ _)
    have hne : c ≠ 0 := by
      intro e
      have := horth ⟨0, hb0⟩ ⟨0, hb0⟩
      rw [if_pos rfl] at this
      simp only [hcc, e, mul_zero, Finset.sum_const_zero] at this
      exact zero_ne_one this
    have := hz j
    simp only [hcc] at this
    rw [← Finset.mul_sum] at this
    exact (mul_eq_zero.1 this).resolve_left hne

/-- Violation: the eigenmaps leave a partial Fourier basis behind.  On a graph whose basis has not been computed, with more vertices than eigenvectors are
needed, every inverse Fourier transform raises ValueError afterwards. -/
theorem C85_eigenmap_basis_violated (draw : (d : ℕ) → Fin n → Fin d → ℝ) (p : Spring n) {name : String} {d : ℕ}
    (hname : (name = "laplacian_eigenmap2D" ∧ d = 2) ∨ (name = "laplacian_eigenmap3D" ∧ d = 3)) (hn : d + 1 < n) (hW : NonnegW g.W.dense)
    (hk : Known s.g.lapType) (hconv : ∀ t L, (S.eigshSM (d + 1) t L).isSome) (hnone : s.g.basis = none) {R : Type} [AddCommGroup R] [Module ℝ R]
    (y : Rows R) : ((setCoordinates S draw (.name name) p s).2.g.igft S y).1 = .error .valueError := by
  obtain ⟨b, g', h1, h2, h3, -, -, -, h7⟩ := eigenmap_basis hS hg ops hs hn.le hW hk hconv
  have hset : setCoordinates S draw (.name name) p s = eigenmap S d s := by
    rcases hname with ⟨rfl, rfl⟩ | ⟨rfl, rfl⟩ <;> rfl
  rw [hset, h1]
  simp only
  have h8 := h7 hnone
  unfold igft checkSignal
  by_cases h : y.len = n
  · rw [dif_pos h]
    simp only
    rw [getBasis_again h2]
    simp only
    rw [dif_neg (by omega)]
  · rw [dif_neg h]

end

/-- Violation: on a graph with too few vertices the eigenmaps raise TypeError. -/
theorem C85_eigenmap_small_violated (S : Solvers n) (draw : (d : ℕ) → Fin n → Fin d → ℝ) (p : Spring n) {s : LState n} {name : String} {d : ℕ}
    (hname : (name = "laplacian_eigenmap2D" ∧ d = 2) ∨ (name = "laplacian_eigenmap3D" ∧ d = 3)) (hn : n < d + 1) (hb : s.g.basis = none) :
    (setCoordinates S draw (.name name) p s).1 = .error .typeError := by
  have hset : setCoordinates S draw (.name name) p s = eigenmap S d s := by
    rcases hname with ⟨rfl, rfl⟩ | ⟨rfl, rfl⟩ <;> rfl
  have h1 : (s.g.computeFourierBasis S (some (d + 1))) = (.error .typeError, { s.g with calls := s.g.calls + 1 }) := by
    unfold computeFourierBasis
    simp only [Option.getD_some, hasBasis, hb, decompose]
    rw [if_neg (by simp), if_neg (by omega : ¬ d + 1 = n), if_neg (by omega : ¬ d + 1 = 0), if_pos (by omega)]
  rw [hset]
  simp only [eigenmap, h1]

/-- A connected graph with four vertices, no basis yet, solvers that converge: the hypotheses of the eigenmap theorems hold. -/
example : ∃ (g : Graph 4 ℝ) (S : Solvers 4) (s : LState 4), g.Built ∧ Sound S ∧ s.g = runAll S [] (GState.ofGraph g) ∧ NonnegW g.W.dense ∧
    Known s.g.lapType ∧ (∀ t L, (S.eigshSM (2 + 1) t L).isSome) ∧ s.g.basis = none ∧ s.g.lapType = .combinatorial ∧
    ∀ i j, Relation.EqvGen (Arc g.W.dense) i j := by
  obtain ⟨g, hg, hd, hlt⟩ := Graph.exists_built (K := ℝ) (fun i j : Fin 4 => if i = j then 0 else 1)
  obtain ⟨S, hS, hc⟩ := exists_sound 4
  have h0 := GState.ofGraph_inv (S := S) g hg
  refine ⟨g, S, ⟨GState.ofGraph g, .unset, none⟩, hg, hS, rfl, ?_, ?_, ?_, h0.2.2.2.2.2, ?_, fun i j => ?_⟩
  · rw [hd]
    intro i j
    dsimp only
    split <;> norm_num
  · show Known (GState.ofGraph g).lapType
    rw [h0.2.2.1]
    exact hg.lapType_known
  · exact fun t L => hc.2 _ _ _
  · show (GState.ofGraph g).lapType = _
    rw [h0.2.2.1, hlt]
  · by_cases hij : i = j
    · subst hij
      exact .refl _
    · refine .rel _ _ ?_
      show g.W.dense i j ≠ 0
      rw [hd]
      simp [hij]

/-- A graph with two communities. -/
example : ∃ info : Info 5, ∃ com sizes, info.nodeCom = some com ∧ info.commSizes = some sizes ∧ ∀ i, com i < sizes.length :=
  ⟨⟨some ![0, 0, 0, 1, 1], some [3, 2], none, none⟩, _, _, rfl, rfl, by intro i; fin_cases i <;> simp⟩

/-- Parameters with a fixed vertex. -/
example : ∃ p : Spring 3, p.fixed ≠ [] ∧ 0 ≤ p.scale ∧ 0 < p.dim ∧ p.k = none ∧ p.pos = none := ⟨{ fixed := [1] }, by simp, zero_le_one, two_pos, rfl, rfl⟩

/-- Coordinates of which the greatest is zero. -/
example : ∃ pos : Fin 2 → Fin 2 → ℝ, IsGreatest {x | ∃ i c, pos i c = x} 0 :=
  ⟨fun i _ => if i = 0 then 0 else -1, ⟨0, 0, rfl⟩, by
    rintro x ⟨i, c, rfl⟩
    dsimp only
    split <;> norm_num⟩

end PyGSP.Layout
