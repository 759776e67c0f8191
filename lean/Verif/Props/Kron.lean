import Verif.Lemmas.Reduction
import Verif.Props.Utils

/-!
# C62: Kron reduction
-/

namespace PyGSP

open Matrix Spec GState Learning Reduction

variable {n k : ℕ}

/-- the graph constructor on a dense matrix -/
theorem Graph.ofCsr_ofDense {K : Type*} [Field K] [LinearOrder K] (M : Matrix (Fin n) (Fin n) K) {lt : LapType}
    (hlt : lt = .combinatorial ∨ lt = .normalized) :
    ∃ g : Graph n K, Graph.ofCsr (Sp.ofDense M) lt = .ok g ∧ g.Built ∧ g.W.dense = M ∧ g.lapType = lt := by
  obtain ⟨g, hg⟩ : ∃ g, Graph.ofCsr (Sp.ofDense M) lt = .ok g := by
    rcases hlt with rfl | rfl <;> exact ⟨_, rfl⟩
  let A : Sp n n (PyNum K) := ⟨(Sp.ofDense M).entries.map fun e => (e.1, e.2.1, .fin e.2.2)⟩
  have hA : A.toFin = Sp.ofDense M := by
    simp [A, Sp.toFin, List.map_map, Function.comp_def, PyNum.toFin]
  have hd : ∀ x ∈ A.data, x.IsFinite := by
    intro x hx
    simp only [A, Sp.data, List.map_map, List.mem_map, Function.comp] at hx
    obtain ⟨e, _, rfl⟩ := hx
    trivial
  obtain ⟨h1, -, h3, -⟩ := Graph.ofCsr_ok hg
  refine ⟨g, hg, ⟨.csr n n A, lt, ?_⟩, ?_, h3⟩
  · rw [Graph.init_eq]
    simp only [AdjInput.toCsr, dite_true]
    rw [if_pos hd, hA, hg]
    rfl
  · ext i j
    rw [h1, Sp.dense_eliminateZeros, Sp.dense_sumDuplicates, Sp.dense_ofDense]

/-- the weights of the reduced graph -/
noncomputable def kronWeights (K : Matrix (Fin k) (Fin k) ℝ) : Matrix (Fin k) (Fin k) ℝ :=
  Matrix.of fun a b => if a = b then 0 else - K a b

section Core

variable {M : Matrix (Fin n) (Fin n) ℝ} {ind : Fin k → Fin n} {K : Matrix (Fin k) (Fin k) ℝ}

theorem schur_rowsum (h : IsSchur (combLap M) ind K) (a : Fin k) : ∑ b, K a b = 0 := by
  have h1 : combLap M *ᵥ (fun _ => (1 : ℝ)) = 0 := by funext i; rw [combLap_mulVec]; simp
  have h2 := h.restrict (fun _ => 1) (fun u _ => by rw [h1]; rfl) a
  rw [h1] at h2
  simpa [Matrix.mulVec, dotProduct] using h2

theorem schur_offdiag (hM : NonnegW M) (ha : Anchored M (kept ind)) (h : IsSchur (combLap M) ind K)
    (hi : Function.Injective ind) {a b : Fin k} (hab : a ≠ b) : K a b ≤ 0 := by
  obtain ⟨v, hv, hv0⟩ := h.extend (Pi.single b 1)
  have h1 := h.restrict v hv0 a
  have e : (fun a => v (ind a)) = Pi.single b 1 := funext hv
  rw [e, Matrix.mulVec_single_one, combLap_mulVec] at h1
  have h2 : ∀ y, 0 ≤ v y := by
    intro y
    obtain ⟨c, hc, h3⟩ := min_principle hM (fun v => kept ind v = true) ha v
      (fun x hx => (hv0 x (by simpa using hx)).ge) y
    obtain ⟨d, rfl⟩ := (kept_iff ind c).1 hc
    rw [hv] at h3
    refine le_trans ?_ h3
    by_cases hd : d = b
    · subst hd; simp
    · simp [hd]
  have h3 : v (ind a) = 0 := by rw [hv]; simp [hab]
  have h4 : K.col b a = K a b := rfl
  rw [← h4, h1]
  refine Finset.sum_nonpos fun y _ => ?_
  rw [h3]
  have hw : 0 ≤ wsym M (ind a) y := by unfold wsym; have := hM (ind a) y; have := hM y (ind a); linarith
  have := mul_nonneg hw (h2 y)
  linarith

theorem kronWeights_symm (hK : Kᵀ = K) : Undirected (kronWeights K) := by
  intro a b
  have : K a b = K b a := by conv_lhs => rw [← hK, Matrix.transpose_apply]
  simp only [kronWeights, Matrix.of_apply, this, eq_comm]

/-- the reduced matrix is the Laplacian of the reduced weights -/
theorem combLap_kronWeights (hK : Kᵀ = K) (hr : ∀ a, ∑ b, K a b = 0) : combLap (kronWeights K) = K := by
  have hu := kronWeights_symm hK
  have hw : ∀ a b, wsym (kronWeights K) a b = kronWeights K a b := by
    intro a b; unfold wsym; rw [hu b a]; ring
  ext a b
  simp only [combLap, Matrix.of_apply]
  rw [hw]
  by_cases hab : a = b
  · subst hab
    rw [if_pos rfl, ← sum_wsym]
    simp only [hw]
    have h1 : ∑ j, kronWeights K a j = ∑ j, ((if j = a then K a a else 0) - K a j) := by
      refine Finset.sum_congr rfl fun j _ => ?_
      simp only [kronWeights, Matrix.of_apply]
      by_cases hj : a = j
      · subst hj; simp
      · rw [if_neg hj, if_neg (Ne.symm hj)]; ring
    rw [h1, Finset.sum_sub_distrib, hr]
    simp [kronWeights]
  · rw [if_neg hab]
    simp [kronWeights, hab]

/-- linked vertices stay linked and the other way round -/
theorem schur_linked (hM : NonnegW M) (h : IsSchur (combLap M) ind K) (hi : Function.Injective ind)
    {W : Matrix (Fin k) (Fin k) ℝ} (hW : NonnegW W) (hL : combLap W = K) (a b : Fin k) :
    Linked W a b ↔ Linked M (ind a) (ind b) := by
  classical
  have indicator : ∀ {n : ℕ} (M : Matrix (Fin n) (Fin n) ℝ) (i : Fin n),
      combLap M *ᵥ (fun y => if Linked M i y then (1 : ℝ) else 0) = 0 := by
    intro n M i
    funext x
    rw [combLap_mulVec]
    refine Finset.sum_eq_zero fun y _ => ?_
    by_cases hxy : M x y ≠ 0 ∨ M y x ≠ 0
    · have : Linked M i x ↔ Linked M i y := ⟨fun h => h.tail hxy, fun h => h.tail hxy.symm⟩
      simp [this]
    · push Not at hxy
      simp [wsym, hxy.1, hxy.2]
  constructor
  · intro hl
    by_contra hc
    have h1 := indicator M (ind a)
    have h2 : K *ᵥ (fun c => if Linked M (ind a) (ind c) then (1 : ℝ) else 0) = 0 := by
      funext c
      rw [h.restrict (fun y => if Linked M (ind a) y then (1 : ℝ) else 0) (fun u _ => by rw [h1]; rfl), h1]; rfl
    have h3 := quad_zero_linked (w := fun c => if Linked M (ind a) (ind c) then (1 : ℝ) else 0) hW
      (by unfold smoothness; rw [hL, h2, dotProduct_zero]) hl
    simp only [if_neg hc] at h3
    norm_num at h3
    exact h3 Relation.ReflTransGen.refl
  · intro hl
    by_contra hc
    have h1 := indicator W a
    rw [hL] at h1
    obtain ⟨v, hv, hv0⟩ := h.extend (fun c => if Linked W a c then (1 : ℝ) else 0)
    have e : (fun c => v (ind c)) = fun c => if Linked W a c then (1 : ℝ) else 0 := funext hv
    have h2 : combLap M *ᵥ v = 0 := by
      funext y
      by_cases hy : kept ind y = false
      · exact hv0 y hy
      · obtain ⟨c, rfl⟩ := (kept_iff ind y).1 (by simpa using hy)
        rw [← h.restrict v hv0, e, h1]; rfl
    have h3 := quad_zero_linked (w := v) hM (by unfold smoothness; rw [h2, dotProduct_zero]) hl
    rw [hv, hv] at h3
    simp only [if_pos (Relation.ReflTransGen.refl : Linked W a a), if_neg hc] at h3
    norm_num at h3
    exact h3 Relation.ReflTransGen.refl

/-- effective resistances are kept -/
theorem schur_resistance (h : IsSchur (combLap M) ind K) (hi : Function.Injective ind)
    {W : Matrix (Fin k) (Fin k) ℝ} (hL : combLap W = K) (a b : Fin k) (r : ℝ) :
    IsResistance W a b r ↔ IsResistance M (ind a) (ind b) r := by
  have law : ∀ {n : ℕ} (M : Matrix (Fin n) (Fin n) ℝ) (i j : Fin n) (v : Fin n → ℝ),
      (∀ x, ∑ y, wsym M x y * (v x - v y) = (if x = i then 1 else 0) - if x = j then 1 else 0) ↔
        ∀ x, (combLap M *ᵥ v) x = (if x = i then 1 else 0) - if x = j then 1 else 0 := by
    intro n M i j v
    simp only [combLap_mulVec]
  have down : ∀ v, (∀ x, (combLap M *ᵥ v) x = (if x = ind a then 1 else 0) - if x = ind b then 1 else 0) →
      ∀ c, (combLap W *ᵥ fun c => v (ind c)) c = (if c = a then 1 else 0) - if c = b then 1 else 0 := by
    intro v hv c
    rw [hL, h.restrict v, hv]
    · simp only [hi.eq_iff]
    · intro u hu
      rw [hv]
      have := (kept_false_iff ind u).1 hu
      rw [if_neg (Ne.symm (this a)), if_neg (Ne.symm (this b)), sub_zero]
  have up : ∀ x : Fin k → ℝ, (∀ c, (combLap W *ᵥ x) c = (if c = a then 1 else 0) - if c = b then 1 else 0) →
      ∃ v, (∀ c, v (ind c) = x c) ∧
        ∀ y, (combLap M *ᵥ v) y = (if y = ind a then 1 else 0) - if y = ind b then 1 else 0 := by
    intro x hx
    obtain ⟨v, hv, hv0⟩ := h.extend x
    refine ⟨v, hv, fun y => ?_⟩
    by_cases hy : kept ind y = false
    · have := (kept_false_iff ind y).1 hy
      rw [hv0 y hy, if_neg (Ne.symm (this a)), if_neg (Ne.symm (this b)), sub_zero]
    · obtain ⟨c, rfl⟩ := (kept_iff ind y).1 (by simpa using hy)
      rw [← h.restrict v hv0, ← hL, funext hv, hx]
      simp only [hi.eq_iff]
  unfold IsResistance
  simp only [law]
  constructor
  · rintro ⟨⟨x, hx⟩, hr⟩
    obtain ⟨v, hv, hv'⟩ := up x hx
    refine ⟨⟨v, hv'⟩, fun w hw => ?_⟩
    exact hr _ (down w hw)
  · rintro ⟨⟨v, hv⟩, hr⟩
    refine ⟨⟨_, down v hv⟩, fun x hx => ?_⟩
    obtain ⟨w, hw, hw'⟩ := up x hx
    have := hr w hw'
    rwa [hw, hw] at this

end Core

section History

variable {S : Solvers n} (hS : Sound S) {g : Graph n ℝ} (hg : g.Built) (hist : List (Op n)) {s : GState n}
  (hs : s = runAll S hist (GState.ofGraph g)) (hc : s.lapType = .combinatorial)
  (hu : Undirected g.W.dense) (hW : NonnegW g.W.dense) {ind : Fin k → Fin n} (hi : Function.Injective ind)
  (hk : 2 ≤ k) (he : ∃ v, ∀ a, ind a ≠ v) (ha : ∀ v, ∃ a, Linked g.W.dense v (ind a))

include hS hg hs hc hu hW hi hk he ha

/-- what the code computes -/
theorem kronGraph_core {R : Type} (c : Coords n R) (hcm : c ≠ .missing) :
    IsSchur (combLap g.W.dense) ind (schur (combLap g.W.dense) ind) ∧
    ∃ g' : Graph k ℝ, (∃ c', kronGraph s c ind = .ok (g', c') ∧
        ∀ f, c = .rows f → c' = .rows fun a => f (ind a)) ∧ g'.Built ∧ g'.lapType = .combinatorial ∧
      Undirected g'.W.dense ∧ NonnegW g'.W.dense ∧ (∀ a, g'.W.dense a a = 0) ∧
      combLap g'.W.dense = schur (combLap g.W.dense) ind := by
  have hanch : Anchored g.W.dense (kept ind) := fun v => by
    obtain ⟨a, h⟩ := ha v
    exact ⟨ind a, kept_ind ind a, h⟩
  have hdet := det_uu_ne_zero hW hanch
  have hsch := isSchur_schur hi hdet
  have hLs := combLap_isSymm g.W.dense
  have hsym := hsch.symm hi hLs
  have hrs := schur_rowsum hsch
  have hL := L_combinatorial hS hg hist hs hc
  have hkm : kronMatrix s.L ind = .ok (schur (combLap g.W.dense) ind) := by
    rw [hL]
    exact kronMatrix_ok hi hLs (by omega) (by obtain ⟨v, hv⟩ := he; exact ⟨v, (kept_false_iff ind v).2 hv⟩) hdet
  refine ⟨hsch, ?_⟩
  obtain ⟨K, hKdef⟩ : ∃ K, K = schur (combLap g.W.dense) ind := ⟨_, rfl⟩
  rw [← hKdef] at hsym hrs hkm ⊢
  -- the weights
  have hW0 : Matrix.diagonal (fun a => K a a) - K = kronWeights K := by
    ext a b
    by_cases hab : a = b
    · subst hab; simp [kronWeights]
    · simp [kronWeights, hab]
  have hcol : ∀ b, ∑ a, K a b = 0 := by
    intro b
    rw [← hrs b]
    exact Finset.sum_congr rfl fun a _ => by conv_lhs => rw [← hsym, Matrix.transpose_apply]
  have hS0 : ∀ b, K b b - ∑ a, kronWeights K a b = 0 := by
    intro b
    rw [← hW0]
    simp only [Matrix.sub_apply, Finset.sum_sub_distrib, hcol]
    simp [Matrix.diagonal_apply]
  obtain ⟨g', h1, h2, h3, h4⟩ := Graph.ofCsr_ofDense (kronWeights K) (.inl rfl : LapType.combinatorial = .combinatorial ∨ _)
  have hund := kronWeights_symm hsym
  refine ⟨g', ?_, h2, h4, by rw [h3]; exact hund, ?_, ?_, ?_⟩
  · have hdir : s.isDirected.1 = false := by
      obtain ⟨hinv, hWs, -⟩ := reach_inv hS hg hist
      rw [← hs] at hinv hWs
      rw [(isDirected_spec hinv.pure).1, hWs, isDirected_eq_false_iff]
      exact hu
    have hsp : ¬ (spacing1000 ≤ Real.sqrt (∑ _b : Fin k, (0 : ℝ) ^ 2)) := by
      simp only [ne_eq, OfNat.ofNat_ne_zero, not_false_eq_true, zero_pow, Finset.sum_const_zero, Real.sqrt_zero]
      unfold spacing1000
      norm_num
    have hW2 : (Matrix.of fun a b => kronWeights K a b - kronWeights K b b) = kronWeights K := by
      ext a b
      simp [kronWeights]
    unfold kronGraph
    rw [if_neg (not_not.2 hc), hdir]
    simp only [hkm, hW0, hS0, if_neg hsp, hW2, hc, h1]
    rw [if_neg (by simp), if_neg (by omega)]
    cases c with
    | missing => exact absurd rfl hcm
    | scalar => exact ⟨_, rfl, fun f hf => by cases hf⟩
    | rows f => exact ⟨_, rfl, fun f' hf => by cases hf; rfl⟩
  · intro a b
    rw [h3]
    by_cases hab : a = b
    · simp [kronWeights, hab]
    · have := schur_offdiag hW hanch (hKdef ▸ hsch) hi hab
      simp only [kronWeights, Matrix.of_apply, if_neg hab]
      linarith
  · intro a
    rw [h3]
    simp [kronWeights]
  · rw [h3, combLap_kronWeights hsym hrs]

/-- **Kron reduction**: for an undirected graph with non-negative weights, at any point of its history, keeping at least two
vertices and eliminating at least one, every vertex being linked to a kept one: the result is a new graph on the kept
vertices, in the given order, with their coordinates, undirected, with non-negative weights and no self-loop, and whose
energy is the smallest energy of the original graph among the signals that agree on the kept vertices. -/
theorem C62_kron_reduction {R : Type} (c : Fin n → R) :
    ∃ g' : Graph k ℝ, kronGraph s (.rows c) ind = .ok (g', .rows fun a => c (ind a)) ∧ g'.Built ∧
      g'.lapType = .combinatorial ∧ Undirected g'.W.dense ∧ NonnegW g'.W.dense ∧ (∀ a, g'.W.dense a a = 0) ∧
      ∀ x : Fin k → ℝ, (∃ v : Fin n → ℝ, (∀ a, v (ind a) = x a) ∧ dirichlet g.W.dense v = dirichlet g'.W.dense x) ∧
        ∀ v : Fin n → ℝ, (∀ a, v (ind a) = x a) → dirichlet g'.W.dense x ≤ dirichlet g.W.dense v := by
  obtain ⟨hsch, g', ⟨c', h1, h1'⟩, h2, h3, h4, h5, h6, h7⟩ := kronGraph_core hS hg hist hs hc hu hW hi hk he ha (.rows c) (by simp)
  rw [h1' c rfl] at h1
  refine ⟨g', h1, h2, h3, h4, h5, h6, fun x => ?_⟩
  have := hsch.energy hi (combLap_isSymm _) (combLap_psd hW) x
  rw [← h7] at this
  simpa only [smoothness, combLap_quad] using this

/-- **Effective resistances are preserved** between all kept vertices. -/
theorem C62_resistance {R : Type} (c : Coords n R) (hcm : c ≠ .missing) :
    ∃ (g' : Graph k ℝ) (c' : Coords k R), kronGraph s c ind = .ok (g', c') ∧
      ∀ a b r, IsResistance g'.W.dense a b r ↔ IsResistance g.W.dense (ind a) (ind b) r := by
  obtain ⟨hsch, g', ⟨c', h1, -⟩, -, -, -, -, -, h7⟩ := kronGraph_core hS hg hist hs hc hu hW hi hk he ha c hcm
  exact ⟨g', c', h1, schur_resistance hsch hi h7⟩

/-- **Connectivity is preserved**: two kept vertices are linked in the new graph exactly when they were linked. -/
theorem C62_connectivity {R : Type} (c : Coords n R) (hcm : c ≠ .missing) :
    ∃ (g' : Graph k ℝ) (c' : Coords k R), kronGraph s c ind = .ok (g', c') ∧
      ∀ a b, Linked g'.W.dense a b ↔ Linked g.W.dense (ind a) (ind b) := by
  obtain ⟨hsch, g', ⟨c', h1, -⟩, -, -, -, h5, -, h7⟩ := kronGraph_core hS hg hist hs hc hu hW hi hk he ha c hcm
  exact ⟨g', c', h1, schur_linked hW hsch hi h5 h7⟩

/-- **A new edge is a path through eliminated vertices**: an edge of the reduced graph joins two vertices that are linked in
the graph; an edge between two kept vertices never loses weight. -/
theorem C62_weights_grow {R : Type} (c : Coords n R) (hcm : c ≠ .missing) :
    ∃ (g' : Graph k ℝ) (c' : Coords k R), kronGraph s c ind = .ok (g', c') ∧
      ∀ a b, a ≠ b → g.W.dense (ind a) (ind b) ≤ g'.W.dense a b := by
  obtain ⟨hsch, g', ⟨c', h1, -⟩, -, -, h4, h5, -, h7⟩ := kronGraph_core hS hg hist hs hc hu hW hi hk he ha c hcm
  refine ⟨g', c', h1, fun a b hab => ?_⟩
  have hanch : Anchored g.W.dense (kept ind) := fun v => by
    obtain ⟨a, h⟩ := ha v
    exact ⟨ind a, kept_ind ind a, h⟩
  -- the current into `a` when `b` has potential one
  obtain ⟨v, hv, hv0⟩ := hsch.extend (Pi.single b 1)
  have h8 := hsch.restrict v hv0 a
  have e : (fun a => v (ind a)) = Pi.single b 1 := funext hv
  rw [e, ← h7, combLap_mulVec, combLap_mulVec] at h8
  have hnn : ∀ y, 0 ≤ v y := by
    intro y
    obtain ⟨d, hd, h3⟩ := min_principle hW (fun v => kept ind v = true) hanch v
      (fun x hx => (hv0 x (by simpa using hx)).ge) y
    obtain ⟨d, rfl⟩ := (kept_iff ind d).1 hd
    rw [hv] at h3
    refine le_trans ?_ h3
    by_cases hd : d = b
    · subst hd; simp
    · simp [hd]
  have ws : ∀ {m : ℕ} {M : Matrix (Fin m) (Fin m) ℝ}, Undirected M → ∀ i j, wsym M i j = M i j := by
    intro m M h i j; unfold wsym; rw [h j i]; ring
  simp only [ws hu, ws h4] at h8
  have hl : ∑ j, g'.W.dense a j * ((Pi.single b 1 : Fin k → ℝ) a - (Pi.single b 1 : Fin k → ℝ) j) = - g'.W.dense a b := by
    rw [Finset.sum_eq_single b]
    · simp [hab]
    · intro j _ hj; simp [hab, hj]
    · intro h; exact absurd (Finset.mem_univ b) h
  rw [hl] at h8
  have hva : v (ind a) = 0 := by rw [hv]; simp [hab]
  have hvb : v (ind b) = 1 := by rw [hv]; simp
  rw [hva] at h8
  have hr : ∑ j, g.W.dense (ind a) j * (0 - v j) ≤ - g.W.dense (ind a) (ind b) := by
    rw [← Finset.sum_erase_add _ _ (Finset.mem_univ (ind b)), hvb]
    have : ∑ x ∈ Finset.univ.erase (ind b), g.W.dense (ind a) x * (0 - v x) ≤ 0 :=
      Finset.sum_nonpos fun y _ => by have := mul_nonneg (hW (ind a) y) (hnn y); linarith
    linarith
  linarith

end History

section Errors

variable {R : Type} (s : GState n) (ind : Fin k → Fin n)

/-- **Refusals**: a Laplacian that is not combinatorial and a directed graph raise NotImplementedError; a graph without
`coords` attribute raises AttributeError even though coordinates are not needed for the reduction. -/
theorem C62_errors {S : Solvers n} (hS : Sound S) {g : Graph n ℝ} (hg : g.Built) (hist : List (Op n))
    (hs : s = runAll S hist (GState.ofGraph g)) (c : Coords n R) :
    (s.lapType ≠ .combinatorial → kronGraph s c ind = .error .notImplementedError) ∧
    (¬ Undirected g.W.dense → kronGraph s c ind = .error .notImplementedError) := by
  refine ⟨fun h => if_pos h, fun h => ?_⟩
  unfold kronGraph
  by_cases hl : s.lapType = .combinatorial
  · rw [if_neg (not_not.2 hl)]
    refine if_pos ?_
    obtain ⟨hinv, hWs, -⟩ := reach_inv hS hg hist
    rw [← hs] at hinv hWs
    rw [(isDirected_spec hinv.pure).1, hWs]
    by_contra hc
    exact h ((isDirected_eq_false_iff _).1 (by simpa using hc))
  · exact if_pos hl

end Errors

/-- Violation: without coordinates the reduction fails. -/
theorem C62_coords_violated {R : Type} (s : GState n) (ind : Fin k → Fin n) (g' : Graph k ℝ × Coords k R) :
    kronGraph s (.missing : Coords n R) ind ≠ .ok g' := by
  unfold kronGraph
  split
  · simp
  · split
    · simp
    · split
      · simp
      · split <;> simp

/-- **Reducing in two steps is reducing once.** -/
theorem C62_transitive {m : ℕ} {S : Solvers n} (hS : Sound S) {g : Graph n ℝ} (hg : g.Built) (hist : List (Op n)) {s : GState n}
    (hs : s = runAll S hist (GState.ofGraph g)) (hc : s.lapType = .combinatorial)
    (hu : Undirected g.W.dense) (hW : NonnegW g.W.dense) {R : Type} (c : Fin n → R)
    {ind : Fin k → Fin n} (hi : Function.Injective ind) (hk : 2 ≤ k) (he : ∃ v, ∀ a, ind a ≠ v)
    (ha : ∀ v, ∃ a, Linked g.W.dense v (ind a))
    {ind' : Fin m → Fin k} (hi' : Function.Injective ind') (hm : 2 ≤ m) (he' : ∃ v, ∀ a, ind' a ≠ v)
    (ha' : ∀ v, ∃ a, Linked g.W.dense v (ind (ind' a))) {S' : Solvers k} (hS' : Sound S') :
    ∃ (g1 : Graph k ℝ) (g2 g2' : Graph m ℝ), kronGraph s (.rows c) ind = .ok (g1, .rows fun a => c (ind a)) ∧
      kronGraph (GState.ofGraph g1) (.rows fun a => c (ind a)) ind' = .ok (g2, .rows fun a => c (ind (ind' a))) ∧
      kronGraph s (.rows c) (fun a => ind (ind' a)) = .ok (g2', .rows fun a => c (ind (ind' a))) ∧
      g2.W.dense = g2'.W.dense := by
  obtain ⟨hsch, g1, ⟨c1, h1, h1'⟩, b1, l1, u1, p1, z1, e1⟩ := kronGraph_core hS hg hist hs hc hu hW hi hk he ha (.rows c) (by simp)
  rw [h1' c rfl] at h1
  have hlink := schur_linked hW hsch hi p1 e1
  have hlt : (GState.ofGraph g1).lapType = .combinatorial := by rw [(ofGraph_inv (S := S') g1 b1).2.2.1, l1]
  obtain ⟨hsch2, g2, ⟨c2, h2, h2'⟩, -, -, u2, -, z2, e2⟩ := kronGraph_core (s := GState.ofGraph g1) hS' b1 [] rfl hlt u1 p1 hi' hm he'
    (fun v => by
      obtain ⟨a, h⟩ := ha' (ind v)
      exact ⟨a, (hlink v (ind' a)).2 h⟩) (.rows fun a => c (ind a)) (by simp)
  rw [h2' _ rfl] at h2
  have hi2 : Function.Injective fun a => ind (ind' a) := hi.comp hi'
  obtain ⟨hsch3, g3, ⟨c3, h3, h3'⟩, -, -, u3, -, z3, e3⟩ := kronGraph_core hS hg hist hs hc hu hW hi2 hm
    (by obtain ⟨v, hv⟩ := he'; exact ⟨ind v, fun a h => hv a (hi h)⟩) ha' (.rows c) (by simp)
  rw [h3' c rfl] at h3
  refine ⟨g1, g2, g3, h1, h2, h3, ?_⟩
  -- both are the Schur complement
  have hboth : IsSchur (combLap g.W.dense) (fun a => ind (ind' a)) (schur (combLap g1.W.dense) ind') := by
    rw [e1] at hsch2 ⊢
    refine ⟨fun v hv a => ?_, fun x => ?_⟩
    · have hv1 : ∀ u, kept ind u = false → (combLap g.W.dense *ᵥ v) u = 0 := fun u hu' =>
        hv u ((kept_false_iff _ u).2 fun a => (kept_false_iff ind u).1 hu' (ind' a))
      have hr := hsch.restrict v hv1
      have := hsch2.restrict (fun b => v (ind b)) (fun u hu' => by
        rw [hr, hv]
        exact (kept_false_iff _ _).2 fun a h => (kept_false_iff ind' u).1 hu' a (hi h)) a
      rw [this, hr]
    · obtain ⟨y, hy, hy0⟩ := hsch2.extend x
      obtain ⟨v, hv, hv0⟩ := hsch.extend y
      refine ⟨v, fun a => by rw [hv, hy], fun u hu' => ?_⟩
      by_cases hku : kept ind u = false
      · exact hv0 u hku
      · obtain ⟨b, rfl⟩ := (kept_iff ind u).1 (by simpa using hku)
        rw [← hsch.restrict v hv0, funext hv]
        exact hy0 b ((kept_false_iff _ _).2 fun a h => (kept_false_iff _ _).1 hu' a (by rw [h]))
  have hKK := hboth.unique hsch3
  have hcl : combLap g2.W.dense = combLap g3.W.dense := by rw [e2, e3, hKK]
  ext a b
  by_cases hab : a = b
  · subst hab; rw [z2, z3]
  · have h4 := congrFun (congrFun hcl a) b
    have w2 : wsym g2.W.dense a b = g2.W.dense a b := by unfold wsym; rw [u2 b a]; ring
    have w3 : wsym g3.W.dense a b = g3.W.dense a b := by unfold wsym; rw [u3 b a]; ring
    simp only [combLap, Matrix.of_apply, if_neg hab, w2, w3] at h4
    linarith

/-- All the hypotheses hold for a path of four vertices, keeping the two ends, or three vertices and then the ends. -/
example : ∃ (g : Graph 4 ℝ) (S : Solvers 4) (s : GState 4), g.Built ∧ Sound S ∧
    s = runAll S [.computeFourierBasis none] (GState.ofGraph g) ∧ s.lapType = .combinatorial ∧ Undirected g.W.dense ∧
    NonnegW g.W.dense ∧ Function.Injective (![0, 1, 3] : Fin 3 → Fin 4) ∧ (∃ v, ∀ a, (![0, 1, 3] : Fin 3 → Fin 4) a ≠ v) ∧
    (∀ v, ∃ a, Linked g.W.dense v ((![0, 1, 3] : Fin 3 → Fin 4) a)) ∧
    ∃ (g1 : Graph 3 ℝ) (g2 : Graph 2 ℝ) (c1 : Coords 3 Unit) (c2 : Coords 2 Unit),
      kronGraph s (.rows fun _ => ()) ![0, 1, 3] = .ok (g1, c1) ∧
      kronGraph (GState.ofGraph g1) c1 ![0, 2] = .ok (g2, c2) ∧ Linked g2.W.dense 0 1 := by
  obtain ⟨g, hg, hd, S, hS, s, hs, -, -, l, ⟨-, hc, -, -⟩, -⟩ :=
    exists_setup path4 path4_nonneg (i := 0) (j := 1) (by decide) (by simp [path4])
  have hW : NonnegW g.W.dense := by rw [hd]; exact path4_nonneg
  have hu : Undirected g.W.dense := by
    rw [hd]; intro i j; fin_cases i <;> fin_cases j <;> simp [path4]
  have hcon : ∀ v w, Linked g.W.dense v w := by rw [hd]; exact path4_connected
  have hi : Function.Injective (![0, 1, 3] : Fin 3 → Fin 4) := by decide
  have he : ∃ v, ∀ a, (![0, 1, 3] : Fin 3 → Fin 4) a ≠ v := ⟨2, by decide⟩
  have ha : ∀ v, ∃ a, Linked g.W.dense v ((![0, 1, 3] : Fin 3 → Fin 4) a) := fun v => ⟨0, hcon _ _⟩
  obtain ⟨S', hS', -⟩ := exists_sound 3
  obtain ⟨g1, g2, g2', h1, h2, h3, h4⟩ := C62_transitive hS hg _ hs hc hu hW (fun _ => ()) hi (by norm_num) he ha
    (ind' := ![0, 2]) (by decide) (by norm_num) ⟨1, by decide⟩ (fun v => ⟨0, hcon _ _⟩) hS'
  refine ⟨g, S, s, hg, hS, hs, hc, hu, hW, hi, he, ha, g1, g2, _, _, h1, h2, ?_⟩
  obtain ⟨g3, c3, h5, h6⟩ := C62_connectivity hS hg _ hs hc hu hW (ind := fun a => (![0, 1, 3] : Fin 3 → Fin 4) (![0, 2] a))
    (by decide) (by norm_num) ⟨1, by decide⟩ (fun v => ⟨0, hcon _ _⟩) (.rows fun _ => ()) (by simp)
  rw [h3] at h5
  cases h5
  rw [h4]
  exact (h6 0 1).2 (hcon _ _)

end PyGSP
