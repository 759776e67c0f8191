import Verif.Model.Drawings
import Verif.Props.PointClouds
import Verif.Lemmas.Community

/-!
# C106: the graphs made from data files

The arrays of the file are arbitrary.
-/

namespace PyGSP.Gen

open Matrix Spec

variable {n : ℕ}

/-- The connection which the constructor of Minnesota adds. -/
def Bridge (i j : Fin n) : Prop := (i.val = 348 ∧ j.val = 354) ∨ (i.val = 354 ∧ j.val = 348)

open Classical in
/-- Minnesota: the weight is one where the matrix of the file is positive and between the vertices 348 and 354, and zero elsewhere. -/
theorem C106_minnesota (A : Matrix (Fin n) (Fin n) ℝ) (hn : 354 < n) {lt : LapType} (hlt : lt = .combinatorial ∨ lt = .normalized) :
    ∃ g, minnesota A true lt = .ok g ∧ g.Built ∧ g.lapType = lt ∧
      (∀ i j, g.W.dense i j = if 0 < A i j ∨ Bridge i j then 1 else 0) ∧
      (Undirected A → Undirected g.W.dense) ∧
      (Undirected A → NonnegW A → (∀ v : Fin n, Reach A v ⟨348, by omega⟩ ∨ Reach A v ⟨354, by omega⟩) → StronglyConnected g.W.dense) := by
  obtain ⟨g, h1, h2, h3, h4⟩ := Graph.ofCsr_ofDense (Matrix.of fun i j : Fin n => if 0 < A i j ∨ Bridge i j then (1 : ℝ) else 0) hlt
  have hW : ∀ i j, g.W.dense i j = if 0 < A i j ∨ Bridge i j then 1 else 0 := fun i j => by rw [h3]; rfl
  have hu : Undirected A → Undirected g.W.dense := fun hA i j => by
    rw [hW, hW, hA i j]
    refine if_congr ?_ rfl rfl
    unfold Bridge
    tauto
  refine ⟨g, ?_, h2, h4, hW, hu, fun hA hn0 hr => ?_⟩
  · unfold minnesota
    rw [if_pos rfl, if_neg (by omega)]
    dsimp only
    refine Eq.trans ?_ h1
    congr 2
    ext i j
    simp only [Matrix.of_apply]
    refine if_congr ?_ rfl rfl
    unfold Bridge
    constructor
    · intro h
      split_ifs at h with h1 h2 <;> tauto
    · intro h
      split_ifs with h1 h2
      · norm_num
      · norm_num
      · tauto
  · have hlift : ∀ {i j}, Reach A i j → Reach g.W.dense i j := fun {i j} h =>
      Relation.ReflTransGen.mono (fun a b (hab : A a b ≠ 0) => by
        show g.W.dense a b ≠ 0
        rw [hW, if_pos (.inl (lt_of_le_of_ne (hn0 a b) hab.symm))]
        norm_num) i j h
    have hb : Reach g.W.dense ⟨354, by omega⟩ ⟨348, by omega⟩ := Relation.ReflTransGen.single (by
      show g.W.dense _ _ ≠ 0
      rw [hW, if_pos (.inr (.inr ⟨rfl, rfl⟩))]
      norm_num)
    have key : ∀ v : Fin n, Reach g.W.dense v ⟨348, by omega⟩ := fun v => (hr v).elim hlift fun h => (hlift h).trans hb
    exact fun i j => (key i).trans (reach_symm (hu hA) (key j))

/-- Without the correction the weights are those of the file; a matrix which does not have the vertices 348 and 354 cannot be corrected. -/
theorem C106_minnesota_raw (A : Matrix (Fin n) (Fin n) ℝ) (lt : LapType) :
    ((lt = .combinatorial ∨ lt = .normalized) → ∃ g, minnesota A false lt = .ok g ∧ g.Built ∧ g.lapType = lt ∧ g.W.dense = A) ∧
      (n ≤ 354 → minnesota A true lt = .error .indexError) := by
  refine ⟨fun hlt => ?_, fun h => ?_⟩
  · obtain ⟨g, h1, h2, h3, h4⟩ := Graph.ofCsr_ofDense A hlt
    exact ⟨g, h1, h2, h4, h3⟩
  · unfold minnesota
    rw [if_pos rfl, if_pos h]

/-- Airfoil: the graph is undirected and the weight between two vertices is half the number of times the pair is listed, in either order;
in particular it is one half wherever the pair is listed once. -/
theorem C106_airfoil {inds : List (ℕ × ℕ)} (hin : ∀ e ∈ inds, 1 ≤ e.1 ∧ e.1 ≤ n ∧ 1 ≤ e.2 ∧ e.2 ≤ n) {lt : LapType}
    (hlt : lt = .combinatorial ∨ lt = .normalized) :
    ∃ g, airfoil n inds lt = .ok g ∧ g.Built ∧ g.lapType = lt ∧ Undirected g.W.dense ∧
      (∀ i j, g.W.dense i j = ((inds.count (i.val + 1, j.val + 1) : ℝ) + inds.count (j.val + 1, i.val + 1)) / 2) ∧
      (∀ i j, g.W.dense i j ≠ 0 ↔ (i.val + 1, j.val + 1) ∈ inds ∨ (j.val + 1, i.val + 1) ∈ inds) ∧
      (inds.Nodup → (∀ e ∈ inds, e.swap ∉ inds) → (∀ i j, g.W.dense i j = 0 ∨ g.W.dense i j = 1 / 2) ∧ ∀ i, g.W.dense i i = 0) := by
  have hz : ∀ e ∈ inds, ¬ (e.1 = 0 ∨ e.2 = 0) := fun e he => by have := hin e he; omega
  have hm : ∀ l : List (ℕ × ℕ), ones (l.map fun e => e.1 - 1) (l.map fun e => e.2 - 1) =
      ones ((l.map fun e => (e.1 - 1, e.2 - 1)).map (·.1)) ((l.map fun e => (e.1 - 1, e.2 - 1)).map (·.2)) := by
    intro l
    rw [List.map_map, List.map_map]
    rfl
  obtain ⟨A, hA, -, hd⟩ := coo_ok (N := n) (l := ones (inds.map fun e => e.1 - 1) (inds.map fun e => e.2 - 1)) (by
    intro e he
    have := mem_ones he
    simp only [List.mem_map] at this
    obtain ⟨⟨a, ha, ha'⟩, ⟨b, hb, hb'⟩⟩ := this
    have := hin a ha
    have := hin b hb
    omega)
  have hcount : ∀ l : List (ℕ × ℕ), (∀ e ∈ l, 1 ≤ e.1 ∧ 1 ≤ e.2) → ∀ i j : ℕ,
      (l.map fun e => (e.1 - 1, e.2 - 1)).count (i, j) = l.count (i + 1, j + 1) := by
    intro l
    induction l with
    | nil => simp
    | cons e l ih =>
      intro h i j
      rw [List.map_cons, List.count_cons, List.count_cons, ih (fun e he => h e (List.mem_cons_of_mem _ he))]
      congr 1
      have := h e List.mem_cons_self
      have hiff : (e.1 - 1, e.2 - 1) = (i, j) ↔ e = (i + 1, j + 1) := by
        rw [Prod.ext_iff, Prod.ext_iff]
        dsimp only
        omega
      simp only [beq_iff_eq, hiff]
  have hAc : ∀ i j : Fin n, A.dense i j = inds.count (i.val + 1, j.val + 1) := fun i j => by
    rw [hd, hm, weightAt_ones_zip, hcount _ fun e he => ⟨(hin e he).1, (hin e he).2.2.1⟩]
  obtain ⟨g, h1, h2, h3, h4⟩ := Graph.ofCsr_ofDense (Matrix.of fun i j => (A.dense i j + A.dense j i) / 2) hlt
  have hW : ∀ i j : Fin n, g.W.dense i j = ((inds.count (i.val + 1, j.val + 1) : ℝ) + inds.count (j.val + 1, i.val + 1)) / 2 := fun i j => by
    rw [h3, Matrix.of_apply, hAc, hAc]
  refine ⟨g, ?_, h2, h4, fun i j => by rw [hW, hW, add_comm], hW, fun i j => ?_, fun hnd hsw => ?_⟩
  · unfold airfoil
    rw [if_neg (by push Not; exact fun e he => by have := hz e he; tauto), hA]
    exact h1
  · rw [hW, ← List.count_pos_iff, ← List.count_pos_iff]
    have : (((inds.count (i.val + 1, j.val + 1) : ℝ) + inds.count (j.val + 1, i.val + 1)) / 2 ≠ 0) ↔
        inds.count (i.val + 1, j.val + 1) + inds.count (j.val + 1, i.val + 1) ≠ 0 := by
      rw [not_iff_not, div_eq_zero_iff]
      norm_cast
      simp
    rw [this]
    omega
  · have hc : ∀ i j : ℕ, inds.count (i, j) + inds.count (j, i) ≤ 1 := by
      intro i j
      have a1 := List.nodup_iff_count_le_one.1 hnd (i, j)
      have a2 := List.nodup_iff_count_le_one.1 hnd (j, i)
      by_cases hm : (i, j) ∈ inds
      · have : inds.count (j, i) = 0 := List.count_eq_zero.2 (hsw _ hm)
        omega
      · have : inds.count (i, j) = 0 := List.count_eq_zero.2 hm
        omega
    refine ⟨fun i j => ?_, fun i => ?_⟩
    · rw [hW]
      have := hc (i.val + 1) (j.val + 1)
      rcases Nat.le_one_iff_eq_zero_or_eq_one.1 this with e | e
      · left
        have : ((inds.count (i.val + 1, j.val + 1) : ℝ) + inds.count (j.val + 1, i.val + 1)) = 0 := by exact_mod_cast e
        rw [this, zero_div]
      · right
        have : ((inds.count (i.val + 1, j.val + 1) : ℝ) + inds.count (j.val + 1, i.val + 1)) = 1 := by exact_mod_cast e
        rw [this]
    · rw [hW]
      have := hc (i.val + 1) (i.val + 1)
      have : inds.count (i.val + 1, i.val + 1) = 0 := by omega
      rw [this]
      norm_num

/-- An index outside of the file's numbering is refused. -/
theorem C106_airfoil_errors {inds : List (ℕ × ℕ)} (lt : LapType) (h : ∃ e ∈ inds, e.1 = 0 ∨ e.2 = 0 ∨ n < e.1 ∨ n < e.2) :
    airfoil n inds lt = .error .valueError := by
  unfold airfoil
  split
  · rfl
  · rename_i h0
    push Not at h0
    obtain ⟨e, he, hb⟩ := h
    have := h0 e he
    have hc : coo n (ones (inds.map fun e => e.1 - 1) (inds.map fun e => e.2 - 1)) = .error .valueError := by
      refine dif_neg fun hall => ?_
      have hmem : (e.1 - 1, e.2 - 1, (1 : ℝ)) ∈ ones (inds.map fun e => e.1 - 1) (inds.map fun e => e.2 - 1) := by
        unfold ones
        rw [List.zip_map']
        exact List.mem_map.2 ⟨_, List.mem_map.2 ⟨e, he, rfl⟩, rfl⟩
      have := hall _ hmem
      dsimp only at this
      omega
    rw [hc]

/-- Bunny: the points are those of the file, and two points are connected exactly when they are at a distance of at most 0.02; the closer,
the larger the weight. -/
theorem C106_bunny {N : ℕ} {X : Fin N → Fin 3 → ℝ} {nn : Fin N → List (Fin N)} {lt : LapType} {g : Graph N ℝ} {Y : Fin N → Fin 3 → ℝ}
    (h : bunny X nn lt = .ok (g, Y)) :
    Y = X ∧ g.Built ∧ Undirected g.W.dense ∧
      (∀ i j, g.W.dense i j ≠ 0 ↔ i ≠ j ∧ √(∑ a, (X i a - X j a) ^ 2) ≤ 0.02) ∧ (∀ i j, 0 ≤ g.W.dense i j ∧ g.W.dense i j ≤ 1) ∧
      ∀ i j k l, g.W.dense i j ≠ 0 → g.W.dense k l ≠ 0 →
        (g.W.dense i j ≤ g.W.dense k l ↔ √(∑ a, (X k a - X l a) ^ 2) ≤ √(∑ a, (X i a - X j a) ^ 2)) := by
  have hY : Y = X := by
    obtain ⟨-, hY, -⟩ := nnGraph_ok h
    unfold nnPoints at hY
    rw [if_neg (by simp)] at hY
    exact (Except.ok.inj hY).symm
  subst hY
  obtain ⟨hb, hu, p, σ, hp, -, hσ, hW⟩ := C79_radius h
  obtain rfl : p = .fin 2 := (Except.ok.inj hp).symm
  obtain ⟨hσ, -⟩ := hσ rfl
  simp only [mink_two] at hW
  have hne : ∀ i j, g.W.dense i j ≠ 0 ↔ i ≠ j ∧ √(∑ a, (Y i a - Y j a) ^ 2) ≤ 0.02 := fun i j => by
    rw [hW]
    split
    · rename_i hc
      simp only [hc, ne_eq, not_false_eq_true, and_self, iff_true]
      exact (Real.exp_pos _).ne'
    · rename_i hc
      simp only [ne_eq, not_true_eq_false, false_iff]
      exact hc
  refine ⟨rfl, hb, hu, hne, fun i j => ?_, fun i j k l h1 h2 => ?_⟩
  · rw [hW]
    split
    · refine ⟨(Real.exp_pos _).le, Real.exp_le_one_iff.2 ?_⟩
      rw [neg_div, neg_nonpos]
      positivity
    · norm_num
  · rw [hW i j, if_pos ((hne i j).1 h1), hW k l, if_pos ((hne k l).1 h2), Real.exp_le_exp, div_le_div_iff_of_pos_right hσ, neg_le_neg_iff,
      sq_le_sq₀ (Real.sqrt_nonneg _) (Real.sqrt_nonneg _)]

/-- When Bunny returns: more than ten points, and at least two different ones at a distance of at most 0.02. -/
theorem C106_bunny_returns {N : ℕ} {X : Fin N → Fin 3 → ℝ} {nn : Fin N → List (Fin N)} {lt : LapType} (hN : 10 < N)
    (hc : ∃ i j, X i ≠ X j ∧ √(∑ a, (X i a - X j a) ^ 2) ≤ 0.02) (hlt : lt = .combinatorial ∨ lt = .normalized) :
    ∃ g, bunny X nn lt = .ok (g, X) := by
  classical
  obtain ⟨i₀, j₀, hne, hle⟩ := hc
  have hij : j₀ ≠ i₀ := fun e => hne (by rw [e])
  set δ : Fin N → Fin N → ℝ := fun i j => minkowski (.fin 2) (X i) (X j) with hδ
  have hδ0 : ∀ i j, 0 ≤ δ i j := fun i j => mink_nonneg _ _ _
  set nb : Fin N → List (Fin N) := fun i => ((List.finRange N).filter fun j => δ i j ≤ 0.02).filter fun j => j ≠ i with hnb
  have hmem : j₀ ∈ nb i₀ := by
    rw [hnb]
    simp only [List.mem_filter, List.mem_finRange, true_and, decide_eq_true_eq]
    refine ⟨?_, hij⟩
    rw [hδ]
    dsimp only
    rw [mink_two]
    exact hle
  have hpos : 0 < δ i₀ j₀ := lt_of_le_of_ne (hδ0 _ _) fun e => hne ((mink_zero (p := .fin 2) (by norm_num [MinkP.Valid]) _ _).1 e.symm)
  have hmean : 0 < nnMean δ nb := by
    unfold nnMean
    have h1 : ∀ i, 0 ≤ ((nb i).map fun j => δ i j).sum := fun i => List.sum_nonneg fun x hx => by
      obtain ⟨j, -, rfl⟩ := List.mem_map.1 hx
      exact hδ0 _ _
    have h2 : 0 < ((nb i₀).map fun j => δ i₀ j).sum :=
      lt_of_lt_of_le hpos (List.single_le_sum (fun x hx => by
        obtain ⟨j, -, rfl⟩ := List.mem_map.1 hx
        exact hδ0 _ _) _ (List.mem_map.2 ⟨j₀, hmem, rfl⟩))
    refine div_pos (Finset.sum_pos' (fun i _ => h1 i) ⟨i₀, Finset.mem_univ _, h2⟩) ?_
    have h3 : 0 < (nb i₀).length := List.length_pos_of_mem hmem
    have h4 : 0 < ∑ i, (nb i).length := Finset.sum_pos' (fun i _ => Nat.zero_le _) ⟨i₀, Finset.mem_univ _, h3⟩
    exact_mod_cast h4
  have hW : nnRadius 0.02 none δ = .ok (nnWeights δ (nnMean δ nb) nb) := by
    unfold nnRadius
    refine (if_neg fun h => ?_).trans (if_neg hmean.ne')
    have := h.2 i₀
    change nb i₀ = [] at this
    rw [this] at hmem
    cases hmem
  obtain ⟨g, hg, -⟩ := Graph.ofCsr_ofDense (nnWeights δ (nnMean δ nb) nb) hlt
  unfold bunny nnGraph
  rw [if_neg (by omega)]
  have hP : nnPoints false false X = .ok X := rfl
  rw [hP]
  simp only [bind, Except.bind, DistType.order]
  rw [show (fun i j => minkowski (.fin 2) (X i) (X j)) = δ from rfl, hW]
  dsimp only
  obtain ⟨S, hS⟩ : ∃ S, symmetrize true (nnWeights δ (nnMean δ nb) nb) .average = .ok S := by
    unfold symmetrize
    rw [dif_pos rfl]
    exact ⟨_, rfl⟩
  rw [hS]
  dsimp only
  obtain ⟨g', hg', -⟩ := Graph.ofCsr_ofDense S hlt
  rw [hg']
  exact ⟨g', rfl⟩

/-- An example: twelve points on a line, at a distance of 0.01 from each other: each is connected to the two points on either side. -/
example : ∃ g, bunny (N := 12) (fun i => ![(i.val : ℝ) / 100, 0, 0]) (fun _ => []) .combinatorial = .ok (g, fun i => ![(i.val : ℝ) / 100, 0, 0]) ∧
    g.W.dense 0 2 ≠ 0 ∧ g.W.dense 0 3 = 0 := by
  obtain ⟨g, hg⟩ := C106_bunny_returns (N := 12) (X := fun i => ![(i.val : ℝ) / 100, 0, 0]) (nn := fun _ => []) (lt := .combinatorial) (by norm_num)
    ⟨0, 1, fun e => by simpa using congrFun e 0, by
      rw [Real.sqrt_le_left (by norm_num)]
      simp [Fin.sum_univ_three]
      norm_num⟩ (.inl rfl)
  obtain ⟨-, -, -, hW, -⟩ := C106_bunny hg
  refine ⟨g, hg, (hW _ _).2 ⟨by decide, ?_⟩, ?_⟩
  · rw [Real.sqrt_le_left (by norm_num)]
    simp [Fin.sum_univ_three]
    norm_num
  · by_contra hc
    have := ((hW _ _).1 hc).2
    rw [Real.sqrt_le_left (by norm_num)] at this
    simp [Fin.sum_univ_three] at this
    norm_num at this

/-- An example: the two parts of a graph of 355 vertices are joined. -/
example : ∃ (A : Matrix (Fin 355) (Fin 355) ℝ), ∃ g, minnesota A true .combinatorial = .ok g ∧ ¬ StronglyConnected A ∧ StronglyConnected g.W.dense := by
  classical
  let A : Matrix (Fin 355) (Fin 355) ℝ := Matrix.of fun i j => if i.val < 354 ∧ j.val < 354 then 2 else 0
  obtain ⟨g, hg, -, -, -, -, hc⟩ := C106_minnesota A (by norm_num) (lt := .combinatorial) (.inl rfl)
  refine ⟨A, g, hg, fun h => ?_, hc (fun i j => ?_) (fun i j => ?_) fun v => ?_⟩
  · have key : ∀ j, Reach A 0 j → j.val < 354 := by
      intro j hj
      induction hj with
      | refl => norm_num
      | tail _ hab _ =>
        have hab' : (if _ then (2 : ℝ) else 0) ≠ 0 := hab
        by_contra hc
        exact hab' (if_neg fun q => hc q.2)
    have := key 354 (h 0 354)
    norm_num at this
  · exact if_congr (and_comm) rfl rfl
  · show 0 ≤ (if _ then (2 : ℝ) else 0)
    split <;> norm_num
  · by_cases hv : v.val < 354
    · left
      refine Relation.ReflTransGen.single ?_
      show (if _ then (2 : ℝ) else 0) ≠ 0
      rw [if_pos ⟨hv, by norm_num⟩]
      norm_num
    · right
      have : v = ⟨354, by omega⟩ := Fin.ext (by have := v.isLt; simp only; omega)
      rw [this]
      exact Relation.ReflTransGen.refl

example : ∃ g, airfoil 3 [(1, 2), (3, 2)] .combinatorial = .ok g ∧ g.W.dense 1 2 = 1 / 2 ∧ g.W.dense 0 2 = 0 := by
  obtain ⟨g, hg, -, -, -, hW, -⟩ := C106_airfoil (n := 3) (inds := [(1, 2), (3, 2)]) (by simp) (lt := .combinatorial) (.inl rfl)
  refine ⟨g, hg, ?_, ?_⟩ <;> rw [hW] <;> norm_num [List.count_cons]

end PyGSP.Gen
