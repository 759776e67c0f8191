import Verif.Lemmas.Laplacian
import Verif.Lemmas.Subgraph
import Verif.Props.Core

namespace PyGSP

open Matrix Spec

variable {n : ℕ}

theorem dense_map_finRange {m : ℕ} (r : Fin m → Fin n) (v : Fin m → ℝ) (a : Fin n) (k : Fin m) :
    (⟨(List.finRange m).map fun k => (r k, k, v k)⟩ : Sp n m ℝ).dense a k = if r k = a then v k else 0 := by
  have h1 : (List.finRange m).map (fun k => (r k, k, v k)) = (List.finRange m).flatMap fun k => [(r k, k, v k)] := by
    exact List.map_eq_flatMap
  rw [h1, Sp.dense_flatMap, Sp.sum_map_finRange_single _ k]
  · rw [Sp.dense_cons]; simp
  · intro b hb
    rw [Sp.dense_cons]; simp [hb]

theorem diffMatrix_dense (W : Sp n n ℝ) (lt : LapType) (es : List (Fin n × Fin n × ℝ)) (a : Fin n)
    (k : Fin es.length) :
    (diffMatrix W lt es).dense a k = (if (es.get k).1 = a then (diffValues W lt (es.get k)).1 else 0)
      + (if (es.get k).2.1 = a then (diffValues W lt (es.get k)).2 else 0) := by
  unfold diffMatrix
  rw [Sp.dense_eliminateZeros, Sp.dense_sumDuplicates, Sp.dense_append]
  congr 1
  · exact dense_map_finRange (fun k => (es.get k).1) (fun k => (diffValues W lt (es.get k)).1) a k
  · exact dense_map_finRange (fun k => (es.get k).2.1) (fun k => (diffValues W lt (es.get k)).2) a k

/-- scaling of a vertex for each Laplacian type -/
noncomputable def vscale (M : Matrix (Fin n) (Fin n) ℝ) : LapType → Fin n → ℝ
  | .normalized, i => nscale M i
  | _, _ => 1

/-- `sqrt 2` if directed -/
noncomputable def dirScale (W : Sp n n ℝ) : ℝ := if isDirected W then Real.sqrt 2 else 1

theorem sqrt_div_wdeg {M : Matrix (Fin n) (Fin n) ℝ} (i : Fin n) {w : ℝ} (hw : 0 ≤ w) :
    Real.sqrt (w / wdeg M i) = Real.sqrt w * nscale M i := by
  unfold nscale
  split
  · rename_i h; rw [h]; simp
  · rw [Real.sqrt_div hw]; ring

theorem diffValues_eq (W : Sp n n ℝ) (lt : LapType) (hlt : lt = .combinatorial ∨ lt = .normalized)
    (i j : Fin n) {w : ℝ} (hw : 0 ≤ w) :
    diffValues W lt (i, j, w) = (-(Real.sqrt w * vscale W.dense lt i) / dirScale W,
      Real.sqrt w * vscale W.dense lt j / dirScale W) := by
  unfold diffValues dirScale
  rcases hlt with rfl | rfl
  · simp only [vscale]
    split <;> simp
  · simp only [vscale, dw_eq, sqrt_div_wdeg _ hw]
    split <;> simp

/-- sums over the edge list as sums over pairs -/
theorem sum_edgeList (g : Graph n ℝ) (hg : g.Built) {l} (hl : g.getEdgeList = .ok l)
    (f : Fin n × Fin n × ℝ → ℝ) (hf0 : ∀ i j, f (i, j, 0) = 0)
    (hloop : ∀ i w, f (i, i, w) = 0) (hsymm : ∀ i j w, f (i, j, w) = f (j, i, w)) :
    (l.map f).sum = (if isDirected g.W then 1 else 1 / 2) * ∑ i, ∑ j, f (i, j, g.W.dense i j) := by
  obtain ⟨l', h1, h2, h3, h4⟩ := C04_edge_list g hg
  rw [hl] at h1
  have : l = l' := by simpa using h1
  subst this
  have hnd : l.Nodup := List.Nodup.of_map _ h3
  rw [← List.sum_toFinset f hnd]
  have key : ∀ (P : Fin n × Fin n → Prop) [DecidablePred P],
      (∀ i j w, (i, j, w) ∈ l ↔ (g.W.dense i j = w ∧ w ≠ 0 ∧ P (i, j))) →
      ∑ x ∈ l.toFinset, f x = ∑ p : Fin n × Fin n, if P p then f (p.1, p.2, g.W.dense p.1 p.2) else 0 := by
    intro P _ hP
    rw [← Finset.sum_filter]
    have : ∑ p ∈ Finset.univ.filter P, f (p.1, p.2, g.W.dense p.1 p.2)
        = ∑ p ∈ Finset.univ.filter (fun p => P p ∧ g.W.dense p.1 p.2 ≠ 0), f (p.1, p.2, g.W.dense p.1 p.2) := by
      symm
      apply Finset.sum_subset
      · intro p hp
        simp only [Finset.mem_filter, Finset.mem_univ, true_and] at hp ⊢
        exact hp.1
      · intro p hp hq
        simp only [Finset.mem_filter, Finset.mem_univ, true_and, not_and, not_not] at hp hq
        rw [hq hp, hf0]
    rw [this]
    apply Finset.sum_bij' (fun e _ => (e.1, e.2.1)) (fun p _ => (p.1, p.2, g.W.dense p.1 p.2))
    · rintro ⟨i, j, w⟩ he
      rw [List.mem_toFinset, hP] at he
      simp only [Finset.mem_filter, Finset.mem_univ, true_and]
      exact ⟨he.2.2, by rw [he.1]; exact he.2.1⟩
    · rintro ⟨i, j⟩ hp
      simp only [Finset.mem_filter, Finset.mem_univ, true_and] at hp
      rw [List.mem_toFinset, hP]
      exact ⟨rfl, hp.2, hp.1⟩
    · rintro ⟨i, j, w⟩ he
      rw [List.mem_toFinset, hP] at he
      simp only [he.1]
    · rintro ⟨i, j⟩ _; rfl
    · rintro ⟨i, j, w⟩ he
      rw [List.mem_toFinset, hP] at he
      simp only [he.1]
  by_cases hd : isDirected g.W = true
  · have hu : ¬ Undirected g.W.dense := (C03_is_directed_iff _).1 hd
    rw [key (fun _ => True) (by intro i j w; rw [h4]; tauto), if_pos hd, one_mul]
    simp only [if_true]
    rw [Fintype.sum_prod_type]
  · have hu : Undirected g.W.dense := by rw [← isDirected_eq_false_iff]; simpa using hd
    rw [key (fun p => p.1 ≤ p.2) (by intro i j w; rw [h4]; tauto), if_neg hd]
    rw [Fintype.sum_prod_type]
    set F : Fin n → Fin n → ℝ := fun i j => f (i, j, g.W.dense i j) with hF
    have hFs : ∀ i j, F i j = F j i := fun i j => by simp only [hF]; rw [hu i j, hsymm]
    have hF0 : ∀ i, F i i = 0 := fun i => hloop _ _
    have e1 : ∑ i, ∑ j, F i j = ∑ i, ∑ j, (if i ≤ j then F i j else 0) + ∑ i, ∑ j, (if j ≤ i then F i j else 0) := by
      rw [← Finset.sum_add_distrib]
      refine Finset.sum_congr rfl fun i _ => ?_
      rw [← Finset.sum_add_distrib]
      refine Finset.sum_congr rfl fun j _ => ?_
      rcases lt_trichotomy i j with h | h | h
      · rw [if_pos h.le, if_neg (not_le.2 h), add_zero]
      · subst h; rw [hF0]; simp
      · rw [if_pos h.le, if_neg (not_le.2 h), zero_add]
    have e2 : ∑ i, ∑ j, (if j ≤ i then F i j else 0) = ∑ i, ∑ j, (if i ≤ j then F i j else 0) := by
      rw [sum_swap]
      exact Finset.sum_congr rfl fun i _ => Finset.sum_congr rfl fun j _ => by rw [hFs j i]
    have e3 : ∑ i, ∑ j, f (i, j, g.W.dense i j) = ∑ i, ∑ j, F i j := rfl
    rw [e3, e1, e2]
    show ∑ i, ∑ j, (if i ≤ j then F i j else 0) = _
    ring

theorem sum_pair_indicator (M : Matrix (Fin n) (Fin n) ℝ) (s : Fin n → ℝ) (a b : Fin n) :
    1 / 2 * ∑ i, ∑ j, M i j * (((if j = a then s j else 0) - (if i = a then s i else 0))
        * ((if j = b then s j else 0) - (if i = b then s i else 0)))
      = s a * combLap M a b * s b := by
  have e : ∀ i j, M i j * (((if j = a then s j else 0) - (if i = a then s i else 0))
        * ((if j = b then s j else 0) - (if i = b then s i else 0)))
      = (if j = a then (if j = b then M i j * (s j * s j) else 0) else 0)
        - (if j = a then (if i = b then M i j * (s j * s i) else 0) else 0)
        - (if i = a then (if j = b then M i j * (s i * s j) else 0) else 0)
        + (if i = a then (if i = b then M i j * (s i * s i) else 0) else 0) := by
    intro i j
    split_ifs <;> ring
  simp only [e, Finset.sum_add_distrib, Finset.sum_sub_distrib]
  have h1 : ∑ i, ∑ j, (if j = a then (if j = b then M i j * (s j * s j) else 0) else 0)
      = if a = b then (∑ i, M i a) * (s a * s a) else 0 := by
    simp only [Finset.sum_ite_eq', Finset.mem_univ, if_true]
    split
    · rw [Finset.sum_mul]
    · simp
  have h2 : ∑ i, ∑ j, (if j = a then (if i = b then M i j * (s j * s i) else 0) else 0) = M b a * (s a * s b) := by
    simp only [Finset.sum_ite_eq', Finset.mem_univ, if_true]
  have h3 : ∑ i, ∑ j, (if i = a then (if j = b then M i j * (s i * s j) else 0) else 0) = M a b * (s a * s b) := by
    rw [sum_swap]
    simp only [Finset.sum_ite_eq', Finset.mem_univ, if_true]
  have h4 : ∑ i, ∑ j, (if i = a then (if i = b then M i j * (s i * s i) else 0) else 0)
      = if a = b then (∑ j, M a j) * (s a * s a) else 0 := by
    rw [sum_swap]
    simp only [Finset.sum_ite_eq', Finset.mem_univ, if_true]
    split
    · rw [Finset.sum_mul]
    · simp
  rw [h1, h2, h3, h4]
  simp only [combLap, Matrix.of_apply, wsym, wdeg]
  by_cases hab : a = b
  · subst hab; simp only [if_true]; ring
  · simp only [hab, if_false]; ring

theorem diff_mul_transpose (g : Graph n ℝ) (hg : g.Built) (hW : NonnegW g.W.dense)
    (hlt : g.lapType = .combinatorial ∨ g.lapType = .normalized) {l} (hl : g.getEdgeList = .ok l) (a b : Fin n) :
    ((diffMatrix g.W g.lapType l).dense * (diffMatrix g.W g.lapType l).denseᵀ) a b
      = vscale g.W.dense g.lapType a * combLap g.W.dense a b * vscale g.W.dense g.lapType b := by
  set s := vscale g.W.dense g.lapType with hs
  let c := dirScale g.W
  -- contribution of one edge
  let f : Fin n × Fin n × ℝ → ℝ := fun e =>
    e.2.2 / c ^ 2 * (((if e.2.1 = a then s e.2.1 else 0) - (if e.1 = a then s e.1 else 0))
        * ((if e.2.1 = b then s e.2.1 else 0) - (if e.1 = b then s e.1 else 0)))
  have hmem : ∀ e ∈ l, 0 ≤ e.2.2 := by
    rintro ⟨i, j, w⟩ he
    obtain ⟨l', h1, -, -, h4⟩ := C04_edge_list g hg
    rw [hl] at h1
    have : l = l' := by simpa using h1
    subst this
    rw [h4] at he
    simp only
    rw [← he.1]; exact hW i j
  have h1 : ((diffMatrix g.W g.lapType l).dense * (diffMatrix g.W g.lapType l).denseᵀ) a b = (l.map f).sum := by
    rw [Matrix.mul_apply, ← Fin.sum_univ_fun_getElem]
    refine Finset.sum_congr rfl fun k _ => ?_
    rw [Matrix.transpose_apply, diffMatrix_dense, diffMatrix_dense]
    have hk := hmem (l.get k) (List.get_mem _ _)
    show _ = f (l.get k)
    generalize l.get k = e at hk
    obtain ⟨i, j, w⟩ := e
    rw [diffValues_eq g.W g.lapType hlt i j hk]
    have hw : w = Real.sqrt w * Real.sqrt w := (Real.mul_self_sqrt hk).symm
    simp only [f]
    show _ = w / c ^ 2 * _
    rw [show w / c ^ 2 = Real.sqrt w * Real.sqrt w / (c * c) by rw [← hw]; ring]
    show (_ + _) * (_ + _) = _
    have hc : dirScale g.W = c := rfl
    rw [hc]
    split_ifs <;> field_simp <;> ring
  rw [h1, sum_edgeList g hg hl f]
  · have h2 : ∀ i j, f (i, j, g.W.dense i j) = 1 / c ^ 2 * (g.W.dense i j *
        (((if j = a then s j else 0) - (if i = a then s i else 0))
        * ((if j = b then s j else 0) - (if i = b then s i else 0)))) := by
      intro i j; simp only [f]; ring
    simp only [h2, ← Finset.mul_sum]
    rw [← sum_pair_indicator, ← mul_assoc]
    congr 1
    simp only [c, dirScale]
    split
    · rw [Real.sq_sqrt (by norm_num)]; norm_num
    · norm_num
  · intro i j; simp [f]
  · intro i w; simp [f]
  · intro i j w; simp only [f]; ring

end PyGSP
