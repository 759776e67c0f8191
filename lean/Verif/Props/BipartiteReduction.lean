import Verif.Props.RingPyramid
import Verif.Props.Grid

/-!
# C154: the reduction and the multiresolution of bipartite graphs
-/

namespace PyGSP

open Matrix Reduction Spec GState Gen Learning

variable {n k : ℕ}

namespace BipartiteReduction

/-- The last Fourier mode of a connected graph with two sides is positive on one side and negative on the other one. -/
theorem last_bipartite {W : Matrix (Fin n) (Fin n) ℝ} (hu : Undirected W) (hW : NonnegW W) (hcon : Connected W) {col : Fin n → Bool} (hcol : ∀ i j, W i j ≠ 0 → col i ≠ col j)
    {e : Fin n → ℝ} {U : Matrix (Fin n) (Fin n) ℝ} (hU : Uᵀ * U = 1) (hE : combLap W * U = U * Matrix.diagonal e) (he : Monotone e) (hn : 0 < n) (i : Fin n) :
    (col i = col ⟨0, hn⟩ → 0 < U ⟨0, hn⟩ ⟨n - 1, Nat.sub_lt hn one_pos⟩ * U i ⟨n - 1, Nat.sub_lt hn one_pos⟩) ∧
      (col i ≠ col ⟨0, hn⟩ → U ⟨0, hn⟩ ⟨n - 1, Nat.sub_lt hn one_pos⟩ * U i ⟨n - 1, Nat.sub_lt hn one_pos⟩ < 0) := by
  have hUU : U * Uᵀ = 1 := mul_eq_one_comm.1 hU
  set c : Fin n := ⟨n - 1, Nat.sub_lt hn one_pos⟩ with hc
  have hec : ∀ j, e j ≤ e c := fun j => he (Fin.le_def.2 (by have := j.2; simp only [hc]; omega))
  have hL : combLap W = U * Matrix.diagonal e * Uᵀ := by rw [← hE, Matrix.mul_assoc, hUU, Matrix.mul_one]
  have hLf : ∀ f : Fin n → ℝ, ∀ i, (combLap W *ᵥ f) i = ∑ j, W i j * (f i - f j) := fun f i => by
    rw [combLap_mulVec]
    exact Finset.sum_congr rfl fun j _ => by rw [KronClassical.wsym_of hu]
  set x : Fin n → ℝ := fun i => U i c with hx
  have hLx : ∀ i, ∑ j, W i j * (x i - x j) = e c * x i := fun i => by
    rw [← hLf]
    have := congrFun (congrFun hE i) c
    rw [Matrix.mul_diagonal] at this
    rw [mul_comm (e c)]
    exact this
  set z : Fin n → ℝ := fun i => if col i = col ⟨0, hn⟩ then 1 else -1 with hz
  have hz2 : ∀ i, z i * z i = 1 := fun i => by simp only [hz]; split <;> norm_num
  have hzz : ∀ i j, W i j ≠ 0 → z j = - z i := fun i j h => by
    have := hcol i j h
    simp only [hz]
    rcases hi : col i <;> rcases hj : col j <;> rcases h0 : col ⟨0, hn⟩ <;> simp_all
  set y : Fin n → ℝ := fun i => z i * |x i| with hy
  have hyy : ∀ i, y i * y i = x i * x i := fun i => by
    simp only [hy]
    have := hz2 i
    have h2 := abs_mul_abs_self (x i)
    linear_combination |x i| * |x i| * this + h2
  set a : Fin n → ℝ := Uᵀ *ᵥ y with ha
  have hLy : combLap W *ᵥ y = U *ᵥ fun j => e j * a j := by
    rw [hL, ← Matrix.mulVec_mulVec, ← Matrix.mulVec_mulVec, ← ha]
    congr 1
    funext j
    rw [Matrix.mulVec_diagonal]
  have hdot : ∀ v : Fin n → ℝ, y ⬝ᵥ (U *ᵥ v) = a ⬝ᵥ v := fun v => by
    rw [Matrix.dotProduct_mulVec, ha, Matrix.mulVec_transpose]
  have hBy : ∑ i, y i * ∑ j, W i j * (y i - y j) = ∑ j, e j * (a j * a j) := by
    have h1 : y ⬝ᵥ (combLap W *ᵥ y) = ∑ j, e j * (a j * a j) := by
      rw [hLy, hdot]
      exact Finset.sum_congr rfl fun j _ => by ring
    rw [← h1]
    exact Finset.sum_congr rfl fun i _ => by rw [hLf]
  have hyU : y = U *ᵥ a := by rw [ha, Matrix.mulVec_mulVec, hUU, Matrix.one_mulVec]
  have hya : ∑ i, x i * x i = ∑ j, a j * a j := by
    have : y ⬝ᵥ y = a ⬝ᵥ a := by
      conv_lhs => rw [hyU, ← hyU]
      conv_lhs => rw [show y ⬝ᵥ y = y ⬝ᵥ (U *ᵥ a) by rw [← hyU], hdot]
    unfold dotProduct at this
    rw [← this]
    exact Finset.sum_congr rfl fun i _ => (hyy i).symm
  have hBx : ∑ i, x i * ∑ j, W i j * (x i - x j) = e c * ∑ i, x i * x i := by
    rw [Finset.mul_sum]
    exact Finset.sum_congr rfl fun i _ => by rw [hLx]; ring
  have hgap : ∑ i, y i * ∑ j, W i j * (y i - y j) - ∑ i, x i * ∑ j, W i j * (x i - x j) = ∑ i, ∑ j, W i j * (x i * x j + |x i| * |x j|) := by
    rw [← Finset.sum_sub_distrib]
    refine Finset.sum_congr rfl fun i _ => ?_
    rw [Finset.mul_sum, Finset.mul_sum, ← Finset.sum_sub_distrib]
    refine Finset.sum_congr rfl fun j _ => ?_
    by_cases h : W i j = 0
    · rw [h]; ring
    · have h1 := hzz i j h
      have h2 := hyy i
      have h3 : y i * y j = - (|x i| * |x j|) := by
        simp only [hy]
        rw [h1]
        linear_combination (- |x i| * |x j|) * hz2 i
      linear_combination W i j * h2 - W i j * h3
  have hnn : ∀ i j, 0 ≤ W i j * (x i * x j + |x i| * |x j|) := fun i j => mul_nonneg (hW i j) (by
    rw [← abs_mul]; linarith [neg_abs_le (x i * x j)])
  have hdef : ∑ j, (e c - e j) * (a j * a j) = - ∑ i, ∑ j, W i j * (x i * x j + |x i| * |x j|) := by
    rw [← hgap, hBy, hBx, hya, Finset.mul_sum]
    simp only [sub_mul, Finset.sum_sub_distrib]
    ring
  have hpos : ∀ j, 0 ≤ (e c - e j) * (a j * a j) := fun j => mul_nonneg (by linarith [hec j]) (mul_self_nonneg _)
  have h0a : ∑ j, (e c - e j) * (a j * a j) = 0 := le_antisymm (by
    rw [hdef]
    linarith [Finset.sum_nonneg fun (i : Fin n) (_ : i ∈ Finset.univ) => Finset.sum_nonneg fun (j : Fin n) (_ : j ∈ Finset.univ) => hnn i j]) (Finset.sum_nonneg fun j _ => hpos j)
  have h0x : ∑ i, ∑ j, W i j * (x i * x j + |x i| * |x j|) = 0 := by linarith
  have hea : ∀ j, e j * a j = e c * a j := fun j => by
    have := (Finset.sum_eq_zero_iff_of_nonneg fun j _ => hpos j).1 h0a j (Finset.mem_univ _)
    rcases mul_eq_zero.1 this with h | h
    · rw [show e j = e c by linarith]
    · rw [mul_self_eq_zero.1 h, mul_zero, mul_zero]
  have hyeig : ∀ i, ∑ j, W i j * (y i - y j) = e c * y i := fun i => by
    rw [← hLf, hLy, show (fun j => e j * a j) = e c • a from funext hea, Matrix.mulVec_smul, ← hyU]
    rfl
  have hedge : ∀ i j, W i j ≠ 0 → x i * x j + |x i| * |x j| = 0 := fun i j h => by
    have h1 := (Finset.sum_eq_zero_iff_of_nonneg fun i _ => Finset.sum_nonneg fun j _ => hnn i j).1 h0x i (Finset.mem_univ _)
    have h2 := (Finset.sum_eq_zero_iff_of_nonneg fun j _ => hnn i j).1 h1 j (Finset.mem_univ _)
    exact (mul_eq_zero.1 h2).resolve_left h
  -- a zero spreads to the neighbours
  have hspread : ∀ i j, W i j ≠ 0 → x i = 0 → x j = 0 := fun i j hij hi => by
    have hyi : y i = 0 := by simp only [hy]; rw [hi, abs_zero, mul_zero]
    have h1 := hyeig i
    rw [hyi, mul_zero] at h1
    have h2 : ∑ j, W i j * |x j| = 0 := by
      have : ∀ j, W i j * |x j| = z i * (W i j * (0 - y j)) := fun j => by
        by_cases h : W i j = 0
        · rw [h]; ring
        · simp only [hy]
          rw [hzz i j h]
          linear_combination (- W i j * |x j|) * hz2 i
      rw [Finset.sum_congr rfl fun j _ => this j, ← Finset.mul_sum, h1, mul_zero]
    have h3 := (Finset.sum_eq_zero_iff_of_nonneg fun j _ => mul_nonneg (hW i j) (abs_nonneg (x j))).1 h2 j (Finset.mem_univ _)
    exact abs_eq_zero.1 ((mul_eq_zero.1 h3).resolve_left hij)
  have hne : ∀ i, x i ≠ 0 := fun i hi => by
    have hall : ∀ j, x j = 0 := fun j => by
      have := hcon i j
      induction this with
      | refl => exact hi
      | tail _ hbc ih =>
        rcases hbc with h | h
        · exact hspread _ _ h ih
        · exact hspread _ _ (by rw [hu]; exact h) ih
    have h1 : (Uᵀ * U) c c = 0 := by
      rw [Matrix.mul_apply]
      exact Finset.sum_eq_zero fun i _ => by
        have := hall i
        rw [Matrix.transpose_apply]
        show x i * x i = 0
        rw [this, mul_zero]
    rw [hU, Matrix.one_apply_eq] at h1
    exact one_ne_zero h1
  -- the signs
  have hsgn : ∀ i j, W i j ≠ 0 → 0 < (z i * x i) * (z j * x j) := fun i j h => by
    have h1 := hedge i j h
    rw [hzz i j h]
    have h2 : (z i * x i) * (- z i * x j) = |x i| * |x j| := by linear_combination (- x i * x j) * hz2 i - h1
    rw [h2]
    exact mul_pos (abs_pos.2 (hne i)) (abs_pos.2 (hne j))
  have hz0 : z ⟨0, hn⟩ = 1 := by simp [hz]
  have hall : 0 < (z ⟨0, hn⟩ * x ⟨0, hn⟩) * (z i * x i) := by
    have := hcon ⟨0, hn⟩ i
    induction this with
    | refl => rw [hz0]; simpa using mul_self_pos.2 (hne ⟨0, hn⟩)
    | @tail b d _ hbc ih =>
      have h3 : 0 < (z b * x b) * (z d * x d) := by
        rcases hbc with h | h
        · exact hsgn _ _ h
        · rw [mul_comm]; exact hsgn _ _ h
      have h4 := mul_pos ih h3
      have h5 : 0 < (z b * x b) * (z b * x b) := by
        refine mul_self_pos.2 (mul_ne_zero (fun h => ?_) (hne b))
        have := hz2 b
        rw [h] at this
        simp at this
      have h6 : 0 < ((z ⟨0, hn⟩ * x ⟨0, hn⟩) * (z d * x d)) * ((z b * x b) * (z b * x b)) := by linarith [show
        (z ⟨0, hn⟩ * x ⟨0, hn⟩) * (z b * x b) * ((z b * x b) * (z d * x d)) = ((z ⟨0, hn⟩ * x ⟨0, hn⟩) * (z d * x d)) * ((z b * x b) * (z b * x b)) by ring]
      exact (pos_iff_pos_of_mul_pos h6).2 h5
  rw [hz0, one_mul] at hall
  constructor
  · intro h
    have : z i = 1 := by simp [hz, h]
    rwa [this, one_mul] at hall
  · intro h
    have : z i = -1 := by simp [hz, h]
    rw [this] at hall
    show x ⟨0, hn⟩ * x i < 0
    linarith

/-- the sum over the vertices that are not eliminated -/
theorem sum_kept {ind : Fin k → Fin n} (hi : Function.Injective ind) (f : Fin n → ℝ) (h : ∀ v, (∀ a, ind a ≠ v) → f v = 0) : ∑ v, f v = ∑ a, f (ind a) := by
  classical
  rw [← Finset.sum_image (s := Finset.univ) (g := ind) (f := f) fun a _ b _ h => hi h]
  refine (Finset.sum_subset (Finset.subset_univ _) fun v _ hv => h v fun a ha => hv ?_).symm
  exact Finset.mem_image.2 ⟨a, Finset.mem_univ _, ha⟩

end BipartiteReduction

/-- **C154** When no edge joins two eliminated vertices, the weight between two kept vertices after the reduction is their weight before plus, for every eliminated vertex, the product of the two
weights that lead there divided by its degree. -/
theorem C154_star_mesh {S : Solvers n} (hS : Sound S) {g : Graph n ℝ} (hg : g.Built) (hist : List (Op n)) {s : GState n} (hs : s = runAll S hist (GState.ofGraph g))
    (hc : s.lapType = .combinatorial) (hu : Undirected g.W.dense) (hW : NonnegW g.W.dense) {ind : Fin k → Fin n} (hi : Function.Injective ind) (hk : 2 ≤ k) (he : ∃ v, ∀ a, ind a ≠ v)
    (hcon : Connected g.W.dense) (hind : ∀ u v, (∀ a, ind a ≠ u) → (∀ a, ind a ≠ v) → g.W.dense u v = 0) {R : Type} (c : Fin n → R) :
    ∃ g', kronGraph s (.rows c) ind = .ok (g', .rows fun a => c (ind a)) ∧ g'.Built ∧ g'.lapType = .combinatorial ∧ ∀ a b, g'.W.dense a b = if a = b then 0 else
      g.W.dense (ind a) (ind b) + ∑ v, if ∀ a, ind a ≠ v then g.W.dense (ind a) v * g.W.dense v (ind b) / ∑ y, g.W.dense v y else 0 := by
  set W := g.W.dense with hWdef
  have hk0 : 0 < k := by omega
  -- an eliminated vertex has a positive degree
  have hdeg : ∀ v, (∀ a, ind a ≠ v) → ∑ y, W v y ≠ 0 := fun v hv h0 => by
    have hz : ∀ y, W v y = 0 := fun y => (Finset.sum_eq_zero_iff_of_nonneg fun y _ => hW v y).1 h0 y (Finset.mem_univ _)
    have := hcon v (ind ⟨0, hk0⟩)
    rcases this.cases_head with h | ⟨y, h, -⟩
    · exact hv _ h.symm
    · rcases h with h | h
      · exact h (hz y)
      · rw [hu] at h; exact h (hz y)
  obtain ⟨g', h1, h2, h3, h4⟩ := KronClassical.kron_weights hS hg hist hs hc hu hW hi hk he (fun v => ⟨⟨0, hk0⟩, hcon v _⟩) c
    (W' := Matrix.of fun a b => if a = b then 0 else W (ind a) (ind b) + ∑ v, if ∀ a, ind a ≠ v then W (ind a) v * W v (ind b) / ∑ y, W v y else 0)
    (fun a b => by
      simp only [of_apply]
      refine if_congr eq_comm rfl ?_
      rw [hu]
      congr 1
      exact Finset.sum_congr rfl fun v _ => if_congr Iff.rfl (by rw [hu (ind a) v, hu v (ind b)]; ring) rfl)
    (fun a => by simp)
    (by
      intro v hv a
      have key : ∀ y, W (ind a) y * (v (ind a) - v y) = (if ∀ a, ind a ≠ y then 0 else W (ind a) y * (v (ind a) - v y)) +
          ∑ b, (if ∀ a, ind a ≠ y then W (ind a) y * W y (ind b) / ∑ t, W y t else 0) * (v (ind a) - v (ind b)) := fun y => by
        by_cases hy : ∀ a, ind a ≠ y
        · simp only [if_pos hy, zero_add]
          have h5 := hv y hy
          have h6 : ∀ f : Fin n → ℝ, ∑ t, W y t * f t = ∑ b, W y (ind b) * f (ind b) := fun f =>
            BipartiteReduction.sum_kept hi (fun t => W y t * f t) fun t ht => by rw [hind y t hy ht, zero_mul]
          have hd := hdeg y hy
          have h7 : (∑ t, W y t) * v y = ∑ b, W y (ind b) * v (ind b) := by
            rw [← h6, Finset.sum_mul]
            have : ∑ t, (W y t * v y - W y t * v t) = 0 := by
              rw [← h5]
              exact Finset.sum_congr rfl fun t _ => by ring
            rw [Finset.sum_sub_distrib] at this
            linarith
          have h8 : ∑ t, W y t = ∑ b, W y (ind b) := by simpa using h6 fun _ => 1
          have h9 : ∀ b, W (ind a) y * W y (ind b) / (∑ t, W y t) * (v (ind a) - v (ind b)) = W (ind a) y / (∑ t, W y t) * (W y (ind b) * v (ind a) - W y (ind b) * v (ind b)) := fun b => by ring
          rw [Finset.sum_congr rfl fun b _ => h9 b, ← Finset.mul_sum, Finset.sum_sub_distrib, ← Finset.sum_mul, ← h8, ← h7]
          field_simp
        · simp only [if_neg hy, zero_mul, Finset.sum_const_zero, add_zero]
      rw [Finset.sum_congr rfl fun y _ => key y, Finset.sum_add_distrib, Finset.sum_comm,
        BipartiteReduction.sum_kept hi (fun y => if ∀ a, ind a ≠ y then 0 else W (ind a) y * (v (ind a) - v y)) fun y hy => if_pos hy, ← Finset.sum_add_distrib]
      refine Finset.sum_congr rfl fun b _ => ?_
      rw [if_neg fun h => h b rfl, ← Finset.sum_mul, ← add_mul, of_apply]
      by_cases hab : a = b
      · subst hab; rw [sub_self, mul_zero, mul_zero]
      · rw [if_neg hab])
  exact ⟨g', h1, h2, h3, fun a b => by rw [h4]; rfl⟩

namespace BipartiteReduction

/-- A graph of the list with the properties that one pass needs. -/
structure BStage {R : Type} (E : Env) (g : Node R) (M : Matrix (Fin g.n) (Fin g.n) ℝ) : Prop where
  pos : 0 < g.n
  reach : ∃ (gr : Graph g.n ℝ) (hist : List (Op g.n)), gr.Built ∧ g.st = runAll (E.S g.n) hist (GState.ofGraph gr) ∧ gr.W.dense = M
  comb : g.st.lapType = .combinatorial
  basis : ∃ (e : Fin g.n → ℝ) (U : Matrix (Fin g.n) (Fin g.n) ℝ), g.st.basis = some ⟨g.n, e, U⟩ ∧ Uᵀ * U = 1 ∧ combLap M * U = U * Matrix.diagonal e ∧ Monotone e

theorem stage_W {R : Type} {E : Env} (hE : ∀ n, Sound (E.S n)) {g : Node R} {M : Matrix (Fin g.n) (Fin g.n) ℝ} (h : BStage E g M) : g.st.W.dense = M := by
  obtain ⟨gr, hist, hb, hs, hW⟩ := h.reach
  obtain ⟨-, hw, -⟩ := reach_inv (hE _) hb hist
  rw [hs, ← hW]
  exact congrArg Sp.dense hw

/-- preparing a graph -/
theorem stage_of {R : Type} {E : Env} (hE : ∀ n, Sound (E.S n)) {full : Bool} (h4 : full = true) {m : ℕ} (hm : 0 < m) {gr : Graph m ℝ} (hb : gr.Built) (hist : List (Op m))
    (hnn : NonnegW gr.W.dense) (hc : (runAll (E.S m) hist (GState.ofGraph gr)).lapType = .combinatorial) :
    ∃ st, prepare E full (runAll (E.S m) hist (GState.ofGraph gr)) = (.ok (), st) ∧ ∀ (c : Coords m R) (idx orig : Fin m → ℕ), BStage E ⟨m, st, c, idx, orig⟩ gr.W.dense := by
  set s := runAll (E.S m) hist (GState.ofGraph gr) with hs
  obtain ⟨h1, b, h2, h3, h3', h5, h6, h7, -⟩ := C25_fourier_basis (hE m) hb hnn hist hs (Or.inl hc) none (by simpa using hm) (by simp) (Or.inl (by simp))
  simp only [Option.getD_none] at h3
  obtain ⟨bk, e, U⟩ := b
  obtain rfl : bk = m := le_antisymm h3' h3
  have hL : s.L = combLap gr.W.dense := L_combinatorial (hE _) hb hist hs hc
  have hrun : (s.computeFourierBasis (E.S bk) none).2 = runAll (E.S bk) (hist ++ [.computeFourierBasis none]) (GState.ofGraph gr) := by
    unfold runAll; rw [List.foldl_append]; rfl
  refine ⟨(s.computeFourierBasis (E.S _) none).2, ?_, fun c idx orig => ⟨hm, ⟨gr, hist ++ [.computeFourierBasis none], hb, hrun, rfl⟩, ?_, ⟨e, U, h2, h5, ?_, h7⟩⟩⟩
  · unfold prepare
    rw [if_pos h4]
    exact Prod.ext h1 rfl
  · simp only
    rw [show (s.computeFourierBasis (E.S bk) none).2 = runAll (E.S bk) [.computeFourierBasis none] s from rfl, runAll_lapType (hE bk) _ (hs ▸ (reach_inv (hE bk) hb hist).1)]
    simpa [lastType, requestedType] using hc
  · rw [← hL]; exact h6

/-- one pass on a connected bipartite graph -/
theorem pass {R : Type} {E : Env} (hE : ∀ n, Sound (E.S n)) {o : MrOptions} (h1 : o.sparsify = false) (h2 : o.knownDownsampling = true) (h3 : o.knownReduction = true) (h4 : o.fullEigen = true)
    (h5 : 0 < o.regEps) (eps : ℝ) (level : ℕ) {g : Node R} {M : Matrix (Fin g.n) (Fin g.n) ℝ} (hst : BStage E g M) (hu : Undirected M) (hnn : NonnegW M) (hcon : Connected M)
    {col : Fin g.n → Bool} (hcol : ∀ i j, M i j ≠ 0 → col i ≠ col j) (hside : ∃ v, v ≠ ⟨0, hst.pos⟩ ∧ col v = col ⟨0, hst.pos⟩) {c : Fin g.n → R} (hcc : g.coords = .rows c) :
    ∃ (g' : Node R) (s1 : GState g.n) (f : Fin g'.n → Fin g.n) (M' : Matrix (Fin g'.n) (Fin g'.n) ℝ), mrStep E o eps level g = (.ok g', { g with st := s1 }) ∧ s1.W.dense = M ∧ StrictMono f ∧
      (∀ i, (∃ a, f a = i) ↔ col i = col ⟨0, hst.pos⟩) ∧ g'.idx = (fun a => (f a).1) ∧ g'.orig = (fun a => g.orig (f a)) ∧ g'.coords = .rows (fun a => c (f a)) ∧ BStage E g' M' ∧
      NonnegW M' ∧ ∀ a b, M' a b = if a = b then 0 else ∑ v, M (f a) v * M v (f b) / ∑ y, M v y := by
  have hsW := stage_W hE hst
  obtain ⟨N, s, co, idx, orig⟩ := g
  obtain ⟨hN, ⟨gr, hist, hb, hs, hW⟩, hc, ⟨e, U, hbas, hU, hEig, hmon⟩⟩ := hst
  dsimp only at *
  have hlast := last_bipartite hu hnn hcon hcol hU hEig hmon hN
  set z : Fin N := ⟨0, hN⟩ with hz
  set l : Fin N := ⟨N - 1, Nat.sub_lt hN one_pos⟩ with hl
  obtain ⟨v1, hv1, hv1'⟩ := hside
  -- there is a vertex on the other side
  obtain ⟨v2, hv2⟩ : ∃ v2, col v2 ≠ col z := by
    rcases (hcon z v1).cases_head with h | ⟨y, h, -⟩
    · exact absurd h.symm hv1
    · exact ⟨y, by
        rcases h with h | h
        · exact (hcol _ _ h).symm
        · exact hcol _ _ h⟩
  obtain ⟨V, s1, hp, hV⟩ : ∃ V s1, polarity E s = (.ok V, s1) ∧ V = fun i => U i l * npSign (U z l) := by
    unfold polarity
    rw [dif_pos hN, hbas]
    simp only
    rw [dif_pos hN]
    refine ⟨_, _, rfl, ?_⟩
    funext i
    simp [hz, hl]
  obtain ⟨-, e1, e2, e3, e4⟩ := polarity_spec hp
  have hU0 : U z l ≠ 0 := fun h => by
    have := (hlast z).1 rfl
    rw [h, mul_zero] at this
    exact lt_irrefl _ this
  have hV' : ∀ i, 0 ≤ V i ↔ col i = col z := fun i => by
    have hq := RingPyramid.npSign_sq hU0
    have hsq : npSign (U z l) * npSign (U z l) = 1 := by
      unfold npSign
      split
      · norm_num
      · split
        · norm_num
        · exact absurd (le_antisymm (by linarith) (by linarith)) hU0
    have hprod : (U z l * npSign (U z l)) * V i = U z l * U i l := by
      rw [hV]
      linear_combination (U z l * U i l) * hsq
    obtain ⟨t1, t2⟩ := hlast i
    constructor
    · intro h
      by_contra hne
      have := t2 hne
      rw [← hprod] at this
      exact absurd (mul_nonneg hq.le h) (not_le.2 this)
    · intro h
      have := t1 h
      rw [← hprod] at this
      exact ((pos_iff_pos_of_mul_pos this).1 hq).le
  have hmono := positives_strictMono V
  have hinj := hmono.injective
  have hran : ∀ i, (∃ a, (positives V).get a = i) ↔ col i = col z := fun i => by
    rw [← hV' i, ← mem_positives]
    exact ⟨fun ⟨a, ha⟩ => ha ▸ List.get_mem _ _, fun h => List.get_of_mem h⟩
  have hlen : 2 ≤ (positives V).length := by
    obtain ⟨a, ha⟩ := (hran z).2 rfl
    obtain ⟨a1, ha1⟩ := (hran v1).2 hv1'
    have : a ≠ a1 := by
      rintro rfl
      exact hv1 (ha1.symm.trans ha)
    have h1 := a.2
    have h2 := a1.2
    by_contra hc
    exact this (Fin.ext (by omega))
  have hex : ∀ a, (positives V).get a ≠ v2 := fun a ha => hv2 ((hran v2).1 ⟨a, ha⟩)
  have hout : ∀ u, (∀ a, (positives V).get a ≠ u) ↔ col u ≠ col z := fun u => not_exists.symm.trans (not_congr (hran u))
  subst hW
  obtain ⟨g2, q1, b2, l2, hW2⟩ := C154_star_mesh (hE N) hb hist hs hc hu hnn hinj hlen ⟨v2, hex⟩ hcon (fun u v hu hv => by
    by_contra h
    have h1 := (hout u).1 hu
    have h2 := (hout v).1 hv
    have := hcol u v h
    revert h1 h2 this
    generalize col u = x1
    generalize col v = x2
    generalize col z = x3
    revert x1 x2 x3
    decide) c
  have hkg : kronGraph s1 (.rows c) (positives V).get = .ok (g2, .rows fun a => c ((positives V).get a)) := by
    rw [kronGraph_congr e1 e2 e3 e4]; exact q1
  have hL : s.L = combLap gr.W.dense := L_combinatorial (hE N) hb hist hs hc
  have hkm : ∃ M, kronMatrix (s1.L + o.regEps • (1 : Matrix (Fin N) (Fin N) ℝ)) (positives V).get = .ok M := by
    rw [e1, hL]
    have hdet : (Learning.uu (combLap gr.W.dense + o.regEps • (1 : Matrix (Fin N) (Fin N) ℝ)) (kept (positives V).get)).det ≠ 0 := by
      refine det_uu_posdef fun x hx => ?_
      rw [Matrix.add_mulVec, dotProduct_add, Matrix.smul_mulVec, Matrix.one_mulVec, dotProduct_smul]
      have q1 := Learning.combLap_psd hnn x
      obtain ⟨u, hu⟩ := Function.ne_iff.1 hx
      have q2 : 0 < x ⬝ᵥ x := by
        unfold dotProduct
        exact Finset.sum_pos' (fun _ _ => mul_self_nonneg _) ⟨u, Finset.mem_univ _, mul_self_pos.2 hu⟩
      have q3 : 0 < o.regEps • (x ⬝ᵥ x) := by rw [smul_eq_mul]; positivity
      have : (0 : ℝ) ≤ x ⬝ᵥ (combLap gr.W.dense *ᵥ x) := q1
      linarith
    exact ⟨_, kronMatrix_ok hinj (reg_symm (combLap_isSymm _) _) (by omega) ⟨_, (kept_false_iff _ _).2 hex⟩ hdet⟩
  obtain ⟨M, hM⟩ := hkm
  have hform : ∀ a b, g2.W.dense a b = if a = b then 0 else ∑ v, gr.W.dense ((positives V).get a) v * gr.W.dense v ((positives V).get b) / ∑ y, gr.W.dense v y := fun a b => by
    rw [hW2]
    refine if_congr Iff.rfl rfl ?_
    have h0 : gr.W.dense ((positives V).get a) ((positives V).get b) = 0 := by
      by_contra h
      exact hcol _ _ h (((hran _).1 ⟨a, rfl⟩).trans ((hran _).1 ⟨b, rfl⟩).symm)
    rw [h0, zero_add]
    refine Finset.sum_congr rfl fun v _ => ?_
    split
    · rfl
    · rename_i h
      push Not at h
      obtain ⟨a', ha'⟩ := h
      have : gr.W.dense ((positives V).get a) v = 0 := by
        by_contra h
        exact hcol _ _ h (((hran _).1 ⟨a, rfl⟩).trans ((hran _).1 ⟨a', ha'⟩).symm)
      rw [this, zero_mul, zero_div]
  have hnn2 : NonnegW g2.W.dense := fun a b => by
    rw [hform]
    split
    · exact le_rfl
    · exact Finset.sum_nonneg fun v _ => div_nonneg (mul_nonneg (hnn _ _) (hnn _ _)) (Finset.sum_nonneg fun y _ => hnn _ _)
  have hc2 : (runAll (E.S (positives V).length) [] (GState.ofGraph g2)).lapType = .combinatorial := by
    rw [(reach_inv (hE _) b2 []).2.2]
    simpa [lastType] using l2
  obtain ⟨st, hst, hstage⟩ := stage_of (R := R) hE h4 (by omega) b2 [] hnn2 hc2
  refine ⟨⟨(positives V).length, st, .rows fun a => c ((positives V).get a), fun a => ((positives V).get a).1, fun a => orig ((positives V).get a)⟩, s1, (positives V).get, g2.W.dense, ?_, ?_, hmono,
    hran, rfl, rfl, rfl, hstage _ _ _, hnn2, hform⟩
  · unfold mrStep
    rw [if_neg (by simp [h2])]
    simp only [hp]
    rw [if_neg (by simp [h3])]
    simp only [hcc, hkg]
    have : sparsifyLevel E o.sparsify eps level g2 (.rows fun a => c ((positives V).get a)) = .ok (g2, .rows fun a => c ((positives V).get a)) := by
      unfold sparsifyLevel
      rw [if_neg (by simp [h1])]
    have hst' : prepare E o.fullEigen (GState.ofGraph g2) = (.ok (), st) := hst
    simp only [this, hst', hM]
  · rw [← hsW]
    unfold GState.W
    rw [e2]

end BipartiteReduction

/-- **C154** One level of the multiresolution of a connected bipartite graph: whatever the eigensolver returns, the vertices that are kept are those on the side of vertex 0, in their order, and the
weight between two of them is the sum, over the vertices between them, of the product of the two weights divided by the degree. -/
theorem C154_bipartite_level {R : Type} {E : Env} (hE : ∀ n, Sound (E.S n)) {o : MrOptions} (h1 : o.sparsify = false) (h2 : o.knownDownsampling = true) (h3 : o.knownReduction = true)
    (h4 : o.fullEigen = true) (h5 : 0 < o.regEps) {g : Graph n ℝ} (hg : g.Built) (hist : List (Op n)) {s : GState n} (hs : s = runAll (E.S n) hist (GState.ofGraph g))
    (hc : s.lapType = .combinatorial) (hu : Undirected g.W.dense) (hW : NonnegW g.W.dense) (hcon : Connected g.W.dense) {col : Fin n → Bool} (hcol : ∀ i j, g.W.dense i j ≠ 0 → col i ≠ col j)
    (hn : 0 < n) (hside : ∃ v, v ≠ (⟨0, hn⟩ : Fin n) ∧ col v = col ⟨0, hn⟩) (c : Fin n → R) :
    ∃ (g0 g1 : Node R) (f : Fin g1.n → Fin n), graphMultiresolution E o 1 s (.rows c) = ([g0, g1], none) ∧ StrictMono f ∧ (∀ i, (∃ a, f a = i) ↔ col i = col ⟨0, hn⟩) ∧
      g1.coords = .rows (fun a => c (f a)) ∧ g1.idx = (fun a => (f a).1) ∧ ∀ a b, g1.st.W.dense a b = if a = b then 0 else ∑ v, g.W.dense (f a) v * g.W.dense v (f b) / ∑ y, g.W.dense v y := by
  subst hs
  obtain ⟨st, hst, hstage⟩ := BipartiteReduction.stage_of (R := R) hE h4 hn hg hist hW hc
  obtain ⟨g', s1, f, M', r1, -, r3, r4, r5, -, r7, r8, -, r10⟩ := BipartiteReduction.pass hE h1 h2 h3 h4 h5 (o.sparsifyEps.getD (min (10 / Real.sqrt n) (3 / 10))) 0
    (g := ⟨n, st, .rows c, fun i => i.1, fun i => i.1⟩) (hstage _ _ _) hu hW hcon hcol hside rfl
  refine ⟨⟨n, s1, .rows c, fun i => i.1, fun i => i.1⟩, g', f, ?_, r3, r4, r7, r5, fun a b => by rw [BipartiteReduction.stage_W hE r8]; exact r10 a b⟩
  unfold graphMultiresolution
  rw [hst]
  simp only [mrLoop]
  rw [r1]

namespace Spec

/-- The path with `n` vertices and the weight `w` on every edge. -/
noncomputable def wpath (n : ℕ) (w : ℝ) : Matrix (Fin n) (Fin n) ℝ := Matrix.of fun i j => if i.1 + 1 = j.1 ∨ j.1 + 1 = i.1 then w else 0

end Spec

namespace BipartiteReduction

theorem wpath_apply {w : ℝ} (i j : Fin n) : wpath n w i j = if i.1 + 1 = j.1 ∨ j.1 + 1 = i.1 then w else 0 := rfl

theorem wpath_undirected (w : ℝ) : Undirected (wpath n w) := fun i j => by
  rw [wpath_apply, wpath_apply]
  exact if_congr or_comm rfl rfl

theorem wpath_nonneg {w : ℝ} (hw : 0 < w) : NonnegW (wpath n w) := fun i j => by
  rw [wpath_apply]
  split
  · exact hw.le
  · exact le_rfl

theorem wpath_connected {w : ℝ} (hw : 0 < w) : Connected (wpath n w) := by
  have h0 : ∀ m (hm : m < n), Linked (wpath n w) ⟨0, by omega⟩ ⟨m, hm⟩ := by
    intro m
    induction m with
    | zero => intro _; exact .refl
    | succ m ih =>
      intro hm
      refine (ih (by omega)).tail (Or.inl ?_)
      rw [wpath_apply, if_pos (Or.inl rfl)]
      exact hw.ne'
  exact fun i j => (Linked.symm (h0 i.1 i.2)).trans (h0 j.1 j.2)

theorem wpath_col {w : ℝ} (i j : Fin n) (h : wpath n w i j ≠ 0) : decide (i.1 % 2 = 0) ≠ decide (j.1 % 2 = 0) := by
  rw [wpath_apply] at h
  have : i.1 + 1 = j.1 ∨ j.1 + 1 = i.1 := by
    by_contra h'
    exact h (if_neg h')
  intro h'
  have := decide_eq_decide.1 h'
  omega

/-- two steps of the path -/
theorem wpath_two {w : ℝ} (hw : 0 < w) {f : Fin k → Fin n} (hf : ∀ a, (f a).1 = 2 * a.1) (a b : Fin k) :
    (if a = b then 0 else ∑ v, wpath n w (f a) v * wpath n w v (f b) / ∑ y, wpath n w v y) = wpath k (w / 2) a b := by
  have ha := (f a).2
  have hb := (f b).2
  have fa := hf a
  have fb := hf b
  have hterm : ∀ v : Fin n, ¬ ((f a).1 + 1 = v.1 ∨ v.1 + 1 = (f a).1) ∨ ¬ (v.1 + 1 = (f b).1 ∨ (f b).1 + 1 = v.1) → wpath n w (f a) v * wpath n w v (f b) / ∑ y, wpath n w v y = 0 := fun v h => by
    rcases h with h | h
    · rw [wpath_apply, if_neg h, zero_mul, zero_div]
    · rw [wpath_apply v, if_neg h, mul_zero, zero_div]
  by_cases hab : a = b
  · subst hab
    rw [if_pos rfl, wpath_apply, if_neg (by omega)]
  · rw [if_neg hab, wpath_apply]
    have hval : ∀ v : Fin n, 0 < v.1 → v.1 + 1 < n → ∑ y, wpath n w v y = 2 * w := fun v h0 h1 => by
      have := KronClassical.sum_path v fun _ => w
      simp only [wpath_apply]
      rw [this, dif_pos h1, dif_pos h0]
      ring
    have hone : ∀ v : Fin n, 0 < v.1 → v.1 + 1 < n → ((f a).1 + 1 = v.1 ∨ v.1 + 1 = (f a).1) → (v.1 + 1 = (f b).1 ∨ (f b).1 + 1 = v.1) →
        wpath n w (f a) v * wpath n w v (f b) / ∑ y, wpath n w v y = w / 2 := fun v h0 h1 h2 h3 => by
      rw [hval v h0 h1, wpath_apply, wpath_apply, if_pos h2, if_pos h3]
      have := hw.ne'
      field_simp
    by_cases h : a.1 + 1 = b.1 ∨ b.1 + 1 = a.1
    · rw [if_pos h]
      have hlt : (f a).1 + (f b).1 < 2 * n := by omega
      rw [Finset.sum_eq_single (⟨a.1 + b.1, by omega⟩ : Fin n)]
      · exact hone _ (by simp only; omega) (by simp only; omega) (by simp only; omega) (by simp only; omega)
      · intro v _ hv
        refine hterm v ?_
        by_contra hcon
        push Not at hcon
        exact hv (Fin.ext (by simp only; omega))
      · exact fun h => absurd (Finset.mem_univ _) h
    · rw [if_neg h]
      refine Finset.sum_eq_zero fun v _ => hterm v ?_
      by_contra hcon
      push Not at hcon
      have : a.1 ≠ b.1 := fun h => hab (Fin.ext h)
      omega

theorem path_loop {R : Type} {E : Env} (hE : ∀ n, Sound (E.S n)) {o : MrOptions} (h1 : o.sparsify = false) (h2 : o.knownDownsampling = true) (h3 : o.knownReduction = true) (h4 : o.fullEigen = true)
    (h5 : 0 < o.regEps) (eps : ℝ) : ∀ (levels i : ℕ) {g : Node R} {w : ℝ}, 2 ^ levels < g.n → 0 < w → BStage E g (wpath g.n w) → ∀ {c : Fin g.n → R}, g.coords = .rows c →
    ∃ Gs, mrLoop E o eps levels i g = (Gs, none) ∧ Gs.length = levels + 1 ∧ ∀ (j : ℕ) (x : Node R), Gs[j]? = some x → x.n = (g.n + 2 ^ j - 1) / 2 ^ j ∧ x.st.W.dense = wpath x.n (w / 2 ^ j) ∧
      (∀ a (h : 2 ^ j * a.1 < g.n), x.orig a = g.orig ⟨2 ^ j * a.1, h⟩) ∧ ∃ c' : Fin x.n → R, x.coords = .rows c' ∧ ∀ a (h : 2 ^ j * a.1 < g.n), c' a = c ⟨2 ^ j * a.1, h⟩ := by
  intro levels
  induction levels with
  | zero =>
    intro i g w hn hw hst c hc
    refine ⟨[g], rfl, rfl, fun j x hj => ?_⟩
    obtain rfl : j = 0 := by
      have := (List.getElem?_eq_some_iff.1 hj).1
      simpa using this
    obtain rfl : g = x := by simpa using hj
    refine ⟨by simp, ?_, fun a h => ?_, c, hc, fun a h => ?_⟩
    · rw [pow_zero, div_one]; exact stage_W hE hst
    · exact congrArg g.orig (Fin.ext (by simp))
    · exact congrArg c (Fin.ext (by simp))
  | succ levels ih =>
    intro i g w hn hw hst c hc
    have h2l : 2 ^ (levels + 1) = 2 * 2 ^ levels := pow_succ' _ _
    have hpl : 0 < 2 ^ levels := by positivity
    obtain ⟨g', s1, f, M', hstep, hs1, hmono, hran, -, horig, hc', hst', -, hM'⟩ := pass hE h1 h2 h3 h4 h5 eps i hst (wpath_undirected w) (wpath_nonneg hw) (wpath_connected hw)
      (col := fun i => decide (i.1 % 2 = 0)) wpath_col ⟨⟨2, by omega⟩, fun h => by have := congrArg Fin.val h; simp at this, by simp⟩ hc
    obtain ⟨hn', hf⟩ := RingPyramid.enum_even (m := (g.n + 1) / 2) (f := fun a => (f a).1) (fun a b h => hmono h)
      (fun a => ⟨by simpa using (hran (f a)).1 ⟨a, rfl⟩, by have := (f a).2; omega⟩)
      (fun b hb => by
        obtain ⟨a, ha⟩ := (hran ⟨2 * b, by omega⟩).2 (by simp)
        exact ⟨a, by rw [ha]⟩)
    obtain rfl : M' = wpath g'.n (w / 2) := by
      ext a b
      rw [hM', wpath_two hw hf]
    obtain ⟨Gs, r1, r2, r3⟩ := ih (i + 1) (by omega) (half_pos hw) hst' hc'
    refine ⟨{ g with st := s1 } :: Gs, ?_, by simp [r2], fun j x hj => ?_⟩
    · unfold mrLoop
      rw [hstep]
      simp only [r1]
    · rcases j with _ | j
      · obtain rfl : { g with st := s1 } = x := by simpa using hj
        refine ⟨by simp, ?_, fun a h => ?_, c, hc, fun a h => ?_⟩
        · rw [pow_zero, div_one]; exact hs1
        · exact congrArg g.orig (Fin.ext (by simp))
        · exact congrArg c (Fin.ext (by simp))
      · obtain ⟨t1, t2, t4, cc, t5, t6⟩ := r3 j x (by simpa using hj)
        have hbd : ∀ a : Fin x.n, 2 ^ (j + 1) * a.1 < g.n → 2 ^ j * a.1 < g'.n ∧ 2 * (2 ^ j * a.1) = 2 ^ (j + 1) * a.1 := fun a h => by
          have e : 2 * (2 ^ j * a.1) = 2 ^ (j + 1) * a.1 := by rw [pow_succ]; ring
          exact ⟨by omega, e⟩
        refine ⟨?_, ?_, fun a h => ?_, cc, t5, fun a h => ?_⟩
        · rw [t1, hn', pow_succ', ← Nat.div_div_eq_div_mul]
          congr 1
          have : 0 < 2 ^ j := by positivity
          omega
        · rw [t2, pow_succ', div_div]
        · obtain ⟨e1, e2⟩ := hbd a h
          rw [t4 a e1, horig]
          exact congrArg g.orig (Fin.ext ((hf _).trans e2))
        · obtain ⟨e1, e2⟩ := hbd a h
          rw [t6 a e1]
          exact congrArg c (Fin.ext ((hf _).trans e2))

end BipartiteReduction

/-- **C154** The multiresolution of a path with more than `2 ^ levels` vertices, with complete Fourier bases and without sparsification: whatever the eigensolver returns, all levels are computed;
level `j` is the path of the vertices whose numbers are the multiples of `2 ^ j`, in their order, with weights `1 / 2 ^ j`, and with the coordinates of these vertices. -/
theorem C154_path_multiresolution {R : Type} {E : Env} (hE : ∀ n, Sound (E.S n)) {o : MrOptions} (h1 : o.sparsify = false) (h2 : o.knownDownsampling = true) (h3 : o.knownReduction = true)
    (h4 : o.fullEigen = true) (h5 : 0 < o.regEps) {levels N : ℕ} (hN : 2 ^ levels < N) {lt : LapType} (hlt : lt = .combinatorial ∨ lt = .normalized) {g : Graph N ℝ} (hg : path N false lt = .ok g)
    (hist : List (Op N)) {s : GState N} (hs : s = runAll (E.S N) hist (GState.ofGraph g)) (hc : s.lapType = .combinatorial) (c : Fin N → R) :
    ∃ Gs, graphMultiresolution E o levels s (.rows c) = (Gs, none) ∧ Gs.length = levels + 1 ∧
      ∀ (j : ℕ) (x : Node R), Gs[j]? = some x → x.n = (N + 2 ^ j - 1) / 2 ^ j ∧ x.st.W.dense = wpath x.n (1 / 2 ^ j) ∧ (∀ a, x.orig a = 2 ^ j * a.1) ∧
        ∃ c' : Fin x.n → R, x.coords = .rows c' ∧ ∀ a (h : 2 ^ j * a.1 < N), c' a = c ⟨2 ^ j * a.1, h⟩ := by
  have hN0 : 0 < N := lt_of_le_of_lt (Nat.zero_le _) hN
  obtain ⟨g0, p1, hb, -, hW⟩ := C67_weights hN0 false hlt
  rw [hg] at p1
  obtain rfl := Except.ok.inj p1
  have hW : g.W.dense = wpath N 1 := by
    ext i j
    rw [hW, BipartiteReduction.wpath_apply]
    simp
  subst hs
  obtain ⟨st, hst, hstage⟩ := BipartiteReduction.stage_of (R := R) hE h4 hN0 hb hist (hW ▸ BipartiteReduction.wpath_nonneg one_pos) hc
  rw [hW] at hstage
  obtain ⟨Gs, r1, r2, r3⟩ := BipartiteReduction.path_loop hE h1 h2 h3 h4 h5 (o.sparsifyEps.getD (min (10 / Real.sqrt N) (3 / 10))) levels 0 (g := ⟨N, st, .rows c, fun i => i.1, fun i => i.1⟩) hN one_pos
    (hstage _ _ _) rfl
  refine ⟨Gs, ?_, r2, fun j x hj => ?_⟩
  · unfold graphMultiresolution
    rw [hst]
    exact r1
  · obtain ⟨t1, t2, t4, c', t5, t6⟩ := r3 j x hj
    refine ⟨t1, t2, fun a => t4 a ?_, c', t5, t6⟩
    have ha := lt_of_lt_of_eq a.2 t1
    have hp : 0 < 2 ^ j := by positivity
    have h7 := (Nat.lt_div_iff_mul_lt hp).1 ha
    rw [mul_comm] at h7
    show 2 ^ j * a.1 < N
    simp only at h7
    omega

/-- the hypotheses are met: three levels of the path with ten vertices -/
example (pop : (n : ℕ) → Pop n) : ∃ (E : Env) (Gs : List (Node ℕ)) (s : GState 10), (∀ n, Sound (E.S n)) ∧ graphMultiresolution E { sparsify := false, fullEigen := true } 3 s (.rows fun i => i.1) = (Gs, none) ∧
    Gs.length = 4 ∧ ∀ x, Gs[2]? = some x → x.n = 3 ∧ x.st.W.dense = wpath x.n (1 / 4) ∧ ∀ a, x.orig a = 4 * a.1 := by
  choose S hS using fun n => exists_sound n
  let E : Env := ⟨S, fun _ _ _ => none, fun n L => 0, pop, fun _ _ _ => []⟩
  obtain ⟨g, hg, hbuilt, hl, -⟩ := C67_weights (N := 10) (by omega) false (lt := .combinatorial) (.inl rfl)
  obtain ⟨Gs, h1, h2, h3⟩ := C154_path_multiresolution (R := ℕ) (E := E) (fun n => (hS n).1) (o := { sparsify := false, fullEigen := true }) rfl rfl rfl rfl (by norm_num) (levels := 3) (by norm_num)
    (.inl rfl) hg [] rfl ((reach_inv (hS 10).1 hbuilt []).2.2.trans hl) (fun i => i.1)
  refine ⟨E, Gs, _, fun n => (hS n).1, h1, h2, fun x hx => ?_⟩
  obtain ⟨a, b, c, -⟩ := h3 2 x hx
  exact ⟨a, by rw [b]; norm_num, fun i => by rw [c]; norm_num⟩

/-- the hypotheses of `C154_bipartite_level` and of `C154_star_mesh` are met: the path with five vertices -/
example (pop : (n : ℕ) → Pop n) : ∃ (E : Env) (s : GState 5) (g0 g1 : Node ℕ) (f : Fin g1.n → Fin 5), (∀ n, Sound (E.S n)) ∧
    graphMultiresolution E { sparsify := false, fullEigen := true } 1 s (.rows fun i => i.1) = ([g0, g1], none) ∧ StrictMono f ∧ ∀ i, (∃ a, f a = i) ↔ i.1 % 2 = 0 := by
  choose S hS using fun n => exists_sound n
  let E : Env := ⟨S, fun _ _ _ => none, fun n L => 0, pop, fun _ _ _ => []⟩
  obtain ⟨g, hg, hb, hl, hW⟩ := C67_weights (N := 5) (by omega) false (lt := .combinatorial) (.inl rfl)
  have hW : g.W.dense = wpath 5 1 := by
    ext i j
    rw [hW, BipartiteReduction.wpath_apply]
    simp
  obtain ⟨g0, g1, f, h1, h2, h3, -⟩ := C154_bipartite_level (R := ℕ) (E := E) (fun n => (hS n).1) (o := { sparsify := false, fullEigen := true }) rfl rfl rfl rfl (by norm_num) hb [] rfl
    ((reach_inv (hS 5).1 hb []).2.2.trans hl) (hW ▸ BipartiteReduction.wpath_undirected _) (hW ▸ BipartiteReduction.wpath_nonneg one_pos) (hW ▸ BipartiteReduction.wpath_connected one_pos)
    (col := fun i => decide (i.1 % 2 = 0)) (fun i j h => BipartiteReduction.wpath_col i j (by rwa [hW] at h)) (by omega) ⟨2, by decide, by simp⟩ fun i => i.1
  exact ⟨E, _, g0, g1, f, fun n => (hS n).1, h1, h2, fun i => (h3 i).trans (by simp)⟩

/-- **C154** One level of the multiresolution of a grid without diagonals keeps the vertices of one colour of the checkerboard. -/
theorem C154_grid {R : Type} {E : Env} (hE : ∀ n, Sound (E.S n)) {o : MrOptions} (h1 : o.sparsify = false) (h2 : o.knownDownsampling = true) (h3 : o.knownReduction = true)
    (h4 : o.fullEigen = true) (h5 : 0 < o.regEps) {N1 N2 : ℕ} (hN1 : 0 < N1) (hN2 : 2 ≤ N2) (hN : 3 ≤ N1 * N2) {diagonal : ℝ} (hd : diagonal ≤ 0) {lt : LapType}
    (hlt : lt = .combinatorial ∨ lt = .normalized) {g : Graph (N1 * N2) ℝ} (hg : grid2d N1 N2 diagonal lt = .ok g) (hist : List (Op (N1 * N2))) {s : GState (N1 * N2)}
    (hs : s = runAll (E.S _) hist (GState.ofGraph g)) (hc : s.lapType = .combinatorial) (c : Fin (N1 * N2) → R) :
    ∃ (g0 g1 : Node R) (f : Fin g1.n → Fin (N1 * N2)), graphMultiresolution E o 1 s (.rows c) = ([g0, g1], none) ∧ StrictMono f ∧ (∀ i, (∃ a, f a = i) ↔ (i.1 / N2 + i.1 % N2) % 2 = 0) ∧
      g1.coords = .rows (fun a => c (f a)) ∧ g1.idx = (fun a => (f a).1) ∧ ∀ a b, g1.st.W.dense a b = if a = b then 0 else ∑ v, g.W.dense (f a) v * g.W.dense v (f b) / ∑ y, g.W.dense v y := by
  obtain ⟨g0, p1, hb, -, hW⟩ := C70_weights hN1 hN2 diagonal hlt
  rw [hg] at p1
  obtain rfl := Except.ok.inj p1
  obtain ⟨hu, hsc, -⟩ := C70_structure hN1 hN2 hlt hg
  rw [max_eq_right hd] at hW
  have hnn : NonnegW g.W.dense := fun i j => by
    rw [hW]
    split
    · exact zero_le_one
    · split <;> exact le_rfl
  have hcon : Connected g.W.dense := fun i j => by
    have := hsc i j
    induction this with
    | refl => exact .refl
    | tail _ h ih => exact ih.tail (Or.inl h)
  have hN0 : 0 < N1 * N2 := by omega
  have hcol : ∀ i j, g.W.dense i j ≠ 0 → decide ((i.1 / N2 + i.1 % N2) % 2 = 0) ≠ decide ((j.1 / N2 + j.1 % N2) % 2 = 0) := fun i j h => by
    rw [hW] at h
    have : ndist (i.1 / N2) (j.1 / N2) + ndist (i.1 % N2) (j.1 % N2) = 1 := by
      by_contra h'
      rw [if_neg h', ite_self] at h
      exact h rfl
    unfold ndist at this
    intro h'
    have := decide_eq_decide.1 h'
    omega
  obtain ⟨g0, g1, f, r1, r2, r3, r4⟩ := C154_bipartite_level hE h1 h2 h3 h4 h5 hb hist hs hc hu hnn hcon (col := fun i => decide ((i.1 / N2 + i.1 % N2) % 2 = 0)) hcol hN0 (by
    by_cases h : N2 = 2
    · subst h
      exact ⟨⟨3, by omega⟩, fun h => by have := congrArg Fin.val h; simp at this, by simp⟩
    · exact ⟨⟨2, by omega⟩, fun h => by have := congrArg Fin.val h; simp at this, by
        simp [Nat.div_eq_of_lt (show 2 < N2 by omega), Nat.mod_eq_of_lt (show 2 < N2 by omega)]⟩) c
  exact ⟨g0, g1, f, r1, r2, fun i => (r3 i).trans (by simp), r4⟩

/-- the hypotheses are met: the grid with three rows and three columns -/
example (pop : (n : ℕ) → Pop n) : ∃ (E : Env) (s : GState 9) (g0 g1 : Node ℕ) (f : Fin g1.n → Fin 9), (∀ n, Sound (E.S n)) ∧
    graphMultiresolution E { sparsify := false, fullEigen := true } 1 s (.rows fun i => i.1) = ([g0, g1], none) ∧ StrictMono f ∧ ∀ i, (∃ a, f a = i) ↔ (i.1 / 3 + i.1 % 3) % 2 = 0 := by
  choose S hS using fun n => exists_sound n
  let E : Env := ⟨S, fun _ _ _ => none, fun n L => 0, pop, fun _ _ _ => []⟩
  obtain ⟨g, hg, hb, hl, -⟩ := C70_weights (N1 := 3) (N2 := 3) (by omega) (by omega) 0 (lt := .combinatorial) (.inl rfl)
  obtain ⟨g0, g1, f, h1, h2, h3, -⟩ := C154_grid (R := ℕ) (E := E) (fun n => (hS n).1) (o := { sparsify := false, fullEigen := true }) rfl rfl rfl rfl (by norm_num) (by omega) (by omega) (by omega) le_rfl
    (.inl rfl) hg [] rfl ((reach_inv (hS 9).1 hb []).2.2.trans hl) fun i => i.1
  exact ⟨E, _, g0, g1, f, fun n => (hS n).1, h1, h2, h3⟩

end PyGSP
