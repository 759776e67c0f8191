import Verif.Lemmas.Provenance
import Verif.Lemmas.PartialBasis
import Verif.Props.Clustering
import Verif.Props.Layout
import Verif.Props.HeatFlow

/-!
# C133: a partial Fourier basis is the beginning of the full one
-/

namespace PyGSP

open Matrix Spec GState Real Layout

variable {n : ℕ} {S : Solvers n} {g : Graph n ℝ} {s : GState n}

namespace Partial

theorem same_eig {k : ℕ} {L : Matrix (Fin n) (Fin n) ℝ} {e e' : Fin k → ℝ} {U : Matrix (Fin n) (Fin k) ℝ} (h : IsEigenPairs L e U) (h' : IsEigenPairs L e' U) : e = e' := by
  funext j
  have h1 := (h.mulVec j).symm.trans (h'.mulVec j)
  obtain ⟨i, hi⟩ := Function.ne_iff.1 (h.col_ne_zero j)
  exact mul_right_cancel₀ hi (congrFun h1 i)

/-- what a stored basis is -/
theorem stored (hS : Sound S) (hX : ExactSM S) (hg : g.Built) (hW : NonnegW g.W.dense) (ops : List (Op n)) (hs : s = runAll S ops (GState.ofGraph g))
    (hk : Known s.lapType) {b : Basis n} (hb : s.basis = some b) :
    (∀ i j, s.L i j = s.L j i) ∧ PSD s.L ∧ IsEigenPairs s.L b.e b.U ∧ Monotone b.e ∧ (∀ h : 0 < b.k, b.e ⟨0, h⟩ = 0) ∧ b.k ≤ n ∧
      ∀ {e : Fin n → ℝ} {U : Matrix (Fin n) (Fin n) ℝ}, IsEigenPairs s.L e U → Monotone e → ∀ (h : b.k ≤ n) j, b.e j = e (j.castLE h) := by
  obtain ⟨hi, hWs, -⟩ := reach_inv hS hg ops
  rw [← hs] at hi hWs
  have hW' : NonnegW s.W.dense := by rw [hWs]; exact hW
  have hp := reach_prov hS hg ops
  rw [← hs] at hp
  obtain ⟨h1, h2, h3, h4⟩ := (hi.basis b hb).exact (hi.psd hW') (fun hn => hi.zero hW' hn)
  have hle : b.k ≤ n := by rcases hp hk b hb with h | ⟨-, h, -⟩ <;> omega
  refine ⟨hi.L_symm, hi.psd hW', h1, h2, h4, hle, fun {e U} hE he h j => ?_⟩
  refine first hE he h1 h2 hi.L_symm h (fun j {x} hx => ?_) j
  rcases hp hk b hb with hn | ⟨hk0, hkn, t, e0, ht⟩
  · -- a complete basis: nothing is orthogonal to it
    obtain ⟨k, be, bU⟩ := b
    obtain rfl : k = n := hn
    have h0 : x = 0 := by
      have := congrArg (fun z => bU *ᵥ z) hx
      simpa only [Matrix.mulVec_mulVec, mul_eq_one_comm.1 h1.orthonormal, Matrix.one_mulVec, Matrix.mulVec_zero] using this
    rw [h0]
    simp
  · have h5 := (hS.eigshSM b.k t s.L hi.L_symm hk0 hkn _ ht).1
    have h6 : e0 = b.e := same_eig h5 h1
    subst h6
    exact outside hi.L_symm (hi.psd hW') h1 (hX b.k t s.L hi.L_symm hk0 hkn _ ht) j hx

theorem same_L (hS : Sound S) (hg : g.Built) (ops : List (Op n)) (hs : s = runAll S ops (GState.ofGraph g)) (hk : Known s.lapType)
    {S' : Solvers n} {s' : GState n} (h' : Ready S' g s') (hlt : s'.lapType = s.lapType) : s'.L = s.L := by
  obtain ⟨hist, hs'⟩ := h'.reached
  have h1 := (C18_laplacian hS hg ops hs).2 hk
  have h2 := (C18_laplacian h'.sound hg hist hs').2 h'.known
  rw [hlt, h1] at h2
  exact (Except.ok.inj h2).symm

end Partial

open Partial

variable {S' : Solvers n} {s' : GState n} {e : Fin n → ℝ} {U : Matrix (Fin n) (Fin n) ℝ}

/-- **C133** After any history, the `k` stored frequencies are the first `k` frequencies of the full basis of the same Laplacian (computed by any solver). -/
theorem C133_first (hS : Sound S) (hX : ExactSM S) (hg : g.Built) (ops : List (Op n)) (hs : s = runAll S ops (GState.ofGraph g)) (hk : Known s.lapType) {b : Basis n}
    (hb : s.basis = some b) (h' : Ready S' g s') (hlt : s'.lapType = s.lapType) (hb' : s'.basis = some ⟨n, e, U⟩) :
    ∃ hkn : b.k ≤ n, ∀ j, b.e j = e (j.castLE hkn) := by
  obtain ⟨-, -, -, -, -, hkn, h1⟩ := stored hS hX hg h'.nonneg ops hs hk hb
  have hL := same_L hS hg ops hs hk h' hlt
  exact ⟨hkn, h1 (hL ▸ (h'.pairs hb').1) (h'.pairs hb').2 hkn⟩

/-- **C133** `compute_fourier_basis(n_eigenvectors=k)` on a graph with fewer stored columns: it stores the first `k` frequencies. -/
theorem C133_computed (hS : Sound S) (hX : ExactSM S) (hC : Converges S) (hg : g.Built) (ops : List (Op n)) (hs : s = runAll S ops (GState.ofGraph g))
    (hk : Known s.lapType) {k : ℕ} (hb0 : ∀ b, s.basis = some b → b.k < k) (hk0 : 0 < k) (hkn : k ≤ n) (h' : Ready S' g s') (hlt : s'.lapType = s.lapType)
    (hb' : s'.basis = some ⟨n, e, U⟩) :
    (s.computeFourierBasis S (some k)).1 = .ok () ∧ ∃ (f : Fin k → ℝ) (V : Matrix (Fin n) (Fin k) ℝ),
      (s.computeFourierBasis S (some k)).2.basis = some ⟨k, f, V⟩ ∧ IsEigenPairs s.L f V ∧ ∀ j, f j = e (j.castLE hkn) := by
  obtain ⟨hi, hWs, -⟩ := reach_inv hS hg ops
  rw [← hs] at hi hWs
  have hW' : NonnegW s.W.dense := by rw [hWs]; exact h'.nonneg
  have hL := same_L hS hg ops hs hk h' hlt
  have hs2 : (s.computeFourierBasis S (some k)).2 = runAll S (ops ++ [.computeFourierBasis (some k)]) (GState.ofGraph g) := by
    rw [hs]; unfold runAll; rw [List.foldl_append]; rfl
  have hnb : s.hasBasis k = false := by
    unfold hasBasis
    split
    · rename_i b hb
      simpa using hb0 b hb
    · rfl
  obtain ⟨h1, ⟨k', f, V⟩, h2, h3, hL2, -, hlt2, -⟩ := computeFourierBasis_ok hS hi hW' h'.pos hk (some k) ⟨hk0, hkn⟩ (.inr fun t L => hC.2 _ t L) hnb
  obtain rfl : k' = k := h3
  obtain ⟨-, -, h4, -, -, -, h5⟩ := stored hS hX hg h'.nonneg _ hs2 (by rw [hlt2]; exact hk) h2
  rw [hL2] at h4 h5
  exact ⟨h1, f, V, h2, h4, h5 (hL ▸ (h'.pairs hb').1) (h'.pairs hb').2 hkn⟩

/-- **C133** Where the frequency `e[k]` differs from `e[k-1]`, the partial transform keeps the same part of the signal as the full one: `U (Uᵀ x)` is the sum of
the first `k` terms of the full Fourier series, and the energies agree. -/
theorem C133_projection (hS : Sound S) (hX : ExactSM S) (hg : g.Built) (ops : List (Op n)) (hs : s = runAll S ops (GState.ofGraph g)) (hk : Known s.lapType)
    {b : Basis n} (hb : s.basis = some b) (h' : Ready S' g s') (hlt : s'.lapType = s.lapType) (hb' : s'.basis = some ⟨n, e, U⟩)
    (hgap : ∀ i j : Fin n, i.1 < b.k → b.k ≤ j.1 → e i < e j) (x : Fin n → ℝ) :
    ∃ (y : Fin b.k → ℝ) (z : Fin n → ℝ) (hkn : b.k ≤ n), s.gft S ⟨n, x⟩ = (.ok ⟨b.k, y⟩, s) ∧ s'.gft S' ⟨n, x⟩ = (.ok ⟨n, z⟩, s') ∧
      (∀ v, (b.U *ᵥ y) v = ∑ i : Fin b.k, U v (i.castLE hkn) * z (i.castLE hkn)) ∧ ∑ i, y i ^ 2 = ∑ i : Fin b.k, z (i.castLE hkn) ^ 2 := by
  obtain ⟨hsym, hpsd, h1, h2, h3, hkn, h4⟩ := stored hS hX hg h'.nonneg ops hs hk hb
  have hL := same_L hS hg ops hs hk h' hlt
  have hE := (h'.pairs hb').1
  rw [hL] at hE
  have hfe := h4 hE (h'.pairs hb').2 hkn
  have hP := projection hE h1 hsym hkn fun j i hi => by rw [hfe]; exact hgap _ _ (by simp) hi
  refine ⟨b.Uᵀ *ᵥ x, Uᵀ *ᵥ x, hkn, ?_, gft_of hb' x, fun v => ?_, ?_⟩
  · unfold gft
    rw [getBasis_of hb]
    have : checkSignal n (⟨n, x⟩ : Rows ℝ) = .ok x := by
      unfold checkSignal
      simp
    rw [this]
    rfl
  · rw [Matrix.mulVec_mulVec, hP]
    simp only [Matrix.mulVec, dotProduct, Matrix.of_apply, Finset.sum_mul, Finset.mul_sum, Matrix.transpose_apply]
    rw [Finset.sum_comm]
    exact Finset.sum_congr rfl fun i _ => Finset.sum_congr rfl fun w _ => by ring
  · have h5 : ∑ i, (b.Uᵀ *ᵥ x) i ^ 2 = x ⬝ᵥ ((b.U * b.Uᵀ) *ᵥ x) := by
      rw [← Matrix.mulVec_mulVec, Matrix.dotProduct_mulVec, ← Matrix.mulVec_transpose]
      simp only [dotProduct]
      exact Finset.sum_congr rfl fun i _ => by ring
    rw [h5, hP]
    simp only [Matrix.mulVec, dotProduct, Matrix.of_apply, Finset.sum_mul, Finset.mul_sum, Matrix.transpose_apply, sq]
    rw [Finset.sum_congr rfl fun v _ => Finset.sum_comm, Finset.sum_comm]
    exact Finset.sum_congr rfl fun i _ => Finset.sum_congr rfl fun v _ => Finset.sum_congr rfl fun w _ => by ring

/-! ## Eigenmaps -/

/-- what the eigenmaps draw -/
theorem eigenmap_first (hS : Sound S) (hX : ExactSM S) (hg : g.Built) (ops : List (Op n)) {t : LState n} (ht : t.g = runAll S ops (GState.ofGraph g))
    (draw : (d : ℕ) → Fin n → Fin d → ℝ) (p : Spring n) {name : String} {d : ℕ}
    (hname : (name = "laplacian_eigenmap2D" ∧ d = 2) ∨ (name = "laplacian_eigenmap3D" ∧ d = 3)) (hn : d + 1 ≤ n) (hW : NonnegW g.W.dense)
    (hk : Known t.g.lapType) (hconv : ∀ τ L, (S.eigshSM (d + 1) τ L).isSome) :
    ∃ (f : Fin (d + 1) → ℝ) (V : Matrix (Fin n) (Fin (d + 1)) ℝ), (setCoordinates S draw (.name name) p t).1 = .ok () ∧
      (setCoordinates S draw (.name name) p t).2.coords = .array (.of2 fun i (j : Fin d) => V i j.succ) ∧ IsEigenPairs t.g.L f V ∧ f 0 = 0 ∧
      ∀ {e : Fin n → ℝ} {U : Matrix (Fin n) (Fin n) ℝ}, IsEigenPairs t.g.L e U → Monotone e → ∀ j, f j = e (j.castLE hn) := by
  obtain ⟨b, g', h1, h2, h3, -⟩ := eigenmap_basis hS hg ops ht hn hW hk hconv
  have hset : setCoordinates S draw (.name name) p t = eigenmap S d t := by
    rcases hname with ⟨rfl, rfl⟩ | ⟨rfl, rfl⟩ <;> rfl
  obtain ⟨hi, hWs, -⟩ := reach_inv hS hg ops
  rw [← ht] at hi hWs
  -- the graph that the call leaves behind
  have hreach : ∃ ops', g' = runAll S ops' (GState.ofGraph g) ∧ g'.lapType = t.g.lapType ∧ g'.base = t.g.base ∧ Inv S g' := by
    have hg' : (eigenmap S d t).2.g = g' := by rw [h1]
    rw [← hg']
    have hc := run_inv hS hi (.computeFourierBasis (some (d + 1)))
    have hcl := run_lapType hi (.computeFourierBasis (some (d + 1)))
    have hcb := run_base S (.computeFourierBasis (some (d + 1))) t.g
    have hcr : ((Op.computeFourierBasis (some (d + 1))).run S t.g).2 = runAll S (ops ++ [.computeFourierBasis (some (d + 1))]) (GState.ofGraph g) := by
      rw [ht]; unfold runAll; rw [List.foldl_append]; rfl
    change Inv S (t.g.computeFourierBasis S (some (d + 1))).2 at hc
    change (t.g.computeFourierBasis S (some (d + 1))).2.lapType = t.g.lapType at hcl
    change (t.g.computeFourierBasis S (some (d + 1))).2.base = t.g.base at hcb
    change (t.g.computeFourierBasis S (some (d + 1))).2 = _ at hcr
    unfold eigenmap
    generalize t.g.computeFourierBasis S (some (d + 1)) = r at hc hcl hcb hcr ⊢
    rcases r with ⟨_ | u, g1⟩
    · exact ⟨_, hcr, hcl, hcb, hc⟩
    · have hc2 := run_inv hS hc .getBasis
      have hcl2 := run_lapType hc .getBasis
      have hcb2 := run_base S .getBasis g1
      have hcr2 : (Op.getBasis.run S g1).2 = runAll S (ops ++ [.computeFourierBasis (some (d + 1))] ++ [.getBasis]) (GState.ofGraph g) := by
        simp only at hcr
        rw [hcr]; unfold runAll; rw [List.foldl_append (l' := [Op.getBasis])]; rfl
      change Inv S (g1.getBasis S).2 at hc2
      change (g1.getBasis S).2.lapType = g1.lapType at hcl2
      change (g1.getBasis S).2.base = g1.base at hcb2
      change (g1.getBasis S).2 = _ at hcr2
      simp only
      generalize g1.getBasis S = r2 at hc2 hcl2 hcb2 hcr2 ⊢
      rcases r2 with ⟨_ | _ | b', g2⟩
      · exact ⟨_, hcr2, hcl2.trans hcl, hcb2.trans hcb, hc2⟩
      · exact ⟨_, hcr2, hcl2.trans hcl, hcb2.trans hcb, hc2⟩
      · exact ⟨_, hcr2, hcl2.trans hcl, hcb2.trans hcb, hc2⟩
  obtain ⟨ops', hr, hl, hbase, hi'⟩ := hreach
  obtain ⟨hsym, hpsd, h4, h5, h6, hkn, h7⟩ := stored hS hX hg hW ops' hr (hl ▸ hk) h2
  rw [same_lap hi hi' hbase hk hl] at h4 h7
  refine ⟨fun j => b.e (j.castLE h3), Matrix.of fun i j => b.U i (j.castLE h3), by rw [hset, h1], ?_, ⟨?_, ?_⟩, h6 (by omega), fun {e U} hE he j => h7 hE he hkn _⟩
  · rw [hset, h1]
    simp only
    rw [of2_cast (show min (b.k - 1) d = d by omega)]
    rfl
  · ext i j
    have := congrFun (congrFun h4.orthonormal (i.castLE h3)) (j.castLE h3)
    rw [Matrix.mul_apply, Matrix.one_apply] at this
    rw [Matrix.mul_apply, Matrix.one_apply]
    refine Eq.trans ?_ (this.trans ?_)
    · rfl
    · simp only [(Fin.castLE_injective h3).eq_iff]
  · ext i j
    have := congrFun (congrFun h4.eig i) (j.castLE h3)
    rw [Matrix.mul_diagonal, Matrix.mul_apply] at this
    rw [Matrix.mul_diagonal, Matrix.mul_apply]
    exact this

/-- **C133** The eigenmaps are the layouts with orthonormal, centred coordinates whose edges are the shortest: the sum over the edges of the weight times the
squared length is at most that of any such layout. -/
theorem C133_eigenmap (hS : Sound S) (hX : ExactSM S) (hg : g.Built) (ops : List (Op n)) {t : LState n} (ht : t.g = runAll S ops (GState.ofGraph g))
    (draw : (d : ℕ) → Fin n → Fin d → ℝ) (p : Spring n) {name : String} {d : ℕ}
    (hname : (name = "laplacian_eigenmap2D" ∧ d = 2) ∨ (name = "laplacian_eigenmap3D" ∧ d = 3)) (hn : d + 1 ≤ n) (hW : NonnegW g.W.dense)
    (hl : t.g.lapType = .combinatorial) (hconv : ∀ τ L, (S.eigshSM (d + 1) τ L).isSome) :
    ∃ x : Fin n → Fin d → ℝ, (setCoordinates S draw (.name name) p t).1 = .ok () ∧
      (setCoordinates S draw (.name name) p t).2.coords = .array (.of2 x) ∧ (∀ j j', ∑ v, x v j * x v j' = if j = j' then 1 else 0) ∧
      ∀ y : Fin n → Fin d → ℝ, (∀ j j', ∑ v, y v j * y v j' = if j = j' then 1 else 0) → (∀ j, ∑ v, y v j = 0) →
        ∑ u, ∑ v, g.W.dense u v * ∑ j, (x u j - x v j) ^ 2 ≤ ∑ u, ∑ v, g.W.dense u v * ∑ j, (y u j - y v j) ^ 2 := by
  obtain ⟨f, V, h1, h2, h3, h4, h5⟩ := eigenmap_first hS hX hg ops ht draw p hname hn hW (.inl hl) hconv
  have hL := L_combinatorial hS hg ops ht hl
  have horth : ∀ a c, ∑ i, V i a * V i c = if a = c then 1 else 0 := fun a c => by
    have := congrFun (congrFun h3.orthonormal a) c
    rw [Matrix.mul_apply, Matrix.one_apply] at this
    exact this
  have hdir : ∀ y : Fin n → Fin d → ℝ, ∑ u, ∑ v, g.W.dense u v * ∑ j, (y u j - y v j) ^ 2 = 2 * ∑ j, dirichlet g.W.dense fun v => y v j := fun y => by
    unfold dirichlet
    rw [← Finset.mul_sum, ← mul_assoc]
    norm_num
    simp only [Finset.mul_sum]
    rw [Finset.sum_congr rfl fun u _ => Finset.sum_comm, Finset.sum_comm]
  refine ⟨fun v j => V v j.succ, h1, h2, fun j j' => ?_, fun y hy hy0 => ?_⟩
  · rw [horth]
    simp only [Fin.succ_inj]
  · obtain ⟨hi, -, -⟩ := reach_inv hS hg ops
    rw [← ht] at hi
    obtain ⟨e, U, hE, he⟩ := exists_eigh t.g.L hi.L_symm
    have hn0 : (0 : ℝ) < n := by
      have : 0 < n := by omega
      exact_mod_cast this
    -- the competitor, with the constant signal
    set Y : Matrix (Fin n) (Fin (d + 1)) ℝ := Matrix.of fun v => Fin.cons (1 / √n) (y v) with hY
    have hYY : Yᵀ * Y = 1 := by
      ext a c
      rw [Matrix.mul_apply, Matrix.one_apply]
      simp only [Matrix.transpose_apply, hY, Matrix.of_apply]
      refine Fin.cases ?_ (fun a => ?_) a <;> refine Fin.cases ?_ (fun c => ?_) c
      · simp only [Fin.cons_zero, Finset.sum_const, Finset.card_univ, Fintype.card_fin, nsmul_eq_mul, if_true]
        rw [div_mul_div_comm, one_mul, Real.mul_self_sqrt hn0.le]
        field_simp
      · simp only [Fin.cons_zero, Fin.cons_succ]
        rw [← Finset.mul_sum, hy0, mul_zero, if_neg (Fin.succ_ne_zero c).symm]
      · simp only [Fin.cons_zero, Fin.cons_succ]
        rw [← Finset.sum_mul, hy0, zero_mul, if_neg (Fin.succ_ne_zero a)]
      · simp only [Fin.cons_succ, hy, Fin.succ_inj]
    have hKF := kyFan hE he hn Y hYY
    rw [Fin.sum_univ_succ, Fin.sum_univ_succ (f := fun i => (fun v => Y v i) ⬝ᵥ (t.g.L *ᵥ fun v => Y v i))] at hKF
    have hz : (fun v => Y v 0) ⬝ᵥ (t.g.L *ᵥ fun v => Y v 0) = 0 := by
      have : (fun v => Y v 0) = fun _ => 1 / √n := by funext v; simp [hY]
      rw [this, hL, combLap_const]
      simp
    have he0 : e ((0 : Fin (d + 1)).castLE hn) = 0 := by rw [← h5 hE he, h4]
    rw [hz, he0, zero_add, zero_add] at hKF
    rw [hdir, hdir]
    refine mul_le_mul_of_nonneg_left ?_ (by norm_num)
    refine le_trans (le_of_eq ?_) (hKF.trans (le_of_eq ?_))
    · refine Finset.sum_congr rfl fun j _ => ?_
      rw [← h5 hE he j.succ, ← combLap_quad, ← hL, h3.mulVec j.succ, dotProduct_smul, smul_eq_mul]
      have := horth j.succ j.succ
      rw [if_pos rfl] at this
      simp only [dotProduct]
      rw [this, mul_one]
    · refine Finset.sum_congr rfl fun j _ => ?_
      rw [hL, combLap_quad]
      rfl

/-- **C133** The drawing of `d + 1` clusters of a connected graph: a vertex of a small enough cluster is drawn closer to the centre of its cluster than to the
centres of the others. -/
theorem C133_drawing {R : Type} (o : GraphObj n ℝ R) (hS : Sound S) (hX : ExactSM S) (hg : o.graph.Built) (hsig : (o.signals.map Prod.fst).Nodup) (ops : List (Op n))
    {t : LState n} (ht : t.g = runAll S ops (GState.ofGraph o.graph)) (draw : (d : ℕ) → Fin n → Fin d → ℝ) (p : Spring n) {name : String} {d : ℕ}
    (hname : (name = "laplacian_eigenmap2D" ∧ d = 2) ∨ (name = "laplacian_eigenmap3D" ∧ d = 3)) (hW : NonnegW o.graph.W.dense)
    (hl : t.g.lapType = .combinatorial) (hconv : ∀ τ L, (S.eigshSM (d + 1) τ L).isSome) (hcon : ∀ i j, Relation.EqvGen (Arc o.graph.W.dense) i j)
    {label : Fin n → Fin (d + 1)} (hs : Function.Surjective label) {α : ℝ} (hα : 0 < α) (hk : ∀ c, Knit o (members label c) α) :
    ∃ x : Fin n → Fin d → ℝ, (setCoordinates S draw (.name name) p t).1 = .ok () ∧
      (setCoordinates S draw (.name name) p t).2.coords = .array (.of2 x) ∧
      ∀ v, ratioCut o.graph.W.dense label * (4 * (members label (label v)).card + 1) < α → ∀ c, c ≠ label v →
        ∑ j, (x v j - clusterMean label (fun u => x u j) (label v)) ^ 2 < ∑ j, (x v j - clusterMean label (fun u => x u j) c) ^ 2 := by
  have hn : d + 1 ≤ n := by
    have := Fintype.card_le_of_surjective label hs
    simpa using this
  obtain ⟨f, V, h1, h2, h3, h4, h5⟩ := eigenmap_first hS hX hg ops ht draw p hname hn hW (.inl hl) hconv
  have hL := L_combinatorial hS hg ops ht hl
  have horth : ∀ a c, ∑ i, V i a * V i c = if a = c then 1 else 0 := fun a c => by
    have := congrFun (congrFun h3.orthonormal a) c
    rw [Matrix.mul_apply, Matrix.one_apply] at this
    exact this
  -- the first column is constant
  have hconst : ∀ i j, V i 0 = V j 0 := by
    have h00 : t.g.L *ᵥ (fun i => V i 0) = 0 := by rw [h3.mulVec, h4, zero_smul]
    obtain ⟨L, hL', hker⟩ := C27_kernel o.graph.W hW
    have hLs : t.g.L = L := by
      rw [hL]
      rw [laplacian_comb] at hL'
      exact Except.ok.inj hL'
    rw [hLs] at h00
    exact fun i j => (hker _).1 h00 i j (hcon i j)
  have hm0 : ∀ c u, clusterMean label (fun v => V v 0) c = V u 0 := fun c u => by
    unfold clusterMean
    rw [Finset.sum_congr rfl fun v _ => hconst v u, Finset.sum_const, nsmul_eq_mul]
    have := (Clusters.card_pos hs c).ne'
    field_simp
  obtain ⟨hi, -, -⟩ := reach_inv hS hg ops
  rw [← ht] at hi
  obtain ⟨e, U, hE, he⟩ := exists_eigh t.g.L hi.L_symm
  have hη : ∑ i, scatter label (fun v => V v i) ≤ ratioCut o.graph.W.dense label / α := by
    rw [le_div_iff₀ hα, Finset.sum_mul]
    refine (Finset.sum_le_sum fun i _ => ?_).trans ((Clusters.ratio hE he hs hn).trans (le_of_eq ?_))
    · rw [mul_comm]
      refine (Clusters.scatter_energy o hg hsig hW label hk _).trans (le_of_eq ?_)
      rw [← h5 hE he i, ← combLap_quad, ← hL, h3.mulVec i, dotProduct_smul, smul_eq_mul]
      have := horth i i
      rw [if_pos rfl] at this
      simp only [dotProduct]
      rw [this, mul_one]
    · unfold ratioCut
      refine Finset.sum_congr rfl fun c _ => ?_
      rw [hL, combLap_quad, Cheeger.dirichlet_ind]
  refine ⟨fun v j => V v j.succ, h1, h2, fun v hv c hc => ?_⟩
  by_contra hcon'
  have hdrop : ∀ c', ∑ i, (V v i - clusterMean label (fun u => V u i) c') ^ 2 = ∑ j : Fin d, (V v j.succ - clusterMean label (fun u => V u j.succ) c') ^ 2 := fun c' => by
    rw [Fin.sum_univ_succ, hm0 c' v]
    ring
  have hmis := Clusters.misplaced (x := fun i v => V v i) horth hη hs hc (by rw [hdrop, hdrop]; exact not_lt.1 hcon')
  have hsc : ∑ i, (V v i - clusterMean label (fun u => V u i) (label v)) ^ 2 ≤ ∑ i, scatter label (fun v => V v i) := by
    refine Finset.sum_le_sum fun i _ => ?_
    exact Finset.single_le_sum (f := fun v => (V v i - clusterMean label (fun u => V u i) (label v)) ^ 2) (fun _ _ => sq_nonneg _) (Finset.mem_univ v)
  set η := ratioCut o.graph.W.dense label / α with hηdef
  have hη0 : 0 ≤ η := (Finset.sum_nonneg fun i _ => Clusters.scatter_nonneg _).trans hη
  have hc0 := Clusters.card_pos hs (label v)
  have hc1 := Clusters.card_pos hs c
  have hηv : η * (4 * (members label (label v)).card + 1) < 1 := by
    rw [hηdef, div_mul_eq_mul_div, div_lt_one hα]; exact hv
  have hη1 : η < 1 := by nlinarith
  have h6 : (1 - η) * (1 / (members label (label v)).card) ≤ 4 * η := by
    refine le_trans ?_ (hmis.trans (mul_le_mul_of_nonneg_left (hsc.trans hη) (by norm_num)))
    refine mul_le_mul_of_nonneg_left ?_ (by linarith)
    have : (0 : ℝ) ≤ 1 / (members label c).card := by positivity
    linarith
  rw [mul_one_div, div_le_iff₀ hc0] at h6
  nlinarith

/-! ## Concrete cases -/

/-- The hypotheses of `C133_first`, `C133_computed` and `C133_projection` hold of a path of four vertices, of which one mode has been computed: its full basis has
a gap after the first frequency. -/
example : ∃ (g : Graph 4 ℝ) (S : Solvers 4) (s s' : GState 4) (e : Fin 4 → ℝ) (U : Matrix (Fin 4) (Fin 4) ℝ) (b : Basis 4), Sound S ∧ ExactSM S ∧ Converges S ∧ g.Built ∧
    s = runAll S [.computeFourierBasis (some 1)] (GState.ofGraph g) ∧ Known s.lapType ∧ s.basis = some b ∧ b.k = 1 ∧ Ready S g s' ∧ s'.lapType = s.lapType ∧
    s'.basis = some ⟨4, e, U⟩ ∧ (∀ i j : Fin 4, i.1 < b.k → b.k ≤ j.1 → e i < e j) ∧ (GState.ofGraph g).basis = none := by
  obtain ⟨g, hg, hd, hlt⟩ := Graph.exists_built (K := ℝ) path4
  obtain ⟨S, hS, hC, hX⟩ := exists_exact 4
  have h0 := GState.ofGraph_inv (S := S) g hg
  have hl : (GState.ofGraph g).lapType = .combinatorial := by rw [h0.2.2.1, hlt]
  have hr0 : Ready S g (GState.ofGraph g) := ⟨hS, hg, by rw [hd]; exact path4_nonneg, by norm_num, ⟨[], rfl⟩, .inl hl, by rw [h0.2.2.2.2.2]; intro b hb; cases hb⟩
  obtain ⟨e, U, -, hr, hb, -, hl', -⟩ := C113_computed hr0
  obtain ⟨-, f, V, hV, -⟩ := C133_computed (s := GState.ofGraph g) (k := 1) hS hX hC hg [] rfl (.inl hl) (by rw [h0.2.2.2.2.2]; simp) (by norm_num) (by norm_num) hr hl' hb
  have hlt2 : ((GState.ofGraph g).computeFourierBasis S (some 1)).2.lapType = (GState.ofGraph g).lapType := run_lapType h0.1 (.computeFourierBasis (some 1))
  refine ⟨g, S, ((GState.ofGraph g).computeFourierBasis S (some 1)).2, _, e, U, _, hS, hX, hC, hg, rfl, by rw [hlt2]; exact .inl hl, hV, rfl, hr, hl'.trans hlt2.symm, hb, ?_,
    h0.2.2.2.2.2⟩
  intro i j hi hj
  change i.1 < 1 at hi
  change 1 ≤ j.1 at hj
  obtain ⟨hE, hm⟩ := hr.pairs hb
  have h00 := Heat.first_zero hr hb (by norm_num)
  obtain rfl : i = ⟨0, by norm_num⟩ := Fin.ext (by simp; omega)
  rw [h00]
  refine lt_of_le_of_ne (hr.eig_nonneg (hE.isEigenvalue j)) fun hz => ?_
  -- two orthogonal constant signals
  have hcon : ∀ m : Fin 4, e m = 0 → ∀ u v, U u m = U v m := fun m hm0 u v => by
    have h1 := hE.mulVec m
    rw [hm0, zero_smul, hr.comb (hl'.trans hl), hd] at h1
    obtain ⟨L, hL', hker⟩ := C27_kernel g.W hr.nonneg
    have hLs : combLap g.W.dense = L := by
      rw [laplacian_comb] at hL'
      exact Except.ok.inj hL'
    have h5 := (hker fun i => U i m).1 (by rw [← hLs, hd]; exact h1)
    have hstep : ∀ a b : Fin 4, path4 a b ≠ 0 → U a m = U b m := fun a b hab => h5 a b (.rel _ _ (by show g.W.dense a b ≠ 0; rw [hd]; exact hab))
    have h01 := hstep 0 1 (by simp [path4])
    have h12 := hstep 1 2 (by simp [path4])
    have h23 := hstep 2 3 (by simp [path4])
    fin_cases u <;> fin_cases v <;> simp_all
  have ho := congrFun (congrFun hE.orthonormal ⟨0, by norm_num⟩) j
  have hd0 := congrFun (congrFun hE.orthonormal ⟨0, by norm_num⟩) ⟨0, by norm_num⟩
  have hdj := congrFun (congrFun hE.orthonormal j) j
  rw [Matrix.mul_apply, Matrix.one_apply_ne (fun h => by have := congrArg Fin.val h; simp at this; omega)] at ho
  rw [Matrix.mul_apply, Matrix.one_apply_eq] at hd0 hdj
  simp only [Matrix.transpose_apply] at ho hd0 hdj
  rw [Finset.sum_congr rfl fun x _ => by rw [hcon _ h00 x 0, hcon j hz.symm x 0]] at ho
  rw [Finset.sum_congr rfl fun x _ => by rw [hcon _ h00 x 0]] at hd0
  rw [Finset.sum_congr rfl fun x _ => by rw [hcon j hz.symm x 0]] at hdj
  simp at ho hd0 hdj
  rcases ho with h | h
  · rw [h] at hd0; norm_num at hd0
  · rw [h] at hdj; norm_num at hdj

/-- Three edges of weight one on a line, with weak links. -/
noncomputable def threePairs : Matrix (Fin 6) (Fin 6) ℝ :=
  !![0, 1, 0, 0, 0, 0; 1, 0, 1 / 20, 0, 0, 0; 0, 1 / 20, 0, 1, 0, 0; 0, 0, 1, 0, 1 / 20, 0; 0, 0, 0, 1 / 20, 0, 1; 0, 0, 0, 0, 1, 0]

/-- Which of the three edges a vertex belongs to. -/
def tripleOf : Fin 6 → Fin 3 := ![0, 0, 1, 1, 2, 2]

/-- The hypotheses of `C133_eigenmap` and `C133_drawing` hold of three linked edges, drawn in the plane. -/
example : ∃ (o : GraphObj 6 ℝ ℝ) (S : Solvers 6) (t : LState 6), Sound S ∧ ExactSM S ∧ o.graph.Built ∧ t.g = runAll S [] (GState.ofGraph o.graph) ∧
    NonnegW o.graph.W.dense ∧ t.g.lapType = .combinatorial ∧ (∀ τ L, (S.eigshSM (2 + 1) τ L).isSome) ∧ (∀ i j, Relation.EqvGen (Arc o.graph.W.dense) i j) ∧
    Function.Surjective tripleOf ∧ (∀ c, Knit o (members tripleOf c) 2) ∧
    ∀ v, ratioCut o.graph.W.dense tripleOf * (4 * (members tripleOf (tripleOf v)).card + 1) < 2 := by
  obtain ⟨g, hg, hd, hlt⟩ := Graph.exists_built (K := ℝ) threePairs
  obtain ⟨S, hS, hC, hX⟩ := exists_exact 6
  have h0 := GState.ofGraph_inv (S := S) g hg
  have hl : (GState.ofGraph g).lapType = .combinatorial := by rw [h0.2.2.1, hlt]
  have hnn : NonnegW g.W.dense := by
    rw [hd]; intro u v
    fin_cases u <;> fin_cases v <;> simp [threePairs]
  refine ⟨⟨g, none, []⟩, S, ⟨GState.ofGraph g, .unset, none⟩, hS, hX, hg, rfl, hnn, hl, fun τ L => hC.2 _ _ _, ?_, by decide, fun c => ?_, fun v => ?_⟩
  · have hstep : ∀ a b : Fin 6, threePairs a b ≠ 0 → Relation.EqvGen (Arc g.W.dense) a b := fun a b hab => .rel _ _ (by show g.W.dense a b ≠ 0; rw [hd]; exact hab)
    have h01 := hstep 0 1 (by simp [threePairs])
    have h12 := hstep 1 2 (by simp [threePairs])
    have h23 := hstep 2 3 (by simp [threePairs])
    have h34 := hstep 3 4 (by simp [threePairs])
    have h45 := hstep 4 5 (by simp [threePairs])
    have hz : ∀ i : Fin 6, Relation.EqvGen (Arc g.W.dense) 0 i := by
      intro i
      fin_cases i
      · exact .refl _
      · exact h01
      · exact h01.trans _ _ _ h12
      · exact (h01.trans _ _ _ h12).trans _ _ _ h23
      · exact ((h01.trans _ _ _ h12).trans _ _ _ h23).trans _ _ _ h34
      · exact (((h01.trans _ _ _ h12).trans _ _ _ h23).trans _ _ _ h34).trans _ _ _ h45
    exact fun i j => ((hz i).symm _ _).trans _ _ _ (hz j)
  · have key : ∀ a b : Fin 6, a ≠ b → (∀ v, v ∈ [a, b] ↔ v ∈ members tripleOf c) → threePairs a b = 1 → threePairs b a = 1 →
        Knit (⟨g, none, []⟩ : GraphObj 6 ℝ ℝ) (members tripleOf c) 2 := fun a b hab hmem h1 h2 =>
      knit_pair ⟨g, none, []⟩ hg (by simp) hlt hnn hab hmem (by show g.W.dense a b = 1; rw [hd]; exact h1) (by show g.W.dense b a = 1; rw [hd]; exact h2)
    fin_cases c
    · exact key 0 1 (by decide) (by decide) (by simp [threePairs]) (by simp [threePairs])
    · exact key 2 3 (by decide) (by decide) (by simp [threePairs]) (by simp [threePairs])
    · exact key 4 5 (by decide) (by decide) (by simp [threePairs]) (by simp [threePairs])
  · have hcard : ∀ c, (members tripleOf c).card = 2 := by decide
    have hm : members tripleOf 0 = {0, 1} ∧ members tripleOf 1 = {2, 3} ∧ members tripleOf 2 = {4, 5} := by decide
    have hc : ({0, 1} : Finset (Fin 6))ᶜ = {2, 3, 4, 5} ∧ ({2, 3} : Finset (Fin 6))ᶜ = {0, 1, 4, 5} ∧ ({4, 5} : Finset (Fin 6))ᶜ = {0, 1, 2, 3} := by decide
    have hcut : ratioCut g.W.dense tripleOf = 1 / 10 := by
      unfold ratioCut
      rw [Fin.sum_univ_three, hm.1, hm.2.1, hm.2.2, hd]
      unfold cut
      rw [hc.1, hc.2.1, hc.2.2]
      simp [wsym, threePairs]
      norm_num
    show ratioCut g.W.dense tripleOf * _ < 2
    rw [hcut, hcard]
    norm_num

end PyGSP
