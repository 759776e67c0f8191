import Verif.Lemmas.Nodal
import Verif.Props.Bottleneck

/-!
# C118: where the Fourier modes change sign

`s` is a graph object on which `compute_fourier_basis()` has been called: `s.basis = some ⟨n, e, U⟩`.
-/

namespace PyGSP

open Matrix Spec GState Real

variable {n : ℕ} {S : Solvers n} {g : Graph n ℝ} {s : GState n} {e : Fin n → ℝ} {U : Matrix (Fin n) (Fin n) ℝ}

/-- There is an edge between `i` and `j`, in one direction at least. -/
def Spec.Edge (M : Matrix (Fin n) (Fin n) ℝ) (i j : Fin n) : Prop := M i j ≠ 0 ∨ M j i ≠ 0

theorem edge_of_wsym {M : Matrix (Fin n) (Fin n) ℝ} {i j : Fin n} (h : wsym M i j ≠ 0) : Edge M i j := by
  unfold Edge
  by_contra hc
  push Not at hc
  exact h (by unfold wsym; rw [hc.1, hc.2]; ring)

/-- the Laplacian has no positive entry off the diagonal, and its entries are edges -/
theorem Spec.Ready.off (h : Ready S g s) : s.Lᵀ = s.L ∧ (∀ i j, i ≠ j → s.L i j ≤ 0) ∧ ∀ i j, i ≠ j → s.L i j ≠ 0 → Edge g.W.dense i j := by
  have hl := h.lap
  have hcomb : ∀ i j, i ≠ j → combLap g.W.dense i j = - wsym g.W.dense i j := by
    intro i j hij
    simp [combLap, hij]
  rcases h.known with hk | hk
  · rw [hk, laplacian_comb] at hl
    rw [← Except.ok.inj hl]
    refine ⟨combLap_isSymm _, fun i j hij => ?_, fun i j hij h0 => ?_⟩
    · rw [hcomb i j hij]
      have := wsym_nonneg h.nonneg i j
      linarith
    · rw [hcomb i j hij] at h0
      exact edge_of_wsym (neg_ne_zero.1 h0)
  · rw [hk, laplacian_norm _ h.nonneg] at hl
    rw [← Except.ok.inj hl]
    have hn0 : ∀ i, 0 ≤ nscale g.W.dense i := by
      intro i
      unfold nscale
      split
      · exact le_rfl
      · positivity
    refine ⟨?_, fun i j hij => ?_, fun i j hij h0 => ?_⟩
    · ext i j
      simp only [Matrix.transpose_apply, Matrix.of_apply]
      rw [show combLap g.W.dense j i = combLap g.W.dense i j from congrFun (congrFun (combLap_isSymm g.W.dense) i) j]
      ring
    · simp only [Matrix.of_apply]
      rw [hcomb i j hij]
      have := mul_nonneg (mul_nonneg (hn0 i) (wsym_nonneg h.nonneg i j)) (hn0 j)
      linarith
    · simp only [Matrix.of_apply] at h0
      rw [hcomb i j hij] at h0
      refine edge_of_wsym fun hw => h0 ?_
      rw [hw]; ring

/-- **C118** A signal `x` with `L x = t x` has at most as many sign domains as there are frequencies up to `t`, repeated ones counted: among any larger number of vertices where `x` is
not zero, two can be joined along edges without leaving the vertices where `x` has their sign. -/
theorem C118_domains (h : Ready S g s) (hb : s.basis = some ⟨n, e, U⟩) {x : Fin n → ℝ} {t : ℝ} (hx : s.L *ᵥ x = t • x) (T : Finset (Fin n))
    (hT0 : ∀ v ∈ T, x v ≠ 0) (hT : ∀ v ∈ T, ∀ w ∈ T, v ≠ w → ¬ SameDomain (Edge g.W.dense) x v w) :
    T.card ≤ (Finset.univ.filter fun j => e j ≤ t).card := by
  obtain ⟨h1, h2, h3⟩ := h.off
  exact Nodal.card_le (h.pairs hb).1 h1 h2 (fun i j => Or.symm) h3 hx T hT0 hT

theorem col_smul (h : Ready S g s) (hb : s.basis = some ⟨n, e, U⟩) (k : Fin n) : s.L *ᵥ (fun i => U i k) = e k • fun i => U i k := by
  rw [col_eig (h.pairs hb).1]
  rfl

/-- **C118** The mode `k` (counted from zero), when its frequency is smaller than the next one, has at most `k + 1` sign domains. -/
theorem C118_mode (h : Ready S g s) (hb : s.basis = some ⟨n, e, U⟩) (k : Fin n) (hk : ∀ j, k < j → e k < e j) (T : Finset (Fin n))
    (hT0 : ∀ v ∈ T, U v k ≠ 0) (hT : ∀ v ∈ T, ∀ w ∈ T, v ≠ w → ¬ SameDomain (Edge g.W.dense) (fun i => U i k) v w) : T.card ≤ k + 1 := by
  refine (C118_domains h hb (col_smul h hb k) T hT0 hT).trans ?_
  calc (Finset.univ.filter fun j => e j ≤ e k).card ≤ (Finset.univ.filter fun j : Fin n => j ≤ k).card := by
        refine Finset.card_le_card fun j hj => ?_
        simp only [Finset.mem_filter, Finset.mem_univ, true_and] at hj ⊢
        by_contra hc
        exact absurd (hk j (not_le.1 hc)) (not_lt.2 hj)
    _ = k + 1 := by
        rw [show (Finset.univ.filter fun j : Fin n => j ≤ k) = Finset.Iic k by ext; simp, Fin.card_Iic]

/-- **C118** On a connected graph with the combinatorial Laplacian the first mode is constant and not zero, and every other one takes both signs. -/
theorem C118_oscillates (h : Ready S g s) (hlt : s.lapType = .combinatorial) (hb : s.basis = some ⟨n, e, U⟩) (hc : Connected g.W.dense) (k : Fin n) :
    (k.1 = 0 → ∃ c, c ≠ 0 ∧ ∀ v, U v k = c) ∧ (k.1 ≠ 0 → (∃ v, 0 < U v k) ∧ ∃ v, U v k < 0) := by
  obtain ⟨hE, hm⟩ := h.pairs hb
  have hpos : 0 < n := h.pos
  have hL := h.comb hlt
  have hne : ∀ j, (fun v => U v j) ≠ 0 := hE.col_ne_zero
  -- the first mode
  have h0 : e ⟨0, hpos⟩ = 0 := by
    have hz : IsEigenvalue s.L 0 := by
      refine ⟨fun _ => 1, fun q => one_ne_zero (congrFun q ⟨0, hpos⟩), ?_⟩
      rw [hL, combLap_const, zero_smul]
    obtain ⟨j, hj⟩ := hE.mem_of_complete rfl hz
    refine le_antisymm ?_ (h.eig_nonneg (hE.isEigenvalue _))
    rw [← hj]
    exact hm (Fin.mk_le_of_le_val (Nat.zero_le _))
  have hfirst : ∃ c, c ≠ 0 ∧ ∀ v, U v ⟨0, hpos⟩ = c := by
    have hk := col_smul h hb ⟨0, hpos⟩
    rw [h0, zero_smul, hL] at hk
    have hconst := combLap_ker h.nonneg hc hk
    refine ⟨U ⟨0, hpos⟩ ⟨0, hpos⟩, fun q => hne ⟨0, hpos⟩ (funext fun v => ?_), fun v => hconst v ⟨0, hpos⟩⟩
    exact (hconst v ⟨0, hpos⟩).trans q
  refine ⟨fun hk => ?_, fun hk => ?_⟩
  · rw [show k = ⟨0, hpos⟩ from Fin.ext hk]
    exact hfirst
  · obtain ⟨c, hc0, hcv⟩ := hfirst
    have horth := congrFun (congrFun hE.orthonormal ⟨0, hpos⟩) k
    rw [Matrix.mul_apply, Matrix.one_apply, if_neg (fun q => hk (congrArg Fin.val q).symm)] at horth
    simp only [Matrix.transpose_apply, hcv, ← Finset.mul_sum] at horth
    have hsum : ∑ v, U v k = 0 := (mul_eq_zero.1 horth).resolve_left hc0
    obtain ⟨w, hw⟩ := Function.ne_iff.1 (hne k)
    simp only [Pi.zero_apply] at hw
    constructor
    · by_contra hno
      push Not at hno
      exact hw ((Finset.sum_eq_zero_iff_of_nonpos fun v _ => hno v).1 hsum w (Finset.mem_univ w))
    · by_contra hno
      push Not at hno
      exact hw ((Finset.sum_eq_zero_iff_of_nonneg fun v _ => hno v).1 hsum w (Finset.mem_univ w))

theorem inside_of_fiedler (h : Ready S g s) (hb : s.basis = some ⟨n, e, U⟩) (hn : 1 < n) (hc : Connected g.W.dense) {y : Fin n → ℝ}
    (hy : ∀ i, 0 ≤ y i → (s.L *ᵥ y) i ≤ e ⟨1, hn⟩ * y i) (hedge : ∀ i j, i ≠ j → Edge g.W.dense i j → s.L i j ≠ 0) :
    LinkedInside (Edge g.W.dense) {i | 0 ≤ y i} := by
  obtain ⟨hE, hm⟩ := h.pairs hb
  obtain ⟨h1, h2, h3⟩ := h.off
  intro i hi j hj
  by_contra hij
  set A : Set (Fin n) := {v | Relation.ReflTransGen (fun a b => Edge g.W.dense a b ∧ a ∈ {i | 0 ≤ y i} ∧ b ∈ {i | 0 ≤ y i}) i v} with hA
  have hAy : ∀ v ∈ A, 0 ≤ y v := by
    intro v hv
    rcases Relation.ReflTransGen.cases_tail hv with rfl | ⟨w, -, hw⟩
    · exact hi
    · exact hw.2.2
  have hsplit := Nodal.fiedler hE hm h1 h2 hn hy (A := A) (B := {v | 0 ≤ y v ∧ v ∉ A})
    (fun v => ⟨fun hv => or_iff_not_imp_left.2 fun hvA => ⟨hv, hvA⟩, fun hv => hv.elim (hAy v) And.left⟩) (fun v hv hv' => hv'.2 hv)
    (fun a ha b hb' => by
      by_contra hne
      have hab : a ≠ b := fun q => hb'.2 (q ▸ ha)
      exact hb'.2 (Relation.ReflTransGen.tail ha ⟨h3 a b hab hne, hAy a ha, hb'.1⟩))
  -- an isolated piece contradicts the connectivity
  have hiso : ∀ (C : Set (Fin n)) (a b : Fin n), a ∈ C → b ∉ C → ¬ ∀ v ∈ C, ∀ w ∉ C, s.L v w = 0 := by
    intro C a b ha hb' hC
    have : ∀ w, Linked g.W.dense a w → w ∈ C := by
      intro w hw
      unfold Linked at hw
      induction hw with
      | refl => exact ha
      | @tail v w _ hvw ih =>
        by_contra hwC
        exact hedge v w (fun q => hwC (q ▸ ih)) hvw (hC v ih w hwC)
    exact hb' (this b (hc a b))
  rcases hsplit with hs | hs
  · exact hiso A i j Relation.ReflTransGen.refl hij hs
  · exact hiso {v | 0 ≤ y v ∧ v ∉ A} j i ⟨hj, hij⟩ (fun q => q.2 Relation.ReflTransGen.refl) hs

/-- **C118** (Fiedler) On a connected graph with the combinatorial Laplacian the second mode cuts the graph into connected parts: for every `c ≥ 0` the vertices where it is at
least `-c` are linked to each other inside that set, and so are those where it is at most `c`. -/
theorem C118_fiedler (h : Ready S g s) (hlt : s.lapType = .combinatorial) (hb : s.basis = some ⟨n, e, U⟩) (hn : 1 < n) (hc : Connected g.W.dense)
    {c : ℝ} (hc0 : 0 ≤ c) :
    LinkedInside (Edge g.W.dense) {i | -c ≤ U i ⟨1, hn⟩} ∧ LinkedInside (Edge g.W.dense) {i | U i ⟨1, hn⟩ ≤ c} := by
  obtain ⟨hE, -⟩ := h.pairs hb
  have hL := h.comb hlt
  have hpos : 0 ≤ e ⟨1, hn⟩ := h.eig_nonneg (hE.isEigenvalue _)
  have hedge : ∀ i j, i ≠ j → Edge g.W.dense i j → s.L i j ≠ 0 := by
    intro i j hij hed
    rw [hL]
    simp only [combLap, Matrix.of_apply, if_neg hij, zero_sub]
    have h1 := h.nonneg i j
    have h2 := h.nonneg j i
    unfold wsym
    rcases hed with q | q
    · have := lt_of_le_of_ne h1 (Ne.symm q)
      intro h0; linarith
    · have := lt_of_le_of_ne h2 (Ne.symm q)
      intro h0; linarith
  have hcol := col_smul h hb ⟨1, hn⟩
  constructor
  · have := inside_of_fiedler h hb hn hc (y := (fun i => U i ⟨1, hn⟩) + fun _ => c) (fun i _ => ?_) hedge
    · convert this using 3
      rw [Pi.add_apply]
      constructor <;> intro <;> linarith
    · rw [Matrix.mulVec_add, hcol]
      have : (s.L *ᵥ fun _ => c) = 0 := by rw [hL, combLap_const]
      rw [this]
      simp only [Pi.add_apply, Pi.smul_apply, smul_eq_mul, Pi.zero_apply]
      nlinarith
  · have := inside_of_fiedler h hb hn hc (y := -(fun i => U i ⟨1, hn⟩) + fun _ => c) (fun i _ => ?_) hedge
    · convert this using 3
      rw [Pi.add_apply, Pi.neg_apply]
      constructor <;> intro <;> linarith
    · rw [Matrix.mulVec_add, Matrix.mulVec_neg, hcol]
      have : (s.L *ᵥ fun _ => c) = 0 := by rw [hL, combLap_const]
      rw [this]
      simp only [Pi.add_apply, Pi.neg_apply, Pi.smul_apply, smul_eq_mul, Pi.zero_apply]
      nlinarith

/-- **C118** When the second mode is zero nowhere, its sign cuts a connected graph into exactly two parts, none empty, each linked inside itself. -/
theorem C118_bisection (h : Ready S g s) (hlt : s.lapType = .combinatorial) (hb : s.basis = some ⟨n, e, U⟩) (hn : 1 < n) (hc : Connected g.W.dense)
    (h0 : ∀ v, U v ⟨1, hn⟩ ≠ 0) :
    {v | 0 < U v ⟨1, hn⟩}.Nonempty ∧ {v | U v ⟨1, hn⟩ < 0}.Nonempty ∧ LinkedInside (Edge g.W.dense) {v | 0 < U v ⟨1, hn⟩} ∧
      LinkedInside (Edge g.W.dense) {v | U v ⟨1, hn⟩ < 0} := by
  obtain ⟨h1, h2⟩ := (C118_oscillates h hlt hb hc ⟨1, hn⟩).2 (by simp)
  obtain ⟨h3, h4⟩ := C118_fiedler h hlt hb hn hc (le_refl (0 : ℝ))
  refine ⟨h1, h2, ?_, ?_⟩
  · convert h3 using 3
    rw [neg_zero]
    exact ⟨le_of_lt, fun q => lt_of_le_of_ne q (h0 _).symm⟩
  · convert h4 using 3
    exact ⟨le_of_lt, fun q => lt_of_le_of_ne q (h0 _)⟩

/-! ### A graph that meets the hypotheses -/

theorem path4_rows {x : Fin 4 → ℝ} {t : ℝ} (hx : combLap path4 *ᵥ x = t • x) :
    x 0 - x 1 = t * x 0 ∧ 2 * x 1 - x 0 - x 2 = t * x 1 ∧ 2 * x 2 - x 1 - x 3 = t * x 2 ∧ x 3 - x 2 = t * x 3 := by
  have h : ∀ i, ∑ j, wsym path4 i j * (x i - x j) = t * x i := by
    intro i
    have := congrFun hx i
    rwa [combLap_mulVec] at this
  refine ⟨?_, ?_, ?_, ?_⟩
  · have := h 0
    simp [Fin.sum_univ_four, wsym, path4] at this
    linarith
  · have := h 1
    simp [Fin.sum_univ_four, wsym, path4] at this
    linarith
  · have := h 2
    simp [Fin.sum_univ_four, wsym, path4] at this
    linarith
  · have := h 3
    simp [Fin.sum_univ_four, wsym, path4] at this
    linarith

theorem path4_zero {x : Fin 4 → ℝ} {t : ℝ} (hx : combLap path4 *ᵥ x = t • x) {v : Fin 4} (hv : x v = 0) : x = 0 := by
  obtain ⟨r0, r1, r2, r3⟩ := path4_rows hx
  have h01 : x 0 = 0 → x 1 = 0 → x = 0 := by
    intro a b
    rw [a, b] at r1
    have c : x 2 = 0 := by linarith
    rw [b, c] at r2
    have d : x 3 = 0 := by linarith
    funext i
    fin_cases i <;> assumption
  have h32 : x 3 = 0 → x 2 = 0 → x = 0 := by
    intro a b
    rw [a, b] at r2
    have c : x 1 = 0 := by linarith
    rw [b, c] at r1
    exact h01 (by linarith) c
  fin_cases v
  · refine h01 hv ?_
    have hv : x 0 = 0 := hv
    rw [hv] at r0
    linarith
  · have hv : x 1 = 0 := hv
    rw [hv] at r0 r1 r2
    by_cases h : x 0 = 0
    · exact h01 h hv
    · have ht : t = 1 := mul_right_cancel₀ h (by linarith)
      subst ht
      have c : x 2 = 0 := by linarith
      exact absurd (by linarith) h
  · have hv : x 2 = 0 := hv
    rw [hv] at r1 r2 r3
    by_cases h : x 3 = 0
    · exact h32 h hv
    · have ht : t = 1 := mul_right_cancel₀ h (by linarith)
      subst ht
      have c : x 1 = 0 := by linarith
      exact absurd (by linarith) h
  · refine h32 hv ?_
    have hv : x 3 = 0 := hv
    rw [hv] at r3
    linarith

/-- The hypotheses are met: the path on four vertices after `compute_fourier_basis()`; its frequencies are all different and its modes are zero nowhere. -/
example : ∃ (S : Solvers 4) (g : Graph 4 ℝ) (s : GState 4) (e : Fin 4 → ℝ) (U : Matrix (Fin 4) (Fin 4) ℝ),
    g.W.dense = path4 ∧ Ready S g s ∧ s.lapType = .combinatorial ∧ s.basis = some ⟨4, e, U⟩ ∧ Connected g.W.dense ∧ (∀ k j, k < j → e k < e j) ∧
    ∀ k v, U v k ≠ 0 := by
  obtain ⟨S, g, s, hd, hr, hlt, -⟩ := exists_ready path4 path4_nonneg (by norm_num)
  obtain ⟨e, U, h1, h2, h3, hL, hl, hE, hm⟩ := C113_computed hr
  have hLc : s.L = combLap path4 := by rw [hr.comb hlt, hd]
  have hcol : ∀ k, combLap path4 *ᵥ (fun i => U i k) = e k • fun i => U i k := by
    intro k
    rw [← hLc, col_eig hE]
    rfl
  have hnz : ∀ k v, U v k ≠ 0 := fun k v hv => hE.col_ne_zero k (path4_zero (hcol k) hv)
  refine ⟨S, g, _, e, U, hd, h2, hl.trans hlt, h3, by rw [hd]; exact path4_connected, fun k j hkj => ?_, hnz⟩
  refine lt_of_le_of_ne (hm hkj.le) fun heq => ?_
  have hw : combLap path4 *ᵥ (U 0 j • (fun i => U i k) - U 0 k • fun i => U i j) = e k • (U 0 j • (fun i => U i k) - U 0 k • fun i => U i j) := by
    rw [Matrix.mulVec_sub, Matrix.mulVec_smul, Matrix.mulVec_smul, hcol k, hcol j, ← heq, smul_sub, smul_comm, smul_comm (U 0 k)]
  have h0 := path4_zero hw (v := 0) (by simp only [Pi.sub_apply, Pi.smul_apply, smul_eq_mul]; ring)
  have hkk : ∑ v, U v k * U v k = 1 := by
    have := congrFun (congrFun hE.orthonormal k) k
    rwa [Matrix.mul_apply, Matrix.one_apply_eq] at this
  have hjk : ∑ v, U v j * U v k = 0 := by
    have := congrFun (congrFun hE.orthonormal j) k
    rwa [Matrix.mul_apply, Matrix.one_apply_ne hkj.ne'] at this
  have : U 0 j * ∑ v, U v k * U v k - U 0 k * ∑ v, U v j * U v k = 0 := by
    rw [Finset.mul_sum, Finset.mul_sum, ← Finset.sum_sub_distrib]
    refine Finset.sum_eq_zero fun v _ => ?_
    have := congrFun h0 v
    simp only [Pi.sub_apply, Pi.smul_apply, smul_eq_mul, Pi.zero_apply] at this
    calc _ = (U 0 j * U v k - U 0 k * U v j) * U v k := by ring
      _ = 0 := by rw [this, zero_mul]
  rw [hkk, hjk] at this
  exact hnz j 0 (by linarith)

end PyGSP
