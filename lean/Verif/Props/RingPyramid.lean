import Verif.Props.KronClassical

/-!
# C153: the multiresolution of a cycle is the dyadic one (continued)
-/

namespace PyGSP

open Matrix Reduction Spec GState Gen Learning

variable {n k : ℕ}

namespace RingPyramid

/-- The last Fourier mode of a connected regular graph with two sides has opposite signs on the two sides. -/
theorem last_sides {W : Matrix (Fin n) (Fin n) ℝ} (hu : Undirected W) (hW : NonnegW W) (hcon : Connected W) {d : ℝ} (hd : ∀ i, ∑ j, W i j = d) {z : Fin n → ℝ}
    (hz : ∀ i, z i = 1 ∨ z i = -1) (hzz : ∀ i j, W i j ≠ 0 → z j = - z i) {e : Fin n → ℝ} {U : Matrix (Fin n) (Fin n) ℝ} (hU : Uᵀ * U = 1) (hE : combLap W * U = U * Matrix.diagonal e)
    (he : Monotone e) (hn : 0 < n) : U ⟨0, hn⟩ ⟨n - 1, by omega⟩ ≠ 0 ∧ ∀ i, U i ⟨n - 1, by omega⟩ = z i * z ⟨0, hn⟩ * U ⟨0, hn⟩ ⟨n - 1, by omega⟩ := by
  have hUU : U * Uᵀ = 1 := mul_eq_one_comm.1 hU
  have hL : ∀ x : Fin n → ℝ, ∀ i, (combLap W *ᵥ x) i = d * x i - ∑ j, W i j * x j := fun x i => by
    rw [combLap_mulVec, ← hd i, Finset.sum_mul, ← Finset.sum_sub_distrib]
    exact Finset.sum_congr rfl fun j _ => by rw [KronClassical.wsym_of hu]; ring
  have hz2 : ∀ i, z i * z i = 1 := fun i => by rcases hz i with h | h <;> rw [h] <;> norm_num
  -- the largest frequency is at least twice the degree
  set c : Fin n := ⟨n - 1, by omega⟩ with hc
  have hLz : combLap W *ᵥ z = (2 * d) • z := by
    funext i
    rw [hL]
    have : ∀ j, W i j * z j = - (W i j * z i) := fun j => by
      by_cases h : W i j = 0
      · rw [h]; ring
      · rw [hzz i j h]; ring
    rw [Finset.sum_congr rfl fun j _ => this j, Finset.sum_neg_distrib, ← Finset.sum_mul, hd, Pi.smul_apply, smul_eq_mul]
    ring
  have hUL : Uᵀ * combLap W = Matrix.diagonal e * Uᵀ := by
    have : Uᵀ * (combLap W * U) * Uᵀ = Matrix.diagonal e * Uᵀ := by rw [hE, ← Matrix.mul_assoc, hU, Matrix.one_mul]
    rw [← this, Matrix.mul_assoc, Matrix.mul_assoc, hUU, Matrix.mul_one]
  have hce : 2 * d ≤ e c := by
    have h1 : ∀ j, e j * (Uᵀ *ᵥ z) j = 2 * d * (Uᵀ *ᵥ z) j := fun j => by
      have h2 : (Uᵀ * combLap W) *ᵥ z = (2 * d) • (Uᵀ *ᵥ z) := by rw [← Matrix.mulVec_mulVec, hLz, Matrix.mulVec_smul]
      rw [hUL, ← Matrix.mulVec_mulVec] at h2
      have := congrFun h2 j
      rw [Matrix.mulVec_diagonal, Pi.smul_apply, smul_eq_mul] at this
      exact this
    by_contra hlt
    push Not at hlt
    have h3 : Uᵀ *ᵥ z = 0 := by
      funext j
      have h4 : e j ≤ e c := he (Fin.le_def.2 (by have := j.2; simp only [hc]; omega))
      have h5 : (e j - 2 * d) * (Uᵀ *ᵥ z) j = 0 := by linarith [h1 j]
      exact (mul_eq_zero.1 h5).resolve_left (by linarith)
    have h6 : z = 0 := by
      have : (U * Uᵀ) *ᵥ z = 0 := by rw [← Matrix.mulVec_mulVec, h3, Matrix.mulVec_zero]
      rwa [hUU, Matrix.one_mulVec] at this
    have := hz2 ⟨0, hn⟩
    rw [h6] at this
    simp at this
  -- its mode changes sign along every edge
  set x : Fin n → ℝ := fun i => U i c with hx
  have hLx : ∀ i, d * x i - ∑ j, W i j * x j = e c * x i := fun i => by
    rw [← hL]
    have := congrFun (congrFun hE i) c
    rw [Matrix.mul_diagonal] at this
    rw [mul_comm (e c)]
    exact this
  have hsum : ∑ i, ∑ j, W i j * (x i + x j) ^ 2 = (4 * d - 2 * e c) * ∑ i, x i ^ 2 := by
    have hsw : ∑ i, ∑ j, W i j * x j ^ 2 = ∑ i, ∑ j, W i j * x i ^ 2 := by
      rw [Finset.sum_comm]
      exact Finset.sum_congr rfl fun i _ => Finset.sum_congr rfl fun j _ => by rw [hu]
    have hdx : ∑ i, ∑ j, W i j * x i ^ 2 = d * ∑ i, x i ^ 2 := by
      rw [Finset.mul_sum]
      exact Finset.sum_congr rfl fun i _ => by rw [← Finset.sum_mul, hd]
    have hxx : ∑ i, ∑ j, x i * (W i j * x j) = (d - e c) * ∑ i, x i ^ 2 := by
      rw [Finset.mul_sum]
      refine Finset.sum_congr rfl fun i _ => ?_
      rw [← Finset.mul_sum]
      have := hLx i
      linear_combination (-x i) * this
    have : ∀ i j, W i j * (x i + x j) ^ 2 = W i j * x i ^ 2 + W i j * x j ^ 2 + 2 * (x i * (W i j * x j)) := fun i j => by ring
    simp only [this, Finset.sum_add_distrib, ← Finset.mul_sum]
    simp only [← Finset.mul_sum] at hsw hdx hxx
    rw [hsw, hdx, hxx]
    ring
  have hnn : ∀ i j, 0 ≤ W i j * (x i + x j) ^ 2 := fun i j => mul_nonneg (hW i j) (sq_nonneg _)
  have hle : ∑ i, ∑ j, W i j * (x i + x j) ^ 2 ≤ 0 := by
    rw [hsum]
    exact mul_nonpos_of_nonpos_of_nonneg (by linarith) (Finset.sum_nonneg fun i _ => sq_nonneg _)
  have hzero : ∀ i j, W i j ≠ 0 → x j = - x i := fun i j hij => by
    have h1 := (Finset.sum_eq_zero_iff_of_nonneg fun i _ => Finset.sum_nonneg fun j _ => hnn i j).1 (le_antisymm hle (Finset.sum_nonneg fun i _ => Finset.sum_nonneg fun j _ => hnn i j)) i
      (Finset.mem_univ _)
    have h2 := (Finset.sum_eq_zero_iff_of_nonneg fun j _ => hnn i j).1 h1 j (Finset.mem_univ _)
    have h3 := pow_eq_zero_iff (two_ne_zero) |>.1 ((mul_eq_zero.1 h2).resolve_left hij)
    linarith
  have hprop : ∀ i, z i * x i = z ⟨0, hn⟩ * x ⟨0, hn⟩ := fun i => by
    have := hcon ⟨0, hn⟩ i
    induction this with
    | refl => rfl
    | tail _ hbc ih =>
      rw [← ih]
      rcases hbc with h | h
      · rw [hzero _ _ h, hzz _ _ h]; ring
      · rw [hzero _ _ h, hzz _ _ h]; ring
  have hval : ∀ i, x i = z i * z ⟨0, hn⟩ * x ⟨0, hn⟩ := fun i => by
    rw [mul_assoc, ← hprop i, ← mul_assoc, hz2, one_mul]
  refine ⟨fun h0 => ?_, hval⟩
  have h1 : (Uᵀ * U) c c = 0 := by
    rw [Matrix.mul_apply]
    refine Finset.sum_eq_zero fun i _ => ?_
    have h2 : x i = 0 := by rw [hval i]; exact mul_eq_zero_of_right _ h0
    rw [Matrix.transpose_apply]
    show x i * x i = 0
    rw [h2, mul_zero]
  rw [hU, Matrix.one_apply_eq] at h1
  exact one_ne_zero h1

/-- A graph of the list with the properties that one pass needs. -/
structure Stage {R : Type} (E : Env) (w : ℝ) (g : Node R) : Prop where
  pos : 0 < g.n
  reach : ∃ (gr : Graph g.n ℝ) (hist : List (Op g.n)), gr.Built ∧ g.st = runAll (E.S g.n) hist (GState.ofGraph gr) ∧ gr.W.dense = wcycle g.n w
  comb : g.st.lapType = .combinatorial
  basis : ∃ (e : Fin g.n → ℝ) (U : Matrix (Fin g.n) (Fin g.n) ℝ), g.st.basis = some ⟨g.n, e, U⟩ ∧ Uᵀ * U = 1 ∧ combLap (wcycle g.n w) * U = U * Matrix.diagonal e ∧ Monotone e

theorem stage_W {R : Type} {E : Env} (hE : ∀ n, Sound (E.S n)) {w : ℝ} {g : Node R} (h : Stage E w g) : g.st.W.dense = wcycle g.n w := by
  obtain ⟨gr, hist, hb, hs, hW⟩ := h.reach
  obtain ⟨-, hw, -⟩ := reach_inv (hE _) hb hist
  rw [hs, ← hW]
  exact congrArg Sp.dense hw

/-- preparing a graph -/
theorem stage_of {R : Type} {E : Env} (hE : ∀ n, Sound (E.S n)) {full : Bool} (h4 : full = true) {m : ℕ} (hm : 0 < m) {gr : Graph m ℝ} (hb : gr.Built) (hist : List (Op m))
    {w : ℝ} (hw : 0 < w) (hW : gr.W.dense = wcycle m w) (hc : (runAll (E.S m) hist (GState.ofGraph gr)).lapType = .combinatorial) :
    ∃ st, prepare E full (runAll (E.S m) hist (GState.ofGraph gr)) = (.ok (), st) ∧ ∀ (c : Coords m R) (idx orig : Fin m → ℕ), Stage E w ⟨m, st, c, idx, orig⟩ := by
  have hnn : NonnegW gr.W.dense := hW ▸ KronClassical.cycle_nonneg _ hw.le
  set s := runAll (E.S m) hist (GState.ofGraph gr) with hs
  obtain ⟨h1, b, h2, h3, h3', h5, h6, h7, -⟩ := C25_fourier_basis (hE m) hb hnn hist hs (Or.inl hc) none (by simpa using hm) (by simp) (Or.inl (by simp))
  simp only [Option.getD_none] at h3
  obtain ⟨bk, e, U⟩ := b
  obtain rfl : bk = m := le_antisymm h3' h3
  have hL : s.L = combLap gr.W.dense := L_combinatorial (hE _) hb hist hs hc
  have hrun : (s.computeFourierBasis (E.S bk) none).2 = runAll (E.S bk) (hist ++ [.computeFourierBasis none]) (GState.ofGraph gr) := by
    unfold runAll; rw [List.foldl_append]; rfl
  refine ⟨(s.computeFourierBasis (E.S _) none).2, ?_, fun c idx orig => ⟨hm, ⟨gr, hist ++ [.computeFourierBasis none], hb, hrun, hW⟩, ?_, ⟨e, U, h2, h5, ?_, h7⟩⟩⟩
  · unfold prepare
    rw [if_pos h4]
    exact Prod.ext h1 rfl
  · simp only
    rw [show (s.computeFourierBasis (E.S bk) none).2 = runAll (E.S bk) [.computeFourierBasis none] s from rfl, runAll_lapType (hE bk) _ (hs ▸ (reach_inv (hE bk) hb hist).1)]
    simpa [lastType, requestedType] using hc
  · rw [← hW, ← hL]; exact h6

theorem npSign_sq {x : ℝ} (h : x ≠ 0) : 0 < x * npSign x := by
  unfold npSign
  split
  · linarith
  · split
    · linarith
    · exact absurd (le_antisymm (by linarith) (by linarith)) h

/-- the alternating signs -/
noncomputable def alt {N : ℕ} (i : Fin N) : ℝ := if i.1 % 2 = 0 then 1 else -1

theorem cycle_alt {m : ℕ} {w : ℝ} (hN : n = 2 * m) (i j : Fin n) (h : wcycle n w i j ≠ 0) : alt j = - alt i := by
  have hi := i.2
  have hj := j.2
  have key : ∀ a b : ℕ, a < n → (a + 1) % n = b → b % 2 = (a + 1) % 2 := fun a b ha hab => by
    rcases Nat.lt_or_ge (a + 1) n with h | h
    · rw [Nat.mod_eq_of_lt h] at hab; omega
    · rw [show a + 1 = n by omega, Nat.mod_self] at hab; omega
  have hpar : j.1 % 2 = (i.1 + 1) % 2 := by
    by_cases h1 : (i.1 + 1) % n = j.1
    · exact key _ _ hi h1
    · by_cases h2 : (j.1 + 1) % n = i.1
      · have := key _ _ hj h2
        omega
      · exact absurd (by unfold wcycle; simp only [of_apply]; rw [if_neg h1, if_neg h2, add_zero]) h
  unfold alt
  split <;> split <;> first | omega | norm_num

/-- a strictly increasing enumeration of the even numbers below `2 * m` -/
theorem enum_even {m l : ℕ} {f : Fin l → ℕ} (hmono : StrictMono f) (hev : ∀ a, f a % 2 = 0 ∧ f a < 2 * m) (hsur : ∀ b, b < m → ∃ a, f a = 2 * b) : l = m ∧ ∀ a, f a = 2 * a.1 := by
  have hl : l = m := by
    apply le_antisymm
    · have : Function.Injective fun a : Fin l => (⟨f a / 2, by have := hev a; omega⟩ : Fin m) := fun a b h => hmono.injective (by
        have h1 := congrArg Fin.val h
        simp only at h1
        have := hev a; have := hev b; omega)
      simpa using Fintype.card_le_of_injective _ this
    · choose g hg using hsur
      have : Function.Injective fun b : Fin m => g b.1 b.2 := fun a b h => Fin.ext (by
        have h1 := hg a.1 a.2
        have h2 := hg b.1 b.2
        simp only at h
        rw [h] at h1
        omega)
      simpa using Fintype.card_le_of_injective _ this
  subst hl
  refine ⟨rfl, ?_⟩
  have h1 : ∀ k (hk : k < l), 2 * k ≤ f ⟨k, hk⟩ := by
    intro k
    induction k with
    | zero => intro _; omega
    | succ k ih =>
      intro hk
      have := hmono (show (⟨k, by omega⟩ : Fin l) < ⟨k + 1, hk⟩ from Fin.lt_def.2 (by simp))
      have h1 := ih (by omega)
      have h2 := hev ⟨k + 1, hk⟩
      omega
  have h2 : ∀ d k (hk : k < l), k + d + 1 = l → f ⟨k, hk⟩ ≤ 2 * k := by
    intro d
    induction d with
    | zero => intro k hk h; have := hev ⟨k, hk⟩; omega
    | succ d ih =>
      intro k hk h
      have h3 := ih (k + 1) (by omega) (by omega)
      have := hmono (show (⟨k, hk⟩ : Fin l) < ⟨k + 1, by omega⟩ from Fin.lt_def.2 (by simp))
      have h2 := hev ⟨k, hk⟩
      omega
  exact fun a => le_antisymm (h2 (l - 1 - a.1) a.1 a.2 (by have := a.2; omega)) (h1 a.1 a.2)

/-- one pass on a cycle -/
theorem pass {R : Type} {E : Env} (hE : ∀ n, Sound (E.S n)) {o : MrOptions} (h1 : o.sparsify = false) (h2 : o.knownDownsampling = true) (h3 : o.knownReduction = true) (h4 : o.fullEigen = true)
    (h5 : 0 < o.regEps) (eps : ℝ) (level : ℕ) {g : Node R} {m : ℕ} (hm : 2 ≤ m) (hn : g.n = 2 * m) {w : ℝ} (hw : 0 < w) (hst : Stage E w g) {c : Fin g.n → R} (hcc : g.coords = .rows c) :
    ∃ g' s1, mrStep E o eps level g = (.ok g', { g with st := s1 }) ∧ s1.W.dense = wcycle g.n w ∧ g'.n = m ∧ Stage E (w / 2) g' ∧ (∀ a, g'.idx a = 2 * a.1) ∧
      (∀ a (h : 2 * a.1 < g.n), g'.orig a = g.orig ⟨2 * a.1, h⟩) ∧ ∃ c', g'.coords = .rows c' ∧ ∀ a (h : 2 * a.1 < g.n), c' a = c ⟨2 * a.1, h⟩ := by
  have hsW := stage_W hE hst
  obtain ⟨N, s, co, idx, orig⟩ := g
  obtain ⟨hN, ⟨gr, hist, hb, hs, hW⟩, hc, ⟨e, U, hbas, hU, hEig, hmon⟩⟩ := hst
  dsimp only at *
  have hu := KronClassical.cycle_undirected N w
  have hnn := KronClassical.cycle_nonneg N hw.le
  have hcon : Connected (wcycle N w) := KronClassical.cycle_connected hw
  replace hn : N = 2 * m := hn
  have hdeg : ∀ i, ∑ j, wcycle N w i j = 2 * w := fun i => by
    have := KronClassical.sum_cycle hN w i fun _ => 1
    simp only [mul_one] at this
    rw [this]; ring
  obtain ⟨hU0, hUi⟩ := last_sides hu hnn hcon (d := 2 * w) hdeg (z := alt) (fun i => by unfold alt; split <;> simp) (fun i j => cycle_alt hn i j) hU hEig hmon hN
  obtain ⟨V, s1, hp, hV⟩ : ∃ V s1, polarity E s = (.ok V, s1) ∧ V = fun i => U i ⟨N - 1, Nat.sub_lt hN one_pos⟩ * npSign (U ⟨0, hN⟩ ⟨N - 1, Nat.sub_lt hN one_pos⟩) := by
    unfold polarity
    rw [dif_pos hN, hbas]
    simp only
    rw [dif_pos hN]
    refine ⟨_, _, rfl, ?_⟩
    funext i
    simp
  obtain ⟨-, e1, e2, e3, e4⟩ := polarity_spec hp
  have hV' : ∀ i, 0 ≤ V i ↔ i.1 % 2 = 0 := fun i => by
    have h0 : (alt (⟨0, hN⟩ : Fin N)) = 1 := by unfold alt; simp
    have : V i = alt i * (U ⟨0, hN⟩ ⟨N - 1, Nat.sub_lt hN one_pos⟩ * npSign (U ⟨0, hN⟩ ⟨N - 1, Nat.sub_lt hN one_pos⟩)) := by
      rw [hV]
      simp only
      rw [hUi i, h0]
      ring
    have hq := npSign_sq hU0
    rw [this]
    unfold alt
    split
    · rename_i h; exact ⟨fun _ => h, fun _ => by linarith⟩
    · rename_i h; exact ⟨fun h' => by linarith, fun h' => absurd h' h⟩
  obtain ⟨hl, hind⟩ := enum_even (m := m) (f := fun a => ((positives V).get a).1) (fun a b h => positives_strictMono V h)
    (fun a => ⟨(hV' _).1 (mem_positives.1 (List.get_mem _ _)), hn ▸ ((positives V).get a).2⟩)
    (fun b hb => by
      obtain ⟨a, ha⟩ := List.get_of_mem (mem_positives.2 ((hV' ⟨2 * b, by omega⟩).2 (by simp)))
      exact ⟨a, by rw [ha]⟩)
  have hinj := (positives_strictMono V).injective
  have hex : ∀ a, (positives V).get a ≠ ⟨1, by omega⟩ := fun a h => by
    have h1 := hind a
    rw [h] at h1
    simp only at h1
    omega
  obtain ⟨g2, q1, b2, l2, hW2⟩ := KronClassical.cycle_step hm hn (hE N) hb hist hs hc hw hW hl (ind := (positives V).get) hind c
  have hkg : kronGraph s1 (.rows c) (positives V).get = .ok (g2, .rows fun a => c ((positives V).get a)) := by
    rw [kronGraph_congr e1 e2 e3 e4]; exact q1
  have hL : s.L = combLap gr.W.dense := L_combinatorial (hE N) hb hist hs hc
  have hkm : ∃ M, kronMatrix (s1.L + o.regEps • (1 : Matrix (Fin N) (Fin N) ℝ)) (positives V).get = .ok M := by
    rw [e1, hL, hW]
    have hdet : (Learning.uu (combLap (wcycle N w) + o.regEps • (1 : Matrix (Fin N) (Fin N) ℝ)) (kept (positives V).get)).det ≠ 0 := by
      refine det_uu_posdef fun x hx => ?_
      rw [Matrix.add_mulVec, dotProduct_add, Matrix.smul_mulVec, Matrix.one_mulVec, dotProduct_smul]
      have q1 := Learning.combLap_psd hnn x
      obtain ⟨u, hu⟩ := Function.ne_iff.1 hx
      have q2 : 0 < x ⬝ᵥ x := by
        unfold dotProduct
        exact Finset.sum_pos' (fun _ _ => mul_self_nonneg _) ⟨u, Finset.mem_univ _, mul_self_pos.2 hu⟩
      have q3 : 0 < o.regEps • (x ⬝ᵥ x) := by rw [smul_eq_mul]; positivity
      have : (0 : ℝ) ≤ x ⬝ᵥ (combLap (wcycle N w) *ᵥ x) := q1
      linarith
    exact ⟨_, kronMatrix_ok hinj (reg_symm (combLap_isSymm _) _) (by omega) ⟨_, (kept_false_iff _ _).2 hex⟩ hdet⟩
  obtain ⟨M, hM⟩ := hkm
  have hc2 : (runAll (E.S (positives V).length) [] (GState.ofGraph g2)).lapType = .combinatorial := by
    rw [(reach_inv (hE _) b2 []).2.2]
    simpa [lastType] using l2
  obtain ⟨st, hst, hstage⟩ := stage_of (R := R) hE h4 (by omega) b2 [] (half_pos hw) hW2 hc2
  refine ⟨⟨(positives V).length, st, .rows fun a => c ((positives V).get a), fun a => ((positives V).get a).1, fun a => orig ((positives V).get a)⟩, s1, ?_, ?_, hl, hstage _ _ _, hind, ?_, ?_⟩
  · unfold mrStep
    rw [if_neg (by simp [h2])]
    simp only [hp]
    rw [if_neg (by simp [h3])]
    simp only [hcc, hkg]
    have : sparsifyLevel E o.sparsify eps level g2 (.rows fun a => c ((positives V).get a)) = .ok (g2, .rows fun a => c ((positives V).get a)) := by
      unfold sparsifyLevel
      rw [if_neg (by simp [h1])]
    have hst' : prepare E o.fullEigen (GState.ofGraph g2) = (.ok (), st) := hst
    simp only [this, hst', hM]
  · rw [← hsW]
    unfold GState.W
    rw [e2]
  · exact fun a h => congrArg orig (Fin.ext (hind a))
  · exact ⟨_, rfl, fun a h => congrArg c (Fin.ext (hind a))⟩

theorem loop {R : Type} {E : Env} (hE : ∀ n, Sound (E.S n)) {o : MrOptions} (h1 : o.sparsify = false) (h2 : o.knownDownsampling = true) (h3 : o.knownReduction = true) (h4 : o.fullEigen = true)
    (h5 : 0 < o.regEps) (eps : ℝ) {q : ℕ} (hq : 2 ≤ q) : ∀ (levels i : ℕ) {g : Node R} {w : ℝ}, g.n = 2 ^ levels * q → 0 < w → Stage E w g → ∀ {c : Fin g.n → R}, g.coords = .rows c →
    ∃ Gs, mrLoop E o eps levels i g = (Gs, none) ∧ Gs.length = levels + 1 ∧ ∀ (j : ℕ) (x : Node R), Gs[j]? = some x → x.n = 2 ^ (levels - j) * q ∧ x.st.W.dense = wcycle x.n (w / 2 ^ j) ∧
      (0 < j → ∀ a, x.idx a = 2 * a.1) ∧ (j = 0 → ∀ a (h : a.1 < g.n), x.idx a = g.idx ⟨a.1, h⟩) ∧ (∀ a (h : 2 ^ j * a.1 < g.n), x.orig a = g.orig ⟨2 ^ j * a.1, h⟩) ∧
      ∃ c' : Fin x.n → R, x.coords = .rows c' ∧ ∀ a (h : 2 ^ j * a.1 < g.n), c' a = c ⟨2 ^ j * a.1, h⟩ := by
  intro levels
  induction levels with
  | zero =>
    intro i g w hn hw hst c hc
    refine ⟨[g], rfl, rfl, fun j x hj => ?_⟩
    obtain rfl : j = 0 := by
      have := (List.getElem?_eq_some_iff.1 hj).1
      simpa using this
    obtain rfl : g = x := by simpa using hj
    refine ⟨hn, ?_, fun h => absurd h (lt_irrefl _), fun _ a h => rfl, fun a h => ?_, c, hc, fun a h => ?_⟩
    · rw [pow_zero, div_one]; exact stage_W hE hst
    · exact congrArg g.orig (Fin.ext (by simp))
    · exact congrArg c (Fin.ext (by simp))
  | succ levels ih =>
    intro i g w hn hw hst c hc
    have hm : 2 ≤ 2 ^ levels * q := le_trans hq (Nat.le_mul_of_pos_left _ (by positivity))
    obtain ⟨g', s1, hstep, hs1, hn', hst', hidx, horig, c', hc', hcc⟩ := pass hE h1 h2 h3 h4 h5 eps i hm (by rw [hn, pow_succ]; ring) hw hst hc
    obtain ⟨Gs, r1, r2, r3⟩ := ih (i + 1) hn' (half_pos hw) hst' hc'
    refine ⟨{ g with st := s1 } :: Gs, ?_, by simp [r2], fun j x hj => ?_⟩
    · unfold mrLoop
      rw [hstep]
      simp only [r1]
    · rcases j with _ | j
      · obtain rfl : { g with st := s1 } = x := by simpa using hj
        refine ⟨hn, ?_, fun h => absurd h (lt_irrefl _), fun _ a h => rfl, fun a h => ?_, c, hc, fun a h => ?_⟩
        · rw [pow_zero, div_one]; exact hs1
        · exact congrArg g.orig (Fin.ext (by simp))
        · exact congrArg c (Fin.ext (by simp))
      · obtain ⟨t1, t2, t3, t3', t4, cc, t5, t6⟩ := r3 j x (by simpa using hj)
        have hbd : ∀ a : Fin x.n, 2 ^ (j + 1) * a.1 < g.n → 2 ^ j * a.1 < g'.n ∧ 2 * (2 ^ j * a.1) = 2 ^ (j + 1) * a.1 := fun a h => by
          have e : 2 * (2 ^ j * a.1) = 2 ^ (j + 1) * a.1 := by rw [pow_succ]; ring
          have e' : g.n = 2 * g'.n := by rw [hn, hn', pow_succ]; ring
          exact ⟨by omega, e⟩
        refine ⟨by rw [t1, Nat.add_sub_add_right], ?_, fun _ => ?_, fun h => absurd h (Nat.succ_ne_zero _), fun a h => ?_, cc, t5, fun a h => ?_⟩
        · rw [t2, pow_succ', div_div]
        · rcases j with _ | j
          · intro a
            have ha : a.1 < g'.n := lt_of_lt_of_eq a.2 (by rw [t1, hn', Nat.sub_zero])
            rw [t3' rfl a ha, hidx]
          · exact t3 (by omega)
        · obtain ⟨e1, e2⟩ := hbd a h
          rw [t4 a e1, horig ⟨2 ^ j * a.1, e1⟩ (by simp only; omega)]
          exact congrArg g.orig (Fin.ext e2)
        · obtain ⟨e1, e2⟩ := hbd a h
          rw [t6 a e1, hcc ⟨2 ^ j * a.1, e1⟩ (by simp only; omega)]
          exact congrArg c (Fin.ext e2)

end RingPyramid

/-- **C153** The multiresolution of a cycle whose length is a multiple of `2 ^ levels`, with complete Fourier bases and without sparsification: whatever the eigensolver returns, all levels are
computed; level `j` is the cycle of the vertices whose numbers are the multiples of `2 ^ j`, in their order, with weights `1 / 2 ^ j`, and with the coordinates of these vertices. -/
theorem C153_multiresolution {R : Type} {E : Env} (hE : ∀ n, Sound (E.S n)) {o : MrOptions} (h1 : o.sparsify = false) (h2 : o.knownDownsampling = true) (h3 : o.knownReduction = true)
    (h4 : o.fullEigen = true) (h5 : 0 < o.regEps) (levels : ℕ) {q : ℕ} (hq : 2 ≤ q) (hN : 3 ≤ 2 ^ levels * q) {lt : LapType} (hlt : lt = .combinatorial ∨ lt = .normalized)
    {g : Graph (2 ^ levels * q) ℝ} (hg : ring (2 ^ levels * q) 1 lt = .ok g) (hist : List (Op (2 ^ levels * q))) {s : GState (2 ^ levels * q)}
    (hs : s = runAll (E.S _) hist (GState.ofGraph g)) (hc : s.lapType = .combinatorial) (c : Fin (2 ^ levels * q) → R) :
    ∃ Gs, graphMultiresolution E o levels s (.rows c) = (Gs, none) ∧ Gs.length = levels + 1 ∧
      ∀ (j : ℕ) (x : Node R), Gs[j]? = some x → x.n = 2 ^ (levels - j) * q ∧ x.st.W.dense = wcycle x.n (1 / 2 ^ j) ∧ (0 < j → ∀ a, x.idx a = 2 * a.1) ∧ (∀ a, x.orig a = 2 ^ j * a.1) ∧
        ∃ c' : Fin x.n → R, x.coords = .rows c' ∧ ∀ a (h : 2 ^ j * a.1 < 2 ^ levels * q), c' a = c ⟨2 ^ j * a.1, h⟩ := by
  obtain ⟨hb, hW⟩ := KronClassical.ring_wcycle hN hlt hg
  subst hs
  obtain ⟨st, hst, hstage⟩ := RingPyramid.stage_of (R := R) hE h4 (by omega) hb hist one_pos hW hc
  have hl := fun eps => RingPyramid.loop hE h1 h2 h3 h4 h5 eps hq levels 0 (g := ⟨2 ^ levels * q, st, .rows c, fun i => i.1, fun i => i.1⟩) rfl one_pos (hstage _ _ _) rfl
  obtain ⟨Gs, r1, r2, r3⟩ := hl (o.sparsifyEps.getD (min (10 / Real.sqrt ((2 ^ levels * q : ℕ) : ℝ)) (3 / 10)))
  refine ⟨Gs, ?_, r2, fun j x hj => ?_⟩
  · unfold graphMultiresolution
    rw [hst]
    exact r1
  · obtain ⟨t1, t2, t3, -, t4, c', t5, t6⟩ := r3 j x hj
    have hjl : j ≤ levels := by
      have := (List.getElem?_eq_some_iff.1 hj).1
      omega
    exact ⟨t1, t2, t3, fun a => t4 a (by
      have ha := lt_of_lt_of_eq a.2 t1
      calc 2 ^ j * a.1 < 2 ^ j * (2 ^ (levels - j) * q) := Nat.mul_lt_mul_of_pos_left ha (by positivity)
        _ = 2 ^ levels * q := by rw [← mul_assoc, ← pow_add, Nat.add_sub_cancel' hjl]), c', t5, t6⟩

/-- the hypotheses are met: three levels of the cycle with 16 vertices -/
example (pop : (n : ℕ) → Pop n) : ∃ (E : Env) (Gs : List (Node ℕ)) (s : GState 16), (∀ n, Sound (E.S n)) ∧ graphMultiresolution E { sparsify := false, fullEigen := true } 3 s (.rows fun i => i.1) = (Gs, none) ∧ Gs.length = 4 ∧
    ∀ x, Gs[2]? = some x → x.n = 4 ∧ x.st.W.dense = wcycle x.n (1 / 4) ∧ ∀ a, x.orig a = 4 * a.1 := by
  choose S hS using fun n => exists_sound n
  let E : Env := ⟨S, fun _ _ _ => none, fun n L => 0, pop, fun _ _ _ => []⟩
  obtain ⟨g, hg, hbuilt, hl, -⟩ := C68_weights (N := 16) (k := 1) (by omega) (by omega) (lt := .combinatorial) (.inl rfl)
  obtain ⟨Gs, h1, h2, h3⟩ := C153_multiresolution (R := ℕ) (E := E) (fun n => (hS n).1) (o := { sparsify := false, fullEigen := true }) rfl rfl rfl rfl (by norm_num) 3 (q := 2) le_rfl (by norm_num)
    (.inl rfl) hg [] rfl ((reach_inv (hS 16).1 ‹g.Built› []).2.2.trans hl) (fun i => i.1)
  refine ⟨E, Gs, _, fun n => (hS n).1, h1, h2, fun x hx => ?_⟩
  obtain ⟨a, b, -, c, -⟩ := h3 2 x hx
  exact ⟨a, by rw [b]; norm_num, fun i => by rw [c]; norm_num⟩

end PyGSP
