import Verif.Props.PyramidExact

/-! # C64: the default parameters do not give perfect reconstruction -/

namespace PyGSP

open Matrix Spec GState Reduction Learning Polynomial

variable {n k : ℕ}

/-- two vertices and an edge -/
def edge2 : Matrix (Fin 2) (Fin 2) ℝ := !![0, 1; 1, 0]

theorem edge2_nonneg : NonnegW edge2 := by
  intro i j; fin_cases i <;> fin_cases j <;> simp [edge2]

theorem edge2_lap (x : Fin 2 → ℝ) : combLap edge2 *ᵥ x = ![x 0 - x 1, x 1 - x 0] := by
  funext i
  rw [combLap_mulVec]
  fin_cases i <;> simp [Fin.sum_univ_two, wsym, edge2]

theorem edge2_eig {t : ℝ} (h : IsEigenvalue (combLap edge2) t) : t = 0 ∨ t = 2 := by
  obtain ⟨x, hx, he⟩ := h
  rw [edge2_lap] at he
  have h0 := congrFun he 0
  have h1 := congrFun he 1
  simp only [Matrix.cons_val_zero, Matrix.cons_val_one, Pi.smul_apply, smul_eq_mul] at h0 h1
  by_cases ht : t = 0
  · exact .inl ht
  · right
    have h2 : t * (x 0 + x 1) = 0 := by linarith
    have h3 : x 0 + x 1 = 0 := by rcases mul_eq_zero.1 h2 with h | h
                                  · exact absurd h ht
                                  · exact h
    have h4 : x 0 ≠ 0 := by
      intro h5
      apply hx
      funext i
      fin_cases i
      · exact h5
      · simp only [Fin.mk_one, Pi.zero_apply]; linarith
    have h5 : (t - 2) * x 0 = 0 := by linarith
    rcases mul_eq_zero.1 h5 with h | h
    · linarith
    · exact absurd h h4

theorem edge2_two : IsEigenvalue (combLap edge2) 2 := by
  refine ⟨![1, -1], fun h => by have := congrFun h 0; simp at this, ?_⟩
  rw [edge2_lap]
  funext i
  fin_cases i <;> norm_num

/-- a polynomial of a matrix on an eigenvector -/
theorem aeval_eigvec {L : Matrix (Fin n) (Fin n) ℝ} {t : ℝ} {u : Fin n → ℝ} (h : L *ᵥ u = t • u) (p : ℝ[X]) :
    aeval L p *ᵥ u = p.eval t • u := by
  induction p using Polynomial.induction_on' with
  | add p q hp hq => rw [map_add, Matrix.add_mulVec, hp, hq, eval_add, add_smul]
  | monomial m a =>
    rw [aeval_monomial, eval_monomial, Algebra.algebraMap_eq_smul_one, Matrix.smul_mul, Matrix.one_mul, Matrix.smul_mulVec, mul_smul]
    congr 1
    induction m with
    | zero => simp
    | succ m ih => rw [pow_succ, ← Matrix.mulVec_mulVec, h, Matrix.mulVec_smul, ih, smul_smul, pow_succ, mul_comm]

/-- the operator of the default low-pass filter with Chebyshev filtering -/
theorem low_ops_cheb {S : Solvers n} {s : GState n} {l : ℝ} (h : (s.getLmax S).1 = .ok (some (.fin l))) (hl : 0 < l)
    {order : ℕ} (ho : order ≠ 0) :
    ∃ (q : ℝ[X]) (c : ℝ), |c| < 1 ∧ (X + C (1 / 2)) * q = 1 - C c * shiftedT l (order + 1) ∧
      (Bank.ofArg (.one defaultLow)).ops S .chebyshev order s = (.ok fun _ => aeval s.L (C (1 / 2) * q), (s.getLmax S).2) := by
  have hhalf : (0 : ℝ) < 1 / 2 := by norm_num
  obtain ⟨q, c, h1, h2, h3, h4⟩ := exists_green_poly hl hhalf order
  refine ⟨q, c, ?_, h3, ?_⟩
  · rw [h2]
    have := growth_strictMono hl hhalf (Nat.succ_pos order)
    have h0 : growth l (1 / 2) 0 = 1 := by simp [growth]
    rw [h0] at this
    exact (div_lt_one (by linarith)).2 this
  · have hev : (Bank.ofArg (.one defaultLow)).evaluate (chebNode l (order + 1)) =
        .ok fun _ j => 1 / (2 * chebNode l (order + 1) j + 1) := by
      unfold Bank.evaluate
      rw [seqFin_ok]
      intro i
      have : i = ⟨0, Nat.one_pos⟩ := Fin.ext (Nat.lt_one_iff.1 i.2)
      rw [this]
      change defaultLow _ _ = _
      unfold defaultLow
      rw [if_neg]
      push Not
      intro j
      have := chebNode_nonneg hl.le (order + 1) j
      positivity
    refine ops_cheb_poly h hl.ne' (by change (1 : ℕ) ≠ 0; norm_num) ho hev (fun _ => C (1 / 2) * q)
      (fun _ => (natDegree_C_mul_le _ _).trans h1) fun _ j => ?_
    have := chebNode_nonneg hl.le (order + 1) j
    rw [eval_mul, eval_C, h4]
    field_simp
    ring

/-- Violation: with the default parameters the analysis interpolates with order 100 and the synthesis with order 30, so that
the signal is not recovered: already on the graph with two vertices. -/
theorem C64_default_violated : ∃ (g : Level) (x : Fin g.n → ℝ), GoodLevel g ∧ g.n = 2 ∧
    ∃ cas pes gs' cap r t, pyramidAnalysis .chebyshev none g.n [g] [defaultLow] (Arr.of2 fun v (_ : Fin 1) => x v) =
        (.ok (cas, pes), gs') ∧ cas.getLast? = some cap ∧
      (synthesisLoop .chebyshev 30 cap gs' pes).1 = .ok (r :: t) ∧ r ≠ Arr.of2 fun v (_ : Fin 1) => x v := by
  obtain ⟨g, hg, hd, S, hS, s, hs, hk, ⟨b, hb, hbk⟩, l, ⟨hl0, hc, hlm, hup⟩, hget⟩ :=
    exists_setup edge2 edge2_nonneg (i := 0) (j := 1) (by decide) (by simp [edge2])
  have hW : NonnegW g.W.dense := by rw [hd]; exact edge2_nonneg
  have hL : s.L = combLap edge2 := by rw [← hd]; exact L_combinatorial hS hg _ hs hc
  have hgs : (s.getLmax S).2 = s := by unfold getLmax; rw [hlm]
  have hl2 : l = 2 := by
    have h1 : 2 ≤ l := hup 2 (by rw [hL]; exact edge2_two)
    have h0 := ofGraph_inv (S := S) g hg
    obtain ⟨-, b', hpos, -, -, e1, e2, -⟩ := C20_lmax_exact hS hg hW (by norm_num) [] (s := GState.ofGraph g) rfl
      (by rw [h0.2.2.1]; exact hg.lapType_known) (fun b' hb' => by rw [h0.2.2.2.2.2] at hb'; cases hb')
    have e3 : ((GState.ofGraph g).computeFourierBasis S none).2 = s := by rw [hs]; rfl
    rw [e3, hget] at e1
    simp only [Except.ok.injEq, Option.some.injEq, PyNum.fin.injEq] at e1
    rw [← e1, ← computeFourierBasis_L S none, e3, hL] at e2
    rcases edge2_eig e2 with h | h
    · linarith
    · exact h
  subst hl2
  have hgood : GoodLevel ⟨2, S, s, 1, ![0]⟩ := ⟨hS, ⟨g, _, hg, hW, hs⟩, le_rfl, hk,
    fun b' h' => by rw [hb] at h'; cases h'; exact hbk, fun a b _ => Subsingleton.elim a b, Nat.one_pos, ⟨1, by intro a; simp⟩⟩
  let u : Fin 2 → ℝ := ![1, -1]
  have hu : s.L *ᵥ u = (2 : ℝ) • u := by
    rw [hL, edge2_lap]
    funext i
    fin_cases i <;> norm_num [u]
  have hi : Function.Injective (![0] : Fin 1 → Fin 2) := fun a b _ => Subsingleton.elim a b
  have hel : ∃ v, ∀ a, (![0] : Fin 1 → Fin 2) a ≠ v := ⟨1, by intro a; simp⟩
  have heps : (0 : ℝ) < 1 / 200 := by norm_num
  -- the low-pass filter
  obtain ⟨q, c, hc1, hq, hlow⟩ := low_ops_cheb (S := S) hget hl0 (order := 30) (by norm_num)
  have hT1 : ∀ N, (shiftedT 2 N).eval 2 = 1 := fun N => by
    rw [shiftedT_eval]; norm_num
  have hq2 : q.eval 2 ≠ 0 := by
    intro h0
    have := congrArg (eval 2) hq
    rw [eval_mul, h0, mul_zero, eval_sub, eval_one, eval_mul, eval_C, hT1, mul_one] at this
    have h2 : c = 1 := by linarith
    rw [h2] at hc1
    norm_num at hc1
  set a : ℝ := 1 / 2 * q.eval 2 with ha
  have ha0 : a ≠ 0 := by rw [ha]; exact mul_ne_zero (by norm_num) hq2
  have hMu : aeval s.L (C (1 / 2) * q) *ᵥ u = a • u := by
    rw [aeval_eigvec hu, eval_mul, eval_C]
  -- the two interpolations
  obtain ⟨K, q3, c3, hK, hc3, ho3, hx3⟩ := interpolate_cheb_core hS hg _ hs hW le_rfl hi Nat.one_pos hel heps hl0 hget
    (order := 30) (by norm_num)
  obtain ⟨K', q1, c1, hK', hc1', ho1, hx1⟩ := interpolate_cheb_core hS hg _ hs hW le_rfl hi Nat.one_pos hel heps hl0 hget
    (order := 100) (by norm_num)
  rw [hK] at hK'
  obtain rfl : K = K' := Except.ok.inj hK'
  have hcc : c3 ≠ c1 := by
    intro h
    rw [h, hc1'] at hc3
    have h1 := growth_strictMono hl0 heps (show 30 + 1 < 100 + 1 by norm_num)
    have h2 := growth_pos hl0 heps (30 + 1)
    have h3 : 1 / growth 2 (1 / 200) (100 + 1) < 1 / growth 2 (1 / 200) (30 + 1) := one_div_lt_one_div_of_lt h2 h1
    linarith
  obtain ⟨v, w, hv, -, -, -⟩ := C63_chebyshev hS hg _ hs hW le_rfl hi Nat.one_pos hel heps hl0 hget (order := 30) (by norm_num) hup
    fun _ => a
  have hsym : s.Lᵀ = s.L := by rw [hL]; exact combLap_isSymm _
  have hv1 : v 0 - v 1 ≠ 0 := by
    obtain ⟨hinv, hWs, -⟩ := reach_inv hS hg _
    rw [← hs] at hinv hWs
    have h1 := currents_of_interpolation hi hsym (hinv.psd (by rw [hWs]; exact hW)) heps hv (u := 1)
      ((kept_false_iff _ _).2 (by intro a; simp))
    rw [Matrix.add_mulVec, Matrix.smul_mulVec, Matrix.one_mulVec, Pi.add_apply, Pi.smul_apply, smul_eq_mul, hL, edge2_lap] at h1
    simp only [Matrix.cons_val_one] at h1
    have h2 : v 0 = a := hv.1 0
    intro h3
    apply ha0
    simp only [Matrix.cons_val_fin_one] at h1
    linarith
  have hdot : ∀ (cc : ℝ) (N : ℕ), (v - cc • (aeval s.L (shiftedT 2 N) *ᵥ v)) ⬝ᵥ u = (1 - cc) * (v 0 - v 1) := by
    intro cc N
    have h1 : (aeval s.L (shiftedT 2 N) *ᵥ v) ⬝ᵥ u = v ⬝ᵥ u := by
      rw [dotProduct_comm, Matrix.dotProduct_mulVec, ← Matrix.mulVec_transpose, aeval_symm hsym, aeval_eigvec hu, hT1, one_smul,
        dotProduct_comm]
    rw [sub_dotProduct, smul_dotProduct, h1]
    simp only [dotProduct, Fin.sum_univ_two, u, Matrix.cons_val_zero, Matrix.cons_val_one, smul_eq_mul]
    ring
  rw [hgs] at hlow ho3 ho1
  have hn1 : (2 : ℕ) ≠ 1 := by norm_num
  have l1 := analysis_col hn1 hlow (fun w (_ : Fin 1) => u w)
  simp only [hMu] at l1
  have ext : ∀ (qq : ℝ[X]) (o : ℕ), (Bank.ofArg (.one (greenKernel (1 / 200)))).ops S .chebyshev o s = (.ok fun _ => aeval s.L qq, s) →
      interpolate S true (Arr.of2 fun (_ : Fin 1) (_ : Fin 1) => a) ![0] o (1 / 200) .chebyshev s =
        (.ok (Arr.of2 fun v (_ : Fin 1) => (aeval s.L qq *ᵥ scatter K ![0] fun _ => a) v), s) := by
    intro qq o h
    exact interpolate_intro hK (scatterArr_of2 K _ _) (analysis_col hn1 h _)
  have i1 := ext q1 100 ho1
  have i3 := ext q3 30 ho3
  have tk : takeRows (Arr.of2 fun v (_ : Fin 1) => (a • u) v) (fun b : Fin 1 => ((![0] : Fin 1 → Fin 2) b).1) =
      .ok (Arr.of2 fun (_ : Fin 1) (_ : Fin 1) => a) := by
    rw [takeRows_ok]
    simp [u]
  set p1 := aeval s.L q1 *ᵥ scatter K ![0] fun _ => a with hp1
  set p3 := aeval s.L q3 *ᵥ scatter K ![0] fun _ => a with hp3
  refine ⟨⟨2, S, s, 1, ![0]⟩, u, hgood, rfl, [Arr.of2 fun v (_ : Fin 1) => u v, Arr.of2 fun (_ : Fin 1) (_ : Fin 1) => a],
    [Arr.of2 fun v (_ : Fin 1) => u v - p1 v], [⟨2, S, s, 1, ![0]⟩], Arr.of2 fun (_ : Fin 1) (_ : Fin 1) => a, Arr.of2 fun v (_ : Fin 1) => p3 v + (u v - p1 v),
    [Arr.of2 fun (_ : Fin 1) (_ : Fin 1) => a], ?_, rfl, ?_, ?_⟩
  · unfold pyramidAnalysis
    rw [if_neg (by simp [Arr.of2])]
    simp only [List.length_cons, List.length_nil, List.replicate_succ, List.replicate_zero, analysisLoop, Option.getD_none]
    rw [l1]
    simp only
    rw [tk]
    simp only
    rw [i1]
    simp only
    rw [broadcast_right]
  · simp only [synthesisLoop]
    rw [i3]
    simp only
    rw [broadcast_left]
  · intro h
    have hval := fun i : Fin 2 => congrFun (congrArg Arr.val h) [i.1, 0]
    have h2 : p3 = p1 := by
      funext i
      have := hval i
      simp only [Arr.of2] at this
      rw [dif_pos ⟨i.2, Nat.one_pos⟩, dif_pos ⟨i.2, Nat.one_pos⟩] at this
      simp only [Fin.eta] at this
      linarith
    rw [hp1, hp3, hx3 _ v hv, hx1 _ v hv] at h2
    have h3 := congrArg (· ⬝ᵥ u) h2
    simp only [hdot] at h3
    have h4 := mul_right_cancel₀ hv1 h3
    exact hcc (by linarith)

theorem defaultLow_defined : Defined defaultLow := by
  intro m e he
  refine ⟨_, if_neg ?_⟩
  rintro ⟨j, hj⟩
  have := he j
  linarith

/-- Non-vacuity of `C64_exact` and `C64_reconstruction`: a pyramid with two levels (a path of four vertices, then an edge)
and the default low-pass filter: the analysis succeeds and the reconstruction is perfect. -/
example (x : Fin 4 → ℝ) : ∃ g1 g2 : Level, g1.n = 4 ∧ g2.n = 2 ∧ GoodLevel g1 ∧ GoodLevel g2 ∧
    ∃ cas pes gs' cap, pyramidAnalysis .exact none 4 [g1, g2] [defaultLow] (Arr.of2 fun v (_ : Fin 1) => x v) =
      (.ok (cas, pes), gs') ∧ pes.length = 2 ∧ cas.getLast? = some cap ∧ (synthesisLoop .exact 30 cap gs' pes).1 = .ok cas ∧
      cas.head? = some (Arr.of2 fun v (_ : Fin 1) => x v) := by
  obtain ⟨g, hg, hd, S, hS, s, hs, hk, ⟨b, hb, hbk⟩, -⟩ :=
    exists_setup path4 path4_nonneg (i := 0) (j := 1) (by decide) (by simp [path4])
  obtain ⟨g', hg', hd', S', hS', s', hs', hk', ⟨b', hb', hbk'⟩, -⟩ :=
    exists_setup edge2 edge2_nonneg (i := 0) (j := 1) (by decide) (by simp [edge2])
  have h1 : GoodLevel ⟨4, S, s, 2, ![0, 2]⟩ := ⟨hS, ⟨g, _, hg, by rw [hd]; exact path4_nonneg, hs⟩, by norm_num, hk,
    fun b' h' => by rw [hb] at h'; cases h'; exact hbk, (by decide : Function.Injective (![0, 2] : Fin 2 → Fin 4)), by norm_num,
    ⟨1, (by decide : ∀ a : Fin 2, (![0, 2] : Fin 2 → Fin 4) a ≠ 1)⟩⟩
  have h2 : GoodLevel ⟨2, S', s', 1, ![0]⟩ := ⟨hS', ⟨g', _, hg', by rw [hd']; exact edge2_nonneg, hs'⟩, le_rfl, hk',
    fun b h' => by rw [hb'] at h'; cases h'; exact hbk', fun a b _ => Subsingleton.elim a b, Nat.one_pos, ⟨1, by intro a; simp⟩⟩
  obtain ⟨cas, pes, gs', cap, e1, e2, e3, e4, e5⟩ := C64_exact none (gs := [⟨4, S, s, 2, ![0, 2]⟩, ⟨2, S', s', 1, ![0]⟩])
    (hs := [defaultLow]) x (by intro g hm; simp only [List.mem_cons, List.not_mem_nil, or_false] at hm; rcases hm with rfl | rfl; exacts [h1, h2])
    ⟨rfl, rfl, trivial⟩ (.inr rfl) (by intro h hm; rw [List.mem_singleton.1 hm]; exact defaultLow_defined)
  exact ⟨_, _, rfl, rfl, h1, h2, cas, pes, gs', cap, e1, (C64_reconstruction (o := 30) (.inl rfl) _ e1).2.1, e4, e5 gs' e2 30, e3⟩

end PyGSP
