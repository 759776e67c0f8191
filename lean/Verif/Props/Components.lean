import Verif.Lemmas.PiecePinv
import Verif.Lemmas.PieceSpectrum
import Verif.Props.Monotone
import Verif.Lemmas.Generators

/-!
# C105: working component by component

Frequencies, filters, resistances and regressions of a graph are those of its components, put together.
-/

namespace PyGSP

open Matrix Spec GState Polynomial Real Learning

variable {n m : ℕ}

/-- **C105** `subgraph(vertices)` of distinct vertices with no edge to the other vertices is a piece of the graph (in the sense of `Spec.Piece`), of the same
Laplacian type. -/
theorem C105_subgraph {R : Type} (o : GraphObj n ℝ R) (ho : o.graph.Built) (hs : (o.signals.map Prod.fst).Nodup) (l : List (Fin n)) (hl : l.Nodup)
    (hcl : ∀ i ∈ l, ∀ j, j ∉ l → o.graph.W.dense i j = 0 ∧ o.graph.W.dense j i = 0) :
    ∃ o', o.subgraph (.idx l) = .ok o' ∧ o'.graph.Built ∧ o'.graph.lapType = o.graph.lapType ∧
      Piece (fun a : Fin l.length => l.get a) o.graph.W.dense o'.graph.W.dense := by
  have hlt := ho.lapType_known
  obtain ⟨g', h1, h2⟩ := subgraph_eq o (.idx l) hs hlt
  obtain ⟨g'', h3, h4, h5, h6⟩ := Graph.ofCsr_canonical (o.graph.W.fancyIndex l l) (ho.canonical.fancyIndex _ _) hlt
  have : g'' = g' := Except.ok.inj (h3.symm.trans h1)
  subst this
  refine ⟨_, h2, h4, h6, fun a b hab => ?_, fun a b => ?_, fun a j hj => ?_⟩
  · exact (List.nodup_iff_injective_get.1 hl) hab
  · change g''.W.dense a b = _
    rw [h5, Sp.dense_fancyIndex]
  · refine hcl _ (List.get_mem _ _) j fun hm => ?_
    obtain ⟨b, hb⟩ := List.mem_iff_get.1 hm
    exact hj b hb

/-- **C105** `extract_components` cuts an undirected graph of non-negative weights into connected pieces, and every vertex is in exactly one of them. -/
theorem C105_components {R : Type} (pop : Pop n) (o : GraphObj n ℝ R) (ho : o.graph.Built) (hs : (o.signals.map Prod.fst).Nodup)
    (hu : Undirected o.graph.W.dense) (hW : NonnegW o.graph.W.dense) :
    ∃ cs, o.extractComponents pop = .ok cs ∧
      (∀ c ∈ cs, c.obj.graph.Built ∧ c.obj.graph.lapType = o.graph.lapType ∧ NonnegW c.obj.graph.W.dense ∧ 0 < c.origIdx.length ∧
        Piece c.origIdx.get o.graph.W.dense c.obj.graph.W.dense ∧ StronglyConnected c.obj.graph.W.dense) ∧
      Function.Bijective fun p : Σ k : Fin cs.length, Fin (cs.get k).origIdx.length => (cs.get p.1).origIdx.get p.2 := by
  obtain ⟨cs, h1, h2, h3, h4⟩ := C09_extract_components pop o ho hs hu hW
  refine ⟨cs, h1, fun c hc => ?_, ?_⟩
  · obtain ⟨p1, p2, p3, p4⟩ := h4 c hc
    obtain ⟨o', q1, q2, q3, q4⟩ := C105_subgraph o ho hs c.origIdx (p1.imp fun h => ne_of_lt h) fun i hi j hj => by
      have : o.graph.W.dense i j = 0 := by
        by_contra h0
        exact hj ((p3 i hi j).2 (.single h0))
      exact ⟨this, by rw [← hu i j]; exact this⟩
    have : o' = c.obj := Except.ok.inj (q1.symm.trans p4)
    subst this
    replace q4 : Piece c.origIdx.get o.graph.W.dense c.obj.graph.W.dense := q4
    refine ⟨q2, q3, fun a b => by rw [q4.weights]; exact hW _ _, List.length_pos_of_ne_nil p2, q4, fun a b => ?_⟩
    have key : ∀ {i j}, Reach o.graph.W.dense i j → ∀ a, c.origIdx.get a = i → ∃ b, c.origIdx.get b = j ∧ Reach c.obj.graph.W.dense a b := by
      intro i j hij
      induction hij with
      | refl => exact fun a ha => ⟨a, ha, .refl⟩
      | @tail x y _ hxy ih =>
        intro a ha
        obtain ⟨b, hb, hab⟩ := ih a ha
        by_cases hy : ∃ b', c.origIdx.get b' = y
        · obtain ⟨b', hb'⟩ := hy
          refine ⟨b', hb', hab.tail ?_⟩
          change c.obj.graph.W.dense b b' ≠ 0
          rw [q4.weights, hb, hb']
          exact hxy
        · push Not at hy
          exact absurd (hb ▸ (q4.closed b y hy).1) hxy
    obtain ⟨b', hb', hab⟩ := key ((p3 _ (List.get_mem _ a) _).1 (List.get_mem _ b)) a rfl
    rwa [q4.injective hb'] at hab
  · constructor
    · rintro ⟨k, a⟩ ⟨k', a'⟩ h
      dsimp only at h
      have hd : ∀ i j : Fin cs.length, i < j → ∀ x ∈ (cs.get i).origIdx, x ∉ (cs.get j).origIdx := by
        intro i j hij x hx hx'
        have := (List.nodup_flatten.1 h2).2
        rw [List.pairwise_map] at this
        exact List.pairwise_iff_get.1 this i j hij hx hx'
      have hk : k = k' := by
        rcases lt_trichotomy k k' with hlt | heq | hgt
        · exact absurd (h ▸ List.get_mem _ a') (hd k k' hlt _ (List.get_mem _ a))
        · exact heq
        · exact absurd (h ▸ List.get_mem _ a) (hd k' k hgt _ (List.get_mem _ a'))
      subst hk
      have hn : (cs.get k).origIdx.Nodup := (h4 _ (List.get_mem _ k)).1.imp fun h => ne_of_lt h
      rw [List.nodup_iff_injective_get.1 hn h]
    · intro v
      obtain ⟨c, hc, hv⟩ := h3 v
      obtain ⟨k, rfl⟩ := List.mem_iff_get.1 hc
      obtain ⟨a, ha⟩ := List.mem_iff_get.1 hv
      exact ⟨⟨k, a⟩, ha⟩

section

variable {S : Solvers n} {S' : Solvers m} {g : Graph n ℝ} {g' : Graph m ℝ} {s : GState n} {s' : GState m} {ι : Fin m → Fin n}
  (h : Ready S g s) (h' : Ready S' g' s') (hp : Piece ι g.W.dense g'.W.dense) (ht : s'.lapType = s.lapType)

include h h' hp ht

/-- The frequencies of a piece are frequencies of the graph. -/
theorem piece_eigenvalue {l : ℝ} (hl : IsEigenvalue s'.L l) : IsEigenvalue s.L l := by
  obtain ⟨h1, h2⟩ := piece_laplacian hp h.lap (by rw [← ht]; exact h'.lap)
  obtain ⟨x, hx, hx2⟩ := hl
  classical
  set z : Fin n → ℝ := fun i => if hi : ∃ b, ι b = i then x hi.choose else 0 with hz
  have z1 : ∀ b, z (ι b) = x b := fun b => by
    have hi : ∃ b', ι b' = ι b := ⟨b, rfl⟩
    simp only [hz, dif_pos hi]
    rw [hp.injective hi.choose_spec]
  have z0 : ∀ i, (∀ b, ι b ≠ i) → z i = 0 := fun i hi => dif_neg fun ⟨b, hb⟩ => hi b hb
  refine ⟨z, fun h0 => hx (funext fun b => by rw [← z1, h0]; rfl), ?_⟩
  funext i
  simp only [Matrix.mulVec, dotProduct, Pi.smul_apply, smul_eq_mul]
  rw [← piece_sum hp (F := fun j => s.L i j * z j) fun j hj => by simp only [z0 j hj, mul_zero]]
  by_cases hi : ∃ b, ι b = i
  · obtain ⟨b, rfl⟩ := hi
    have := congrFun hx2 b
    simp only [Matrix.mulVec, dotProduct, Pi.smul_apply, smul_eq_mul] at this
    simp only [z1]
    rw [← this]
    exact Finset.sum_congr rfl fun a _ => by rw [h1]
  · push Not at hi
    rw [z0 i hi, mul_zero]
    exact Finset.sum_eq_zero fun a _ => by rw [(h2 a i hi).2, zero_mul]

/-- **C105** Exact filtering of the whole signal on the whole graph gives, on the vertices of the piece, what filtering the piece of the signal on the piece of the
graph gives, for every shape of input (`squeeze` only matters when the piece is a single vertex: `filter` then drops the vertex dimension). -/
theorem C105_filter (hn : n ≠ 1) {f : Bank} {A : Set ℝ} (hf : RespondsOn f A) (hA : ∀ l, IsEigenvalue s.L l → l ∈ A) (order : ℕ) (a : Arr) {r : List ℕ}
    (ha : a.shape = n :: r) :
    (f.filter S' (Spec.Arr.pick ι a) .exact order s').1 = ((f.filter S a .exact order s).1).map fun y => (Spec.Arr.pick ι y).squeeze := by
  obtain ⟨φ, hφ⟩ := hf
  obtain ⟨e, U, h1, h2⟩ := h.ops hφ hA order
  obtain ⟨e', U', h1', h2'⟩ := h'.ops hφ (fun l hl => hA l (piece_eigenvalue h h' hp ht hl)) order
  refine pick_filter hn (.inr ⟨_, _, h2, h2', fun i => ?_⟩) a ha
  refine spectral_intertwine (c := 1) h1 h1' (by rw [one_smul]; exact piece_Q hp h.lap (by rw [← ht]; exact h'.lap)) fun j j' hj => ?_
  rw [hj, one_mul]

/-- **C105** The same for the Chebyshev method when the piece is filtered with the `lmax` of the graph. -/
theorem C105_chebyshev (hn : n ≠ 1) {l : ℝ} (hl : (s.getLmax S).1 = .ok (some (.fin l))) (hl' : (s'.getLmax S').1 = .ok (some (.fin l))) (f : Bank) (order : ℕ) (a : Arr)
    {r : List ℕ} (ha : a.shape = n :: r) :
    (f.filter S' (Spec.Arr.pick ι a) .chebyshev order s').1 = ((f.filter S a .chebyshev order s).1).map fun y => (Spec.Arr.pick ι y).squeeze := by
  have e1 : ∃ t, Bank.lmaxNum S s = (.ok l, t) := by
    unfold Bank.lmaxNum
    revert hl
    cases s.getLmax S with
    | mk r t => intro hl; dsimp only at hl; subst hl; exact ⟨t, rfl⟩
  have e2 : ∃ t, Bank.lmaxNum S' s' = (.ok l, t) := by
    unfold Bank.lmaxNum
    revert hl'
    cases s'.getLmax S' with
    | mk r t => intro hl'; dsimp only at hl'; subst hl'; exact ⟨t, rfl⟩
  obtain ⟨t, e1⟩ := e1
  obtain ⟨t', e2⟩ := e2
  refine pick_filter hn ?_ a ha
  unfold Bank.ops
  dsimp only
  rw [e1, e2]
  dsimp only
  split
  · exact .inl ⟨_, rfl, rfl⟩
  · cases f.evaluate (chebNode l (order + 1)) with
    | error e => exact .inl ⟨_, rfl, rfl⟩
    | ok y =>
      dsimp only
      split
      · exact .inl ⟨_, rfl, rfl⟩
      · split
        · exact .inl ⟨_, rfl, rfl⟩
        · refine .inr ⟨_, _, rfl, rfl, fun i => aeval_intertwine ?_ _⟩
          unfold rescaled
          rw [(lmaxNum_stored e1).2.1, (lmaxNum_stored e2).2.1, Matrix.sub_mul, Matrix.mul_sub, Matrix.smul_mul, piece_Q hp h.lap (by rw [← ht]; exact h'.lap), Matrix.mul_smul,
            Matrix.one_mul, Matrix.mul_one]

/-- **C105** The resistances between vertices of the piece are those of the piece (the graph need not be connected). -/
theorem C105_resistance (hl : s.lapType = .combinatorial) {pinv : Matrix (Fin n) (Fin n) ℝ → Matrix (Fin n) (Fin n) ℝ} {pinv' : Matrix (Fin m) (Fin m) ℝ → Matrix (Fin m) (Fin m) ℝ}
    (hi : ∀ A, Aᵀ = A → IsPinv A (pinv A)) (hi' : ∀ A, Aᵀ = A → IsPinv A (pinv' A)) :
    ∃ R R', resistanceDistance pinv s = .ok R ∧ resistanceDistance pinv' s' = .ok R' ∧ ∀ a b, R' a b = R (ι a) (ι b) := by
  refine ⟨_, _, (C55_lap_type s).2 hl, (C55_lap_type s').2 (ht.trans hl), fun a b => ?_⟩
  have hs : s.Lᵀ = s.L := by rw [h.comb hl]; exact combLap_isSymm _
  have hs' : s'.Lᵀ = s'.L := by rw [h'.comb (ht.trans hl)]; exact combLap_isSymm _
  have d0 : s.L.det = 0 := by rw [h.comb hl]; exact det_combLap h.pos _
  have d0' : s'.L.det = 0 := by rw [h'.comb (ht.trans hl)]; exact det_combLap h'.pos _
  have key := pinv_pick hp.injective hs hs' (piece_Q hp h.lap (by rw [← ht]; exact h'.lap)) (hi _ hs) (hi' _ hs')
  unfold resistanceOfMatrix invOrPinv
  simp only [if_pos d0, if_pos d0', Matrix.sub_apply, Matrix.add_apply, Matrix.transpose_apply, Matrix.of_apply, key]

/-! ### Regression -/

omit h h' ht in
theorem piece_linked {a : Fin m} {j : Fin n} (hl : Linked g.W.dense (ι a) j) : ∃ b, ι b = j ∧ Linked g'.W.dense a b := by
  induction hl with
  | refl => exact ⟨a, rfl, .refl⟩
  | @tail x y _ hxy ih =>
    obtain ⟨b, rfl, hab⟩ := ih
    by_cases hy : ∃ b', ι b' = y
    · obtain ⟨b', rfl⟩ := hy
      refine ⟨b', rfl, hab.tail ?_⟩
      rw [hp.weights, hp.weights]
      exact hxy
    · push Not at hy
      have := hp.closed b y hy
      rcases hxy with h1 | h1
      · exact absurd this.1 h1
      · exact absurd this.2 h1

omit h h' ht hp in
open Classical in
/-- The signal without its values on the piece. -/
noncomputable def offPiece (ι : Fin m → Fin n) (x : Fin n → ℝ) : Fin n → ℝ := fun i => if ∃ b, ι b = i then 0 else x i

omit h h' ht in
theorem sum_split (F : Fin n → ℝ) : ∑ i, F i = ∑ a, F (ι a) + ∑ i, offPiece ι F i := by
  classical
  have h1 := piece_sum hp (F := fun i => if ∃ b, ι b = i then F i else 0) (fun j hj => if_neg fun ⟨b, hb⟩ => hj b hb)
  have h2 : ∑ a, F (ι a) = ∑ i, if ∃ b, ι b = i then F i else 0 := by
    rw [← h1]
    exact Finset.sum_congr rfl fun a _ => (if_pos ⟨a, rfl⟩).symm
  rw [h2, ← Finset.sum_add_distrib]
  refine Finset.sum_congr rfl fun i _ => ?_
  unfold offPiece
  by_cases hi : ∃ b, ι b = i
  · rw [if_pos hi, if_pos hi, add_zero]
  · rw [if_neg hi, if_neg hi, zero_add]

theorem smooth_split (x : Fin n → ℝ) : smoothness s.L x = smoothness s'.L (fun a => x (ι a)) + smoothness s.L (offPiece ι x) := by
  obtain ⟨h1, h2⟩ := piece_laplacian hp h.lap (by rw [← ht]; exact h'.lap)
  unfold smoothness
  simp only [dotProduct, Matrix.mulVec]
  rw [sum_split hp]
  congr 1
  · refine Finset.sum_congr rfl fun a _ => ?_
    rw [← piece_sum hp (F := fun j => s.L (ι a) j * x j) fun j hj => by rw [(h2 a j hj).1, zero_mul]]
    simp only [h1]
  · refine Finset.sum_congr rfl fun i _ => ?_
    by_cases hi : ∃ b, ι b = i
    · simp only [offPiece, if_pos hi, zero_mul]
    · have e : ∀ j, s.L i j * offPiece ι x j = s.L i j * x j := fun j => by
        unfold offPiece
        by_cases hj : ∃ b, ι b = j
        · obtain ⟨b, rfl⟩ := hj
          rw [(h2 b i fun c hc => hi ⟨c, hc⟩).2, zero_mul, zero_mul]
        · rw [if_neg hj]
      simp only [e]
      simp only [offPiece, if_neg hi]

theorem objective_split (mask : Fin n → Bool) (y x : Fin n → ℝ) (tau : ℝ) :
    objective s.L mask y tau x = objective s'.L (fun a => mask (ι a)) (fun a => y (ι a)) tau (fun a => x (ι a)) +
      ((∑ i, offPiece ι (fun v => if mask v then (offPiece ι x v - y v) ^ 2 else 0) i) + tau * smoothness s.L (offPiece ι x)) := by
  unfold objective
  rw [smooth_split h h' hp ht x, sum_split hp]
  have : ∀ i, offPiece ι (fun v => if mask v then (x v - y v) ^ 2 else 0) i = offPiece ι (fun v => if mask v then (offPiece ι x v - y v) ^ 2 else 0) i := by
    intro i
    unfold offPiece
    by_cases hi : ∃ b, ι b = i
    · simp only [if_pos hi]
    · simp only [if_neg hi]
  simp only [this]
  ring

open Classical in
/-- **C105** `regression_tikhonov` works piece by piece, with or without constraints. -/
theorem C105_regression (hl : s.lapType = .combinatorial) {cg cg'} (hcg : ExactCG cg) (hcg' : ExactCG cg') (y : Fin n → ℝ) (mask : Fin n → Bool)
    (ha : Anchored g.W.dense mask) (hu : ∃ a, mask (ι a) = false) (tau : ℝ) :
    ∃ x, regression1 cg false s.L y mask tau = .ok x ∧
      regression1 cg' false s'.L (fun a => y (ι a)) (fun a => mask (ι a)) tau = .ok fun a => x (ι a) := by
  obtain ⟨hist, hs⟩ := h.reached
  obtain ⟨hist', hs'⟩ := h'.reached
  have ha' : Anchored g'.W.dense fun a => mask (ι a) := by
    intro a
    obtain ⟨b, hb, hb2⟩ := ha (ι a)
    obtain ⟨b', rfl, hb'⟩ := piece_linked hp hb2
    exact ⟨b', hb, hb'⟩
  have hglue : ∀ (x : Fin n → ℝ) (x' : Fin m → ℝ), ∃ z : Fin n → ℝ, (∀ a, z (ι a) = x' a) ∧ (∀ i, (∀ b, ι b ≠ i) → z i = x i) ∧ offPiece ι z = offPiece ι x := by
    intro x x'
    refine ⟨fun i => if hi : ∃ b, ι b = i then x' hi.choose else x i, fun a => ?_, fun i hi => dif_neg fun ⟨b, hb⟩ => hi b hb, funext fun i => ?_⟩
    · have hi : ∃ b, ι b = ι a := ⟨a, rfl⟩
      simp only [dif_pos hi]
      rw [hp.injective hi.choose_spec]
    · unfold offPiece
      by_cases hi : ∃ b, ι b = i
      · rw [if_pos hi, if_pos hi]
      · rw [if_neg hi, if_neg hi]
        exact dif_neg hi
  rcases le_or_gt tau 0 with h0 | h0
  · obtain ⟨x, h1, h2, h3, -⟩ := C58_interpolation h.sound h.built hist hs h.nonneg hl cg y mask ha (by obtain ⟨a, ha⟩ := hu; exact ⟨ι a, ha⟩) h0
    obtain ⟨x', h1', h2', h3', -⟩ := C58_interpolation h'.sound h'.built hist' hs' h'.nonneg (ht.trans hl) cg' (fun a => y (ι a)) _ ha' hu h0
    refine ⟨x, h1, h1'.trans (congrArg _ ?_)⟩
    obtain ⟨z, z1, z0, zo⟩ := hglue x x'
    have e1 := h3 z fun v hv => by
      by_cases hi : ∃ b, ι b = v
      · obtain ⟨b, rfl⟩ := hi
        rw [z1, h2' b hv]
      · push Not at hi
        rw [z0 v hi, h2 v hv]
    have e2 := (h3' (fun a => x (ι a)) fun a ha => h2 _ ha).1
    have e3 : smoothness s.L z ≤ smoothness s.L x := by
      rw [smooth_split h h' hp ht z, smooth_split h h' hp ht x, zo]
      simp only [z1]
      linarith
    have e4 := e1.2 (le_antisymm e3 e1.1)
    funext a
    rw [← e4, z1]
  · obtain ⟨x, h1, h2, -⟩ := C59_unique_bounded h.sound h.built hist hs h.nonneg hl hcg false y mask ha h0
    obtain ⟨x', h1', hmin⟩ := C59_minimises h'.sound h'.built hist' hs' h'.nonneg hcg' false (fun a => y (ι a)) (fun a => mask (ι a)) h0
    refine ⟨x, h1, h1'.trans (congrArg _ ?_)⟩
    obtain ⟨z, z1, z0, zo⟩ := hglue x x'
    have e4 := h2 z (by
      rw [objective_split h h' hp ht mask y z, objective_split h h' hp ht mask y x, zo]
      simp only [z1]
      linarith [hmin fun a => x (ι a)])
    funext a
    rw [← e4, z1]

end

/-- **C105** The frequencies of a graph are those of its components, with multiplicities: every number appears in the array computed by `compute_fourier_basis()` as many
times as in all the arrays computed on the graphs returned by `extract_components`; and the `lmax` of the graph is the largest of theirs. -/
theorem C105_spectrum {R : Type} (pop : Pop n) (o : GraphObj n ℝ R) (ho : o.graph.Built) (hs : (o.signals.map Prod.fst).Nodup)
    (hu : Undirected o.graph.W.dense) {cs : List (Component n ℝ R)} (hcs : o.extractComponents pop = .ok cs) {S : Solvers n} {s : GState n} (h : Ready S o.graph s)
    {S' : ∀ k : Fin cs.length, Solvers (cs.get k).origIdx.length} {s' : ∀ k : Fin cs.length, GState (cs.get k).origIdx.length}
    (h' : ∀ k, Ready (S' k) (cs.get k).obj.graph (s' k)) (ht : ∀ k, (s' k).lapType = s.lapType) :
    ∃ (e : Fin n → ℝ) (U : Matrix (Fin n) (Fin n) ℝ) (e' : ∀ k, Fin (cs.get k).origIdx.length → ℝ) (U' : ∀ k, Matrix _ _ ℝ),
      (s.computeFourierBasis S none).2.basis = some ⟨n, e, U⟩ ∧
      (∀ k, ((s' k).computeFourierBasis (S' k) none).2.basis = some ⟨_, e' k, U' k⟩) ∧
      (∀ l, (Finset.univ.filter fun j => e j = l).card = ∑ k, (Finset.univ.filter fun j => e' k j = l).card) ∧
      (s.basis = none → (∀ k, (s' k).basis = none) → ∃ (l : ℝ) (l' : Fin cs.length → ℝ), ((s.computeFourierBasis S none).2.getLmax S).1 = .ok (some (.fin l)) ∧
        (∀ k, (((s' k).computeFourierBasis (S' k) none).2.getLmax (S' k)).1 = .ok (some (.fin (l' k)))) ∧ (∀ k, l' k ≤ l) ∧ ∃ k, l' k = l) := by
  obtain ⟨cs', c1, c2, c3⟩ := C105_components pop o ho hs hu h.nonneg
  have : cs' = cs := Except.ok.inj (c1.symm.trans hcs)
  subst this
  obtain ⟨-, e, U, f1, f2, f3, f4⟩ := h.fourier
  have hk := fun k => (h' k).fourier
  choose _ e' U' f1' f2' f3' f4' using hk
  have hpc := fun k => (c2 _ (List.get_mem _ k)).2.2.2.2.1
  have hL := fun k => piece_laplacian (hpc k) h.lap (by rw [← ht k]; exact (h' k).lap)
  have key := pieces_spectrum (ι := fun k => (cs'.get k).origIdx.get) c3 (L' := fun k => (s' k).L) (fun k => (hL k).1) (fun k a j hj => ((hL k).2 a j hj).1) f2 f2'
  refine ⟨e, U, e', U', f1, f1', key, fun h0 h0' => ⟨_, _, f4 h0, fun k => f4' k (h0' k), fun k => ?_, ?_⟩⟩
  · set t := e' k ⟨(cs'.get k).origIdx.length - 1, by have := (h' k).pos; omega⟩ with hT
    have : 0 < (Finset.univ.filter fun j => e j = t).card := by
      rw [key]
      refine lt_of_lt_of_le ?_ (Finset.single_le_sum (f := fun k => (Finset.univ.filter fun j => e' k j = t).card) (fun _ _ => Nat.zero_le _) (Finset.mem_univ k))
      exact Finset.card_pos.2 ⟨_, Finset.mem_filter.2 ⟨Finset.mem_univ _, hT.symm⟩⟩
    obtain ⟨j, hj⟩ := Finset.card_pos.1 this
    rw [← (Finset.mem_filter.1 hj).2]
    exact f3 (by simp only [Fin.le_def]; omega)
  · set t := e ⟨n - 1, by have := h.pos; omega⟩ with hT
    have : 0 < (Finset.univ.filter fun j => e j = t).card := Finset.card_pos.2 ⟨_, Finset.mem_filter.2 ⟨Finset.mem_univ _, hT.symm⟩⟩
    rw [key] at this
    obtain ⟨k, -, hk⟩ := Finset.exists_ne_zero_of_sum_ne_zero this.ne'
    obtain ⟨j, hj⟩ := Finset.card_pos.1 (Nat.pos_of_ne_zero hk)
    refine ⟨k, le_antisymm ?_ ?_⟩
    · set t' := e' k ⟨(cs'.get k).origIdx.length - 1, by have := (h' k).pos; omega⟩ with hT'
      have : 0 < (Finset.univ.filter fun j => e j = t').card := by
        rw [key]
        refine lt_of_lt_of_le ?_ (Finset.single_le_sum (f := fun k => (Finset.univ.filter fun j => e' k j = t').card) (fun _ _ => Nat.zero_le _) (Finset.mem_univ k))
        exact Finset.card_pos.2 ⟨_, Finset.mem_filter.2 ⟨Finset.mem_univ _, hT'.symm⟩⟩
      obtain ⟨j, hj⟩ := Finset.card_pos.1 this
      rw [← (Finset.mem_filter.1 hj).2]
      exact f3 (by simp only [Fin.le_def]; omega)
    · rw [← (Finset.mem_filter.1 hj).2]
      exact f3' k (by simp only [Fin.le_def]; omega)

/-- A ready state of any graph of known type with non-negative weights. -/
theorem ready_ofGraph {g : Graph n ℝ} (hg : g.Built) (hW : NonnegW g.W.dense) (hn : 0 < n) (hl : g.lapType = .combinatorial) :
    ∃ (S : Solvers n) (s : GState n), Ready S g s ∧ s.lapType = .combinatorial ∧ s.basis = none := by
  obtain ⟨S, hS, -⟩ := exists_sound n
  have h0 := GState.ofGraph_inv (S := S) g hg
  have hl : (GState.ofGraph g).lapType = .combinatorial := by rw [h0.2.2.1, hl]
  exact ⟨S, GState.ofGraph g, ⟨hS, hg, hW, hn, ⟨[], rfl⟩, .inl hl, by rw [h0.2.2.2.2.2]; intro b hb; cases hb⟩, hl, h0.2.2.2.2.2⟩

/-- The hypotheses of C105 are satisfiable: an edge and an isolated vertex. -/
example : ∃ (o : GraphObj 3 ℝ ℝ) (S : Solvers 3) (s : GState 3), o.graph.Built ∧ (o.signals.map Prod.fst).Nodup ∧ Undirected o.graph.W.dense ∧ Ready S o.graph s ∧
    s.lapType = .combinatorial ∧ s.basis = none ∧ ∀ pop : Pop 3, ∃ cs, o.extractComponents pop = .ok cs ∧ 2 ≤ cs.length ∧
      ∀ k : Fin cs.length, ∃ S' s', Ready S' (cs.get k).obj.graph s' ∧ s'.lapType = s.lapType ∧ s'.basis = none ∧
        Piece (cs.get k).origIdx.get o.graph.W.dense (cs.get k).obj.graph.W.dense := by
  set M : Matrix (Fin 3) (Fin 3) ℝ := !![0, 2, 0; 2, 0, 0; 0, 0, 0] with hM
  have hnn : NonnegW M := by intro i j; fin_cases i <;> fin_cases j <;> simp [hM]
  have hud : Undirected M := by intro i j; fin_cases i <;> fin_cases j <;> simp [hM]
  obtain ⟨g, hg, hd, hlt⟩ := Graph.exists_built (K := ℝ) M
  obtain ⟨S, s, h1, h2, h3⟩ := ready_ofGraph hg (by rw [hd]; exact hnn) (by norm_num) hlt
  refine ⟨⟨g, none, []⟩, S, s, hg, by simp, by change Undirected g.W.dense; rw [hd]; exact hud, h1, h2, h3, fun pop => ?_⟩
  obtain ⟨cs, c1, c2, c3⟩ := C105_components (R := ℝ) pop ⟨g, none, []⟩ hg (by simp) (by change Undirected g.W.dense; rw [hd]; exact hud) h1.nonneg
  refine ⟨cs, c1, ?_, fun k => ?_⟩
  · by_contra hlen
    obtain ⟨⟨k0, a0⟩, h0⟩ := c3.2 0
    obtain ⟨⟨k2, a2⟩, h4⟩ := c3.2 2
    have hk : k0 = k2 := Fin.ext (by have := k0.2; have := k2.2; omega)
    subst hk
    obtain ⟨-, -, -, -, hp, hc⟩ := c2 _ (List.get_mem _ k0)
    have hr := hc a2 a0
    rcases Relation.ReflTransGen.cases_head hr with heq | ⟨b, hb, -⟩
    · rw [heq] at h4
      have := h0.symm.trans h4
      simp at this
    · change (cs.get k0).obj.graph.W.dense a2 b ≠ 0 at hb
      rw [hp.weights] at hb
      dsimp only at h4
      rw [h4] at hb
      refine hb ?_
      change g.W.dense 2 _ = 0
      rw [hd]
      generalize (cs.get k0).origIdx.get b = j
      fin_cases j <;> simp [hM]
  · obtain ⟨p1, p2, p3, p4, p5, -⟩ := c2 _ (List.get_mem _ k)
    obtain ⟨S', s', q1, q2, q3⟩ := ready_ofGraph p1 p3 p4 (p2.trans hlt)
    exact ⟨S', s', q1, q2.trans h2.symm, q3, p5⟩

end PyGSP
