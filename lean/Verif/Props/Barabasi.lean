import Verif.Model.Barabasi
import Verif.Props.Torus

/-!
# C75: BarabasiAlbert
-/

namespace PyGSP

open Matrix Spec Gen

variable {N : ℕ}

namespace Gen

open Classical in
theorem ba_fold (i : ℕ) (l : List (Fin N)) (W : Matrix (Fin N) (Fin N) ℝ) (a b : Fin N) :
    (l.foldl (fun W e => Matrix.of fun a b => if (a = e ∧ b.1 = i) ∨ (a.1 = i ∧ b = e) then 1 else W a b) W) a b =
      if (b.1 = i ∧ a ∈ l) ∨ (a.1 = i ∧ b ∈ l) then 1 else W a b := by
  induction l generalizing W with
  | nil => simp
  | cons e l ih =>
    rw [List.foldl_cons, ih]
    simp only [Matrix.of_apply, List.mem_cons]
    by_cases h1 : (b.1 = i ∧ a ∈ l) ∨ (a.1 = i ∧ b ∈ l)
    · rw [if_pos h1, if_pos (by tauto)]
    · rw [if_neg h1]
      exact if_congr (by tauto) rfl rfl

open Classical in
/-- the probabilities of preferential attachment at the vertex `i` -/
noncomputable def baP (m0 m : ℕ) (W : Matrix (Fin N) (Fin N) ℝ) (i : ℕ) (v : Fin N) : ℝ :=
  if v.1 < i then (((Finset.univ.filter fun u : Fin N => u.1 < i ∧ W v u ≠ 0).card : ℝ) + 1) / (2 * m * (i - m0 : ℕ) + i) else 0

structure BaInv (m0 m : ℕ) (choice : ℕ → (Fin N → ℝ) → List (Fin N)) (t : ℕ) (W : Matrix (Fin N) (Fin N) ℝ) : Prop where
  sym : ∀ a b, W a b = W b a
  bin : ∀ a b, W a b = 0 ∨ W a b = 1
  zero : ∀ a b : Fin N, t ≤ a.1 → W a b = 0
  loop : ∀ a, W a a = 0
  init : ∀ a b : Fin N, a.1 < m0 → b.1 < m0 → W a b = 0
  nb : ∀ i v : Fin N, m0 ≤ i.1 → i.1 < t → v < i → (W i v = 1 ↔ v ∈ choice i.1 (baP m0 m W i.1))
  good : ∀ i, m0 ≤ i → i < t → (choice i (baP m0 m W i)).Nodup ∧ (choice i (baP m0 m W i)).length = m ∧ ∀ v ∈ choice i (baP m0 m W i), v.1 < i
  total : ∑ a, ∑ b, W a b = 2 * m * (t - m0 : ℕ)

theorem row_sum_card {W : Matrix (Fin N) (Fin N) ℝ} (hb : ∀ a b, W a b = 0 ∨ W a b = 1) {t : ℕ} (hz : ∀ a b : Fin N, t ≤ b.1 → W a b = 0) (v : Fin N) :
    ∑ u, W v u = ((Finset.univ.filter fun u : Fin N => u.1 < t ∧ W v u ≠ 0).card : ℝ) := by
  rw [← card_eq_sum hb v]
  congr 2
  ext u
  simp only [Finset.mem_filter, Finset.mem_univ, true_and]
  exact ⟨fun h => ⟨by_contra fun hn => h (hz v u (by omega)), h⟩, fun h => h.2⟩

theorem card_lt_fin {t : ℕ} (ht : t ≤ N) : (Finset.univ.filter fun v : Fin N => v.1 < t).card = t := by
  refine (Finset.card_bij (t := Finset.range t) (fun v _ => v.1) ?_ ?_ ?_).trans (Finset.card_range t)
  · intro v hv; exact Finset.mem_range.2 (Finset.mem_filter.1 hv).2
  · intro v _ w _ e; exact Fin.ext e
  · intro k hk
    have := Finset.mem_range.1 hk
    exact ⟨⟨k, by omega⟩, Finset.mem_filter.2 ⟨Finset.mem_univ _, this⟩, rfl⟩

theorem ba_step {m0 m : ℕ} (h0 : 1 ≤ m0) (hm : m ≤ m0) {choice : ℕ → (Fin N → ℝ) → List (Fin N)} (hc : ChoiceSpec m choice) {t : ℕ} (ht0 : m0 ≤ t)
    (htN : t < N) {W : Matrix (Fin N) (Fin N) ℝ} (hI : BaInv m0 m choice t W) :
    ∃ W', baStep m choice t W = .ok W' ∧ BaInv m0 m choice (t + 1) W' := by
  classical
  have hzc : ∀ a b : Fin N, t ≤ b.1 → W a b = 0 := fun a b h => by rw [hI.sym]; exact hI.zero b a h
  have hrow := row_sum_card hI.bin hzc
  have hdistr : ∀ v : Fin N, (∑ u, W v u) + (if v.1 < t then (1 : ℝ) else 0) =
      if v.1 < t then ((Finset.univ.filter fun u : Fin N => u.1 < t ∧ W v u ≠ 0).card : ℝ) + 1 else 0 := by
    intro v
    split
    · rw [hrow]
    · rw [Finset.sum_eq_zero fun u _ => hI.zero v u (by omega), add_zero]
  have htot : ∑ v : Fin N, ((∑ u, W v u) + (if v.1 < t then (1 : ℝ) else 0)) = 2 * m * (t - m0 : ℕ) + t := by
    rw [Finset.sum_add_distrib, hI.total, Finset.sum_ite, Finset.sum_const_zero, add_zero, Finset.sum_const, nsmul_eq_mul, mul_one, card_lt_fin htN.le]
  have hpos : (0 : ℝ) < 2 * m * (t - m0 : ℕ) + t := by
    have : (1 : ℝ) ≤ t := by exact_mod_cast (by omega : 1 ≤ t)
    positivity
  have hp : (fun v : Fin N => ((∑ u, W v u) + (if v.1 < t then (1 : ℝ) else 0)) / ∑ v : Fin N, ((∑ u, W v u) + (if v.1 < t then (1 : ℝ) else 0))) = baP m0 m W t := by
    funext v
    rw [htot, hdistr]
    unfold baP
    split
    · rfl
    · rw [zero_div]
  have hpne : ∀ v : Fin N, baP m0 m W t v ≠ 0 ↔ v.1 < t := by
    intro v
    unfold baP
    split
    · rename_i h
      refine ⟨fun _ => h, fun _ => ?_⟩
      have : (0 : ℝ) < ((Finset.univ.filter fun u : Fin N => u.1 < t ∧ W v u ≠ 0).card : ℝ) + 1 := by positivity
      exact (div_pos this hpos).ne'
    · rename_i h; simp [h]
  have hcard : (Finset.univ.filter fun v : Fin N => baP m0 m W t v ≠ 0).card = t := by
    rw [Finset.filter_congr fun v _ => hpne v, card_lt_fin htN.le]
  obtain ⟨c1, c2, c3⟩ := hc t (baP m0 m W t) (fun v => by
      unfold baP
      split
      · exact div_nonneg (by positivity) hpos.le
      · exact le_rfl) (by
      rw [← hp, ← Finset.sum_div]
      exact div_self (by rw [htot]; exact hpos.ne')) (by rw [hcard]; omega)
  have c4 : ∀ v ∈ choice t (baP m0 m W t), v.1 < t := fun v hv => (hpne v).1 (c3 v hv)
  set l := choice t (baP m0 m W t) with hl
  refine ⟨l.foldl (fun W e => Matrix.of fun a b => if (a = e ∧ b.1 = t) ∨ (a.1 = t ∧ b = e) then 1 else W a b) W, ?_, ?_⟩
  · unfold baStep
    simp only
    rw [htot, if_neg hpos.ne', ← htot, hp]
    refine if_neg ?_
    have hq : ∀ v : Fin N, ((∑ u, W v u) + (if v.1 < t then (1 : ℝ) else 0)) / ∑ v : Fin N, ((∑ u, W v u) + (if v.1 < t then (1 : ℝ) else 0)) = baP m0 m W t v :=
      fun v => congrFun hp v
    rw [Finset.filter_congr fun v _ => by rw [hq v], hcard]
    omega
  · have hW' := ba_fold t l W
    set W' := l.foldl (fun W e => Matrix.of fun a b => if (a = e ∧ b.1 = t) ∨ (a.1 = t ∧ b = e) then 1 else W a b) W with hWdef
    have hlow : ∀ a b : Fin N, a.1 < t → b.1 < t → W' a b = W a b := by
      intro a b ha hb
      rw [hW', if_neg (by omega)]
    have hPsame : ∀ i ≤ t, baP m0 m W' i = baP m0 m W i := by
      intro i hi
      funext v
      unfold baP
      split
      · rename_i hv
        have : (Finset.univ.filter fun u : Fin N => u.1 < i ∧ W' v u ≠ 0) = Finset.univ.filter fun u : Fin N => u.1 < i ∧ W v u ≠ 0 := by
          refine Finset.filter_congr fun u _ => and_congr_right fun hu => ?_
          rw [hlow v u (by omega) (by omega)]
        rw [this]
      · rfl
    refine ⟨fun a b => ?_, fun a b => ?_, fun a b hab => ?_, fun a => ?_, fun a b ha hb => ?_, fun i v h1 h2 h3 => ?_, fun i h1 h2 => ?_, ?_⟩
    · rw [hW', hW', hI.sym a b]
      exact if_congr (by tauto) rfl rfl
    · rw [hW']
      split
      · exact .inr rfl
      · exact hI.bin a b
    · rw [hW', if_neg, hI.zero a b (by omega)]
      rintro (⟨-, q⟩ | ⟨q, -⟩)
      · have := c4 a q; omega
      · omega
    · rw [hW', if_neg, hI.loop]
      rintro (⟨q, q'⟩ | ⟨q, q'⟩) <;> · have := c4 a q'; omega
    · rw [hlow a b (by omega) (by omega), hI.init a b ha hb]
    · rcases Nat.lt_or_ge i.1 t with hi | hi
      · rw [hlow i v hi (by have := Fin.lt_def.1 h3; omega), hPsame i.1 hi.le]
        exact hI.nb i v h1 hi h3
      · have hit : i.1 = t := by omega
        rw [hW', hit, hPsame t le_rfl, ← hl]
        have hv : v.1 < t := by have := Fin.lt_def.1 h3; omega
        by_cases q : v ∈ l
        · rw [if_pos (.inr ⟨rfl, q⟩)]
          simp [q]
        · rw [if_neg (by rintro (⟨q1, -⟩ | ⟨-, q2⟩); exacts [by omega, q q2]), hI.zero i v (by omega)]
          simp [q]
    · rcases Nat.lt_or_ge i t with hi | hi
      · rw [hPsame i hi.le]
        exact hI.good i h1 hi
      · have hit : i = t := by omega
        subst hit
        rw [hPsame i le_rfl, ← hl]
        exact ⟨c1, c2, c4⟩
    · have hsplit : ∀ a b : Fin N, W' a b = W a b + ((if b = ⟨t, htN⟩ then (if a ∈ l then (1 : ℝ) else 0) else 0) + if a = ⟨t, htN⟩ then (if b ∈ l then 1 else 0) else 0) := by
        intro a b
        rw [hW']
        by_cases ha : a = ⟨t, htN⟩
        · have ha' : a.1 = t := by rw [ha]
          have hal : a ∉ l := fun q => by have := c4 a q; omega
          rw [hI.zero a b (by omega), if_pos ha]
          by_cases hbl : b ∈ l
          · have := c4 b hbl
            rw [if_pos (.inr ⟨ha', hbl⟩), if_pos hbl, if_neg (fun e => by rw [e] at this; simp at this)]
            norm_num
          · rw [if_neg (by tauto), if_neg hbl, if_neg hal]
            simp
        · have ha' : a.1 ≠ t := fun e => ha (Fin.ext e)
          rw [if_neg ha, add_zero]
          by_cases hb : b = ⟨t, htN⟩
          · have hb' : b.1 = t := by rw [hb]
            rw [if_pos hb, hzc a b (by omega), zero_add]
            by_cases hal : a ∈ l
            · rw [if_pos (.inl ⟨hb', hal⟩), if_pos hal]
            · rw [if_neg (by tauto), if_neg hal]
          · have hb' : b.1 ≠ t := fun e => hb (Fin.ext e)
            rw [if_neg hb, if_neg (by tauto), add_zero]
      have hcount : ∑ a : Fin N, (if a ∈ l then (1 : ℝ) else 0) = m := by
        rw [Finset.sum_ite, Finset.sum_const_zero, add_zero, Finset.sum_const, nsmul_eq_mul, mul_one, ← c2, ← List.toFinset_card_of_nodup c1]
        congr 2
        ext a
        simp
      rw [Finset.sum_congr rfl fun a _ => Finset.sum_congr rfl fun b _ => hsplit a b]
      simp only [Finset.sum_add_distrib]
      rw [hI.total]
      have e1 : ∑ a : Fin N, ∑ b : Fin N, (if b = ⟨t, htN⟩ then (if a ∈ l then (1 : ℝ) else 0) else 0) = m := by
        rw [Finset.sum_congr rfl fun a _ => by rw [Finset.sum_ite_eq', if_pos (Finset.mem_univ _)], hcount]
      have e2 : ∑ a : Fin N, ∑ b : Fin N, (if a = ⟨t, htN⟩ then (if b ∈ l then (1 : ℝ) else 0) else 0) = m := by
        rw [Finset.sum_comm, Finset.sum_congr rfl fun b _ => by rw [Finset.sum_ite_eq', if_pos (Finset.mem_univ _)], hcount]
      rw [e1, e2]
      have e3 : ((t + 1 - m0 : ℕ) : ℝ) = (t - m0 : ℕ) + 1 := by
        rw [show t + 1 - m0 = (t - m0) + 1 by omega]; push_cast; ring
      rw [e3]
      ring

theorem ba_loop {m0 m : ℕ} (h0 : 1 ≤ m0) (hm : m ≤ m0) {choice : ℕ → (Fin N → ℝ) → List (Fin N)} (hc : ChoiceSpec m choice) (s : ℕ) :
    ∀ t W, m0 ≤ t → t + s ≤ N → BaInv m0 m choice t W → ∃ W', baLoop m choice t s W = .ok W' ∧ BaInv m0 m choice (t + s) W' := by
  induction s with
  | zero => exact fun t W _ _ h => ⟨W, rfl, h⟩
  | succ s ih =>
    intro t W h1 h2 hI
    obtain ⟨W', e1, e2⟩ := ba_step h0 hm hc h1 (by omega) hI
    obtain ⟨W'', f1, f2⟩ := ih (t + 1) W' (by omega) (by omega) e2
    refine ⟨W'', ?_, by rwa [show t + (s + 1) = t + 1 + s by omega]⟩
    rw [baLoop, e1]
    exact f1

theorem ba_init (m0 m : ℕ) (choice : ℕ → (Fin N → ℝ) → List (Fin N)) : BaInv m0 m choice m0 (0 : Matrix (Fin N) (Fin N) ℝ) where
  sym _ _ := rfl
  bin _ _ := .inl rfl
  zero _ _ _ := rfl
  loop _ := rfl
  init _ _ _ _ := rfl
  nb i v h1 h2 _ := by omega
  good i h1 h2 := by omega
  total := by simp

theorem ba_ok {m0 m : ℕ} (h0 : 1 ≤ m0) (hm : m ≤ m0) {choice : ℕ → (Fin N → ℝ) → List (Fin N)} (hc : ChoiceSpec m choice) {lt : LapType}
    (hlt : lt = .combinatorial ∨ lt = .normalized) :
    ∃ g, barabasiAlbert N m0 m choice lt = .ok g ∧ g.Built ∧ ∃ t, N ≤ t ∧ t - m0 = N - m0 ∧ BaInv m0 m choice t g.W.dense := by
  obtain ⟨W, e1, e2⟩ : ∃ W', baLoop m choice m0 (N - m0) (0 : Matrix (Fin N) (Fin N) ℝ) = .ok W' ∧ BaInv m0 m choice (m0 + (N - m0)) W' := by
    rcases Nat.lt_or_ge N m0 with h | h
    · have : N - m0 = 0 := by omega
      rw [this]
      exact ⟨0, rfl, ba_init m0 m choice⟩
    · exact ba_loop h0 hm hc (N - m0) m0 0 le_rfl (by omega) (ba_init m0 m choice)
  obtain ⟨g, g1, g2, g3, -⟩ := Graph.ofCsr_canonical _ (Sp.canonical_ofDense W) hlt
  rw [Sp.dense_ofDense] at g3
  refine ⟨g, ?_, g2, m0 + (N - m0), by omega, by omega, by rw [g3]; exact e2⟩
  unfold barabasiAlbert
  rw [if_neg (by omega), e1]
  exact g1

end Gen

/-- **`BarabasiAlbert(N, m0, m)`** for `1 ≤ m0`, `m ≤ m0` and any random choices: an undirected unweighted graph without self-loops, with
exactly `m * (N - m0)` edges, no edge between the `m0` first vertices, and exactly `m` edges from every other vertex to earlier ones; it
is connected when `m = m0 < N`. -/
theorem C75_structure {m0 m : ℕ} (h0 : 1 ≤ m0) (hm : m ≤ m0) {choice : ℕ → (Fin N → ℝ) → List (Fin N)} (hc : ChoiceSpec m choice) {lt : LapType}
    (hlt : lt = .combinatorial ∨ lt = .normalized) :
    ∃ g, barabasiAlbert N m0 m choice lt = .ok g ∧ g.Built ∧ Undirected g.W.dense ∧ (∀ i j, g.W.dense i j = 0 ∨ g.W.dense i j = 1) ∧
      (∀ i, g.W.dense i i = 0) ∧ g.nEdges = m * (N - m0) ∧ (∀ i j : Fin N, i.1 < m0 → j.1 < m0 → g.W.dense i j = 0) ∧
      (∀ i : Fin N, m0 ≤ i.1 → (Finset.univ.filter fun v => v < i ∧ g.W.dense i v ≠ 0).card = m) ∧
      (m = m0 → m0 < N → StronglyConnected g.W.dense) := by
  classical
  obtain ⟨g, g1, g2, t, t1, t2, hI⟩ := ba_ok h0 hm hc hlt
  have hu : Undirected g.W.dense := fun i j => hI.sym i j
  have hback : ∀ i : Fin N, m0 ≤ i.1 → (Finset.univ.filter fun v => v < i ∧ g.W.dense i v ≠ 0).card = m := by
    intro i hi
    obtain ⟨q1, q2, q3⟩ := hI.good i.1 hi (by omega)
    rw [← q2, ← List.toFinset_card_of_nodup q1]
    congr 1
    ext v
    simp only [Finset.mem_filter, Finset.mem_univ, true_and, List.mem_toFinset]
    constructor
    · rintro ⟨hv, hne⟩
      exact (hI.nb i v hi (by omega) hv).1 ((hI.bin i v).resolve_left hne)
    · intro hv
      have hlt1 : v < i := q3 v hv
      exact ⟨hlt1, by rw [(hI.nb i v hi (by omega) hlt1).2 hv]; norm_num⟩
  refine ⟨g, g1, g2, hu, hI.bin, hI.loop, ?_, hI.init, hback, fun hmm hN => ?_⟩
  · rw [C02_n_edges_undirected g g2 hu]
    have e := two_edges_card hu hI.loop
    have : ((∑ i, (Finset.univ.filter fun j => g.W.dense i j ≠ 0).card : ℕ) : ℝ) = ((2 * (m * (N - m0)) : ℕ) : ℝ) := by
      push_cast
      rw [Finset.sum_congr rfl fun i _ => card_eq_sum hI.bin i, hI.total, t2]
      ring
    have : ∑ i, (Finset.univ.filter fun j => g.W.dense i j ≠ 0).card = 2 * (m * (N - m0)) := by exact_mod_cast this
    omega
  · -- everything is connected to the vertex m0
    have key : ∀ k, ∀ v : Fin N, v.1 = k → Reach g.W.dense v ⟨m0, hN⟩ := by
      intro k
      induction k using Nat.strong_induction_on with
      | _ k ih =>
        intro v hv
        rcases lt_trichotomy v.1 m0 with h | h | h
        · -- m0 is connected to all the earlier vertices
          have hcard := hback ⟨m0, hN⟩ le_rfl
          have hsub : (Finset.univ.filter fun v : Fin N => v < ⟨m0, hN⟩ ∧ g.W.dense ⟨m0, hN⟩ v ≠ 0) ⊆ Finset.univ.filter fun v : Fin N => v.1 < m0 := by
            intro w hw
            exact Finset.mem_filter.2 ⟨Finset.mem_univ _, (Finset.mem_filter.1 hw).2.1⟩
          have heq := Finset.eq_of_subset_of_card_le hsub (by rw [card_lt_fin hN.le, hcard, hmm])
          have : v ∈ Finset.univ.filter fun v : Fin N => v.1 < m0 := Finset.mem_filter.2 ⟨Finset.mem_univ _, h⟩
          rw [← heq] at this
          have hne := (Finset.mem_filter.1 this).2.2
          rw [hu] at hne
          exact .single hne
        · have : v = ⟨m0, hN⟩ := Fin.ext h
          rw [this]; exact .refl
        · have hcard := hback v h.le
          have hpos : 0 < (Finset.univ.filter fun w => w < v ∧ g.W.dense v w ≠ 0).card := by rw [hcard]; omega
          obtain ⟨w, hw⟩ := Finset.card_pos.1 hpos
          obtain ⟨-, w1, w2⟩ := Finset.mem_filter.1 hw
          exact (Relation.ReflTransGen.single (show Arc g.W.dense v w from w2)).trans (ih w.1 (by have := Fin.lt_def.1 w1; omega) w rfl)
    intro i j
    exact (key _ i rfl).trans (reach_symm hu (key _ j rfl))

open Classical in
/-- **Preferential attachment**: the generator draws the neighbours of every vertex `i ≥ m0` among the earlier vertices, with probabilities
proportional to one plus their degree at that time. -/
theorem C75_attachment {m0 m : ℕ} (h0 : 1 ≤ m0) (hm : m ≤ m0) {choice : ℕ → (Fin N → ℝ) → List (Fin N)} (hc : ChoiceSpec m choice) {lt : LapType}
    {g : Graph N ℝ} (hg : barabasiAlbert N m0 m choice lt = .ok g) :
    ∀ i : Fin N, m0 ≤ i.1 → ∃ p : Fin N → ℝ,
      (∀ v, p v = if v < i then (((Finset.univ.filter fun u => u < i ∧ g.W.dense v u ≠ 0).card : ℝ) + 1) / (2 * m * (i.1 - m0 : ℕ) + i.1) else 0) ∧
      ∀ v < i, g.W.dense i v = if v ∈ choice i.1 p then 1 else 0 := by
  have hlt : lt = .combinatorial ∨ lt = .normalized := by
    unfold barabasiAlbert at hg
    rw [if_neg (by omega)] at hg
    split at hg
    · cases hg
    · exact (Graph.ofCsr_ok hg).2.2.2
  obtain ⟨g', g1, g2, t, t1, t2, hI⟩ := ba_ok h0 hm hc hlt
  rw [hg] at g1
  obtain rfl := Except.ok.inj g1
  intro i hi
  refine ⟨baP m0 m g.W.dense i.1, fun v => rfl, fun v hv => ?_⟩
  have := hI.nb i v hi (by omega) hv
  split
  · rename_i q; exact this.2 q
  · rename_i q
    exact (hI.bin i v).resolve_right fun e => q (this.1 e)

/-- ValueError is raised when `m > m0`, and (through NaN probabilities) when `m0 = 0` and there is at least one vertex. -/
theorem C75_errors (N m0 m : ℕ) (choice : ℕ → (Fin N → ℝ) → List (Fin N)) (lt : LapType) :
    (m0 < m → barabasiAlbert N m0 m choice lt = .error .valueError) ∧
      (m0 = 0 → 0 < N → barabasiAlbert N m0 m choice lt = .error .valueError) := by
  constructor
  · intro h
    unfold barabasiAlbert
    rw [if_pos h]
  · rintro rfl hN
    unfold barabasiAlbert
    split
    · rfl
    · obtain ⟨n, rfl⟩ : ∃ n, N = n + 1 := ⟨N - 1, by omega⟩
      have : baStep m choice 0 (0 : Matrix (Fin (n + 1)) (Fin (n + 1)) ℝ) = .error .valueError := by
        unfold baStep
        simp only
        rw [if_pos (by simp)]
      rw [Nat.sub_zero, baLoop, this]

/-- the hypothesis on the generator can be met -/
theorem exists_choice (N m : ℕ) : ∃ choice : ℕ → (Fin N → ℝ) → List (Fin N), ChoiceSpec m choice := by
  classical
  refine ⟨fun _ p => ((Finset.univ.filter fun v => p v ≠ 0).toList).take m, fun i p _ _ h => ⟨?_, ?_, fun v hv => ?_⟩⟩
  · exact (Finset.nodup_toList _).sublist (List.take_sublist _ _)
  · rw [List.length_take, Finset.length_toList]; omega
  · have := List.mem_of_mem_take hv
    rw [Finset.mem_toList] at this
    exact (Finset.mem_filter.1 this).2

example : ∃ (choice : ℕ → (Fin 10 → ℝ) → List (Fin 10)) (g : Graph 10 ℝ), barabasiAlbert 10 2 2 choice .combinatorial = .ok g ∧ g.nEdges = 16 ∧
    StronglyConnected g.W.dense := by
  obtain ⟨choice, hc⟩ := exists_choice 10 2
  obtain ⟨g, h1, -, -, -, -, h2, -, -, h3⟩ := C75_structure (N := 10) (m0 := 2) (m := 2) (by norm_num) le_rfl hc (.inl rfl)
  exact ⟨choice, g, h1, h2, h3 rfl (by norm_num)⟩

end PyGSP
