import Verif.Lemmas.Clusters
import Verif.Props.Bottleneck
import Verif.Props.Components

/-!
# C132: clusters of the graph are clusters of the first Fourier modes
-/

namespace PyGSP

open Matrix Spec GState Real Cheeger

variable {n k : ℕ} {R : Type}

namespace Spec

/-- A set of vertices knit by `α`: the subgraph that `subgraph` extracts on these vertices has a single vertex or `e[1] ≥ α`. -/
def Knit (o : GraphObj n ℝ R) (A : Finset (Fin n)) (α : ℝ) : Prop :=
  ∃ (l : List (Fin n)) (o' : GraphObj l.length ℝ R) (S' : Solvers l.length) (s' : GState l.length) (e' : Fin l.length → ℝ)
    (U' : Matrix (Fin l.length) (Fin l.length) ℝ), l.Nodup ∧ (∀ v, v ∈ l ↔ v ∈ A) ∧ o.subgraph (.idx l) = .ok o' ∧ Ready S' o'.graph s' ∧
    s'.lapType = .combinatorial ∧ s'.basis = some ⟨l.length, e', U'⟩ ∧ ∀ h : 2 ≤ l.length, α ≤ e' ⟨1, h⟩

/-- The first `k` Fourier modes at a vertex: `U[v, :k]`. -/
def embedding {k : ℕ} (U : Matrix (Fin n) (Fin n) ℝ) (h : k ≤ n) (i : Fin k) (v : Fin n) : ℝ := U v (i.castLE h)

/-- A vertex whose `U[v, :k]` is at least as close to the mean of another cluster as to the mean of its own. -/
def Misplaced {k : ℕ} (x : Fin k → Fin n → ℝ) (label : Fin n → Fin k) (v : Fin n) : Prop :=
  ∃ d, d ≠ label v ∧ ∑ i, (x i v - clusterMean label (x i) d) ^ 2 ≤ ∑ i, (x i v - clusterMean label (x i) (label v)) ^ 2

end Spec

namespace Clusters

theorem sum_get {l : List (Fin n)} (hl : l.Nodup) {A : Finset (Fin n)} (hA : ∀ v, v ∈ l ↔ v ∈ A) (f : Fin n → ℝ) : ∑ a : Fin l.length, f (l.get a) = ∑ v ∈ A, f v := by
  refine Finset.sum_bij (fun a _ => l.get a) (fun a _ => (hA _).1 (List.get_mem _ _)) (fun a _ b _ h => List.nodup_iff_injective_get.1 hl h) (fun v hv => ?_)
    fun _ _ => rfl
  obtain ⟨a, ha⟩ := List.mem_iff_get.1 ((hA v).2 hv)
  exact ⟨a, Finset.mem_univ _, ha⟩

/-- the weights of the extracted subgraph -/
theorem sub_weights (o : GraphObj n ℝ R) (ho : o.graph.Built) (hs : (o.signals.map Prod.fst).Nodup) (l : List (Fin n)) :
    ∃ o' : GraphObj l.length ℝ R, o.subgraph (.idx l) = .ok o' ∧ o'.graph.Built ∧ o'.graph.lapType = o.graph.lapType ∧
      ∀ a b, o'.graph.W.dense a b = o.graph.W.dense (l.get a) (l.get b) := by
  have hlt := ho.lapType_known
  obtain ⟨g', h1, h2⟩ := subgraph_eq o (.idx l) hs hlt
  obtain ⟨g'', h3, h4, h5, h6⟩ := Graph.ofCsr_canonical (o.graph.W.fancyIndex l l) (ho.canonical.fancyIndex _ _) hlt
  have : g'' = g' := Except.ok.inj (h3.symm.trans h1)
  subst this
  refine ⟨_, h2, h4, h6, fun a b => ?_⟩
  change g''.W.dense a b = _
  rw [h5, Sp.dense_fancyIndex]

/-- the variations of a signal inside a knit set -/
theorem knit_var (o : GraphObj n ℝ R) (ho : o.graph.Built) (hs : (o.signals.map Prod.fst).Nodup) {A : Finset (Fin n)} {α : ℝ} (hk : Knit o A α) (x : Fin n → ℝ) :
    α * ∑ v ∈ A, (x v - (∑ u ∈ A, x u) / A.card) ^ 2 ≤ 1 / 2 * ∑ i ∈ A, ∑ j ∈ A, wsym o.graph.W.dense i j * (x i - x j) ^ 2 := by
  obtain ⟨l, o', S', s', e', U', hl, hA, hsub, hr, hc, hb, hα⟩ := hk
  have hcard : (A.card : ℝ) = l.length := by
    have := sum_get hl hA fun _ => 1
    simpa using this.symm
  have hW : ∀ a b, o'.graph.W.dense a b = o.graph.W.dense (l.get a) (l.get b) := by
    obtain ⟨o'', h1, -, -, h2⟩ := sub_weights o ho hs l
    obtain rfl : o' = o'' := Except.ok.inj (hsub.symm.trans h1)
    exact h2
  have hdir : dirichlet o'.graph.W.dense (fun a => x (l.get a)) = 1 / 2 * ∑ i ∈ A, ∑ j ∈ A, wsym o.graph.W.dense i j * (x i - x j) ^ 2 := by
    rw [dirichlet_wsym, ← sum_get hl hA]
    congr 1
    refine Finset.sum_congr rfl fun a _ => ?_
    rw [← sum_get hl hA]
    refine Finset.sum_congr rfl fun b _ => ?_
    unfold wsym
    rw [hW, hW]
  rw [← hdir, ← sum_get hl hA, ← sum_get hl hA, hcard]
  rcases Nat.lt_or_ge 1 l.length with h2 | h2
  · have hE := C115_poincare hr hc hb h2 fun a => x (l.get a)
    obtain ⟨E, hE, h3, -⟩ := hE
    have hE' : E = dirichlet o'.graph.W.dense (fun a => x (l.get a)) := by
      rw [← combLap_quad, ← hr.comb hc]
      unfold dirichletEnergyPy checkSignal at hE
      simp only [dite_true] at hE
      exact (Except.ok.inj hE).symm
    rw [← hE']
    exact (mul_le_mul_of_nonneg_right (hα h2) (Finset.sum_nonneg fun _ _ => sq_nonneg _)).trans h3
  · have h1 : l.length = 1 := le_antisymm h2 hr.pos
    have : ∀ a : Fin l.length, x (l.get a) - (∑ b : Fin l.length, x (l.get b)) / l.length = 0 := fun a => by
      obtain ⟨m, hm⟩ : ∃ m, l = [m] := List.length_eq_one_iff.1 h1
      subst hm
      simp
    rw [Finset.sum_eq_zero fun a _ => by rw [this a]; ring, mul_zero]
    exact dirichlet_nonneg hr.nonneg _

/-- the energy of a signal is at least `α` times its variations inside the clusters -/
theorem scatter_energy (o : GraphObj n ℝ R) (ho : o.graph.Built) (hs : (o.signals.map Prod.fst).Nodup) (hW : NonnegW o.graph.W.dense) (label : Fin n → Fin k) {α : ℝ}
    (hk : ∀ c, Knit o (members label c) α) (x : Fin n → ℝ) : α * scatter label x ≤ dirichlet o.graph.W.dense x := by
  have h1 : scatter label x = ∑ c, ∑ v ∈ members label c, (x v - (∑ u ∈ members label c, x u) / (members label c).card) ^ 2 := by
    unfold scatter
    rw [← sum_members (label := label)]
    refine Finset.sum_congr rfl fun c _ => Finset.sum_congr rfl fun v hv => ?_
    rw [(mem v c).1 hv, clusterMean]
  rw [h1, Finset.mul_sum]
  refine (Finset.sum_le_sum fun c _ => knit_var o ho hs (hk c) x).trans ?_
  rw [dirichlet_wsym, ← Finset.mul_sum]
  refine mul_le_mul_of_nonneg_left ?_ (by norm_num)
  rw [← sum_members (label := label)]
  refine Finset.sum_le_sum fun c _ => Finset.sum_le_sum fun i _ => ?_
  exact Finset.sum_le_sum_of_subset_of_nonneg (Finset.subset_univ _) fun j _ _ => mul_nonneg (wsym_nonneg hW i j) (sq_nonneg _)

end Clusters

open Clusters

variable {S : Solvers n} {s : GState n} {e : Fin n → ℝ} {U : Matrix (Fin n) (Fin n) ℝ} {label : Fin n → Fin k} {α : ℝ}

/-- **C132** For every partition of the vertices, the first `k` frequencies sum to at most its ratio cut. -/
theorem C132_frequencies {g : Graph n ℝ} (h : Ready S g s) (hl : s.lapType = .combinatorial) (hb : s.basis = some ⟨n, e, U⟩) (hs : Function.Surjective label)
    (hkn : k ≤ n) : ∑ i : Fin k, e (i.castLE hkn) ≤ ratioCut g.W.dense label := by
  refine (ratio (h.pairs hb).1 (h.pairs hb).2 hs hkn).trans (le_of_eq ?_)
  unfold ratioCut
  refine Finset.sum_congr rfl fun c _ => ?_
  rw [h.comb hl, combLap_quad, dirichlet_ind]

/-- **C132** Where the clusters are knit by `α`, the mode of frequency `e[i]` varies inside the clusters by at most `e[i] / α`. -/
theorem C132_mode (o : GraphObj n ℝ R) (h : Ready S o.graph s) (hsig : (o.signals.map Prod.fst).Nodup) (hl : s.lapType = .combinatorial)
    (hb : s.basis = some ⟨n, e, U⟩) (hk : ∀ c, Knit o (members label c) α) (i : Fin n) : α * scatter label (fun v => U v i) ≤ e i := by
  refine (scatter_energy o h.built hsig h.nonneg label hk _).trans (le_of_eq ?_)
  rw [← combLap_quad, ← h.comb hl]
  exact col_quad (h.pairs hb).1 i

/-- **C132** The points `U[v, :k]` gather around the means of the clusters: `α` times the k-means cost of the partition is at most its ratio cut. -/
theorem C132_gather (o : GraphObj n ℝ R) (h : Ready S o.graph s) (hsig : (o.signals.map Prod.fst).Nodup) (hl : s.lapType = .combinatorial)
    (hb : s.basis = some ⟨n, e, U⟩) (hk : ∀ c, Knit o (members label c) α) (hs : Function.Surjective label) (hkn : k ≤ n) :
    α * ∑ v, ∑ i, (embedding U hkn i v - clusterMean label (embedding U hkn i) (label v)) ^ 2 ≤ ratioCut o.graph.W.dense label := by
  refine le_trans (le_of_eq ?_) ((Finset.sum_le_sum fun i _ => C132_mode o h hsig hl hb hk (Fin.castLE hkn i)).trans (C132_frequencies h hl hb hs hkn))
  rw [Finset.sum_comm, Finset.mul_sum]
  rfl

theorem gather_le (o : GraphObj n ℝ R) (h : Ready S o.graph s) (hsig : (o.signals.map Prod.fst).Nodup) (hl : s.lapType = .combinatorial)
    (hb : s.basis = some ⟨n, e, U⟩) (hα : 0 < α) (hk : ∀ c, Knit o (members label c) α) (hs : Function.Surjective label) (hkn : k ≤ n) :
    ∑ i, scatter label (embedding U hkn i) ≤ ratioCut o.graph.W.dense label / α := by
  rw [le_div_iff₀ hα]
  have := C132_gather o h hsig hl hb hk hs hkn
  rw [Finset.sum_comm, mul_comm] at this
  exact this

theorem embedding_ortho {g : Graph n ℝ} (h : Ready S g s) (hb : s.basis = some ⟨n, e, U⟩) (hkn : k ≤ n) (i j : Fin k) :
    ∑ v, embedding U hkn i v * embedding U hkn j v = if i = j then 1 else 0 := by
  have := congrFun (congrFun (h.pairs hb).1.orthonormal (i.castLE hkn)) (j.castLE hkn)
  rw [Matrix.mul_apply] at this
  simp only [Matrix.transpose_apply, Matrix.one_apply] at this
  unfold embedding
  rw [this]
  by_cases hij : i = j
  · simp [hij]
  · rw [if_neg hij, if_neg fun hc => hij (Fin.castLE_injective hkn hc)]

/-- **C132** The means of the clusters in `U[:, :k]` are far from each other: at least `(1 - ratioCut / α) (1 / |A| + 1 / |B|)` squared. -/
theorem C132_apart (o : GraphObj n ℝ R) (h : Ready S o.graph s) (hsig : (o.signals.map Prod.fst).Nodup) (hl : s.lapType = .combinatorial)
    (hb : s.basis = some ⟨n, e, U⟩) (hα : 0 < α) (hk : ∀ c, Knit o (members label c) α) (hs : Function.Surjective label) (hkn : k ≤ n) {c d : Fin k} (hcd : c ≠ d) :
    (1 - ratioCut o.graph.W.dense label / α) * (1 / (members label c).card + 1 / (members label d).card) ≤
      ∑ i, (clusterMean label (embedding U hkn i) c - clusterMean label (embedding U hkn i) d) ^ 2 :=
  separated (embedding_ortho h hb hkn) (gather_le o h hsig hl hb hα hk hs hkn) hs hcd

open Classical in
/-- **C132** Few vertices are closer to another cluster than to theirs, each counted for one over the size of its cluster. -/
theorem C132_misplaced (o : GraphObj n ℝ R) (h : Ready S o.graph s) (hsig : (o.signals.map Prod.fst).Nodup) (hl : s.lapType = .combinatorial)
    (hb : s.basis = some ⟨n, e, U⟩) (hα : 0 < α) (hk : ∀ c, Knit o (members label c) α) (hs : Function.Surjective label) (hkn : k ≤ n) :
    (1 - ratioCut o.graph.W.dense label / α) * ∑ v with Misplaced (embedding U hkn) label v, 1 / ((members label (label v)).card : ℝ) ≤
      4 * (ratioCut o.graph.W.dense label / α) := by
  set η := ratioCut o.graph.W.dense label / α with hη
  have h0 := gather_le o h hsig hl hb hα hk hs hkn
  have hη0 : 0 ≤ η := (Finset.sum_nonneg fun i _ => scatter_nonneg _).trans h0
  rcases le_or_gt 1 η with h1 | h1
  · have : 0 ≤ ∑ v with Misplaced (embedding U hkn) label v, 1 / ((members label (label v)).card : ℝ) := Finset.sum_nonneg fun _ _ => by positivity
    nlinarith
  · rw [Finset.mul_sum]
    refine le_trans ?_ (mul_le_mul_of_nonneg_left h0 (by norm_num : (0 : ℝ) ≤ 4))
    have hsc : ∑ i, scatter label (embedding U hkn i) = ∑ v, ∑ i, (embedding U hkn i v - clusterMean label (embedding U hkn i) (label v)) ^ 2 := by
      rw [Finset.sum_comm]; rfl
    rw [hsc, Finset.mul_sum]
    refine le_trans (Finset.sum_le_sum fun v hv => ?_) (Finset.sum_le_sum_of_subset_of_nonneg (Finset.subset_univ _) fun v _ _ =>
      mul_nonneg (by norm_num) (Finset.sum_nonneg fun _ _ => sq_nonneg _))
    obtain ⟨d, hd, hv⟩ := (Finset.mem_filter.1 hv).2
    refine le_trans (mul_le_mul_of_nonneg_left ?_ (by linarith)) (misplaced (embedding_ortho h hb hkn) h0 hs hd hv)
    have := card_pos hs d
    have : (0 : ℝ) ≤ 1 / (members label d).card := by positivity
    linarith

/-- **C132** In a cluster of at most `(α - ratioCut) / (4 ratioCut)` vertices, every vertex is closer to its own cluster than to the others. -/
theorem C132_recovered (o : GraphObj n ℝ R) (h : Ready S o.graph s) (hsig : (o.signals.map Prod.fst).Nodup) (hl : s.lapType = .combinatorial)
    (hb : s.basis = some ⟨n, e, U⟩) (hα : 0 < α) (hk : ∀ c, Knit o (members label c) α) (hs : Function.Surjective label) (hkn : k ≤ n) {v : Fin n}
    (hv : ratioCut o.graph.W.dense label * (4 * (members label (label v)).card + 1) < α) {d : Fin k} (hd : d ≠ label v) :
    ∑ i, (embedding U hkn i v - clusterMean label (embedding U hkn i) (label v)) ^ 2 < ∑ i, (embedding U hkn i v - clusterMean label (embedding U hkn i) d) ^ 2 := by
  classical
  by_contra hc
  have hm := C132_misplaced o h hsig hl hb hα hk hs hkn
  have hc0 := card_pos hs (label v)
  have h0 := gather_le o h hsig hl hb hα hk hs hkn
  set η := ratioCut o.graph.W.dense label / α with hη
  have hη0 : 0 ≤ η := (Finset.sum_nonneg fun i _ => scatter_nonneg _).trans h0
  have hηv : η * (4 * (members label (label v)).card + 1) < 1 := by
    rw [hη, div_mul_eq_mul_div, div_lt_one hα]; exact hv
  have h1 : η < 1 := by nlinarith
  have hge : 1 / ((members label (label v)).card : ℝ) ≤ ∑ v with Misplaced (embedding U hkn) label v, 1 / ((members label (label v)).card : ℝ) :=
    Finset.single_le_sum (f := fun v => 1 / ((members label (label v)).card : ℝ)) (fun _ _ => by positivity)
      (Finset.mem_filter.2 ⟨Finset.mem_univ _, d, hd, not_lt.1 hc⟩)
  have h2 := (mul_le_mul_of_nonneg_left hge (by linarith : 0 ≤ 1 - η)).trans hm
  rw [mul_one_div, div_le_iff₀ hc0] at h2
  nlinarith

/-- **C132** Without edges between the clusters, all the vertices of a cluster have the same `U[v, :k]`, and those of two clusters differ. -/
theorem C132_components (o : GraphObj n ℝ R) (h : Ready S o.graph s) (hsig : (o.signals.map Prod.fst).Nodup) (hl : s.lapType = .combinatorial)
    (hb : s.basis = some ⟨n, e, U⟩) (hα : 0 < α) (hk : ∀ c, Knit o (members label c) α) (hs : Function.Surjective label) (hkn : k ≤ n)
    (hcut : ∀ u v, label u ≠ label v → o.graph.W.dense u v = 0) (u v : Fin n) :
    (∀ i, embedding U hkn i u = embedding U hkn i v) ↔ label u = label v := by
  have h0 : ratioCut o.graph.W.dense label = 0 := by
    refine Finset.sum_eq_zero fun c _ => ?_
    have : cut o.graph.W.dense (members label c) = 0 := Finset.sum_eq_zero fun a ha => Finset.sum_eq_zero fun b hb => by
      have h1 : label a ≠ label b := fun hc => Finset.mem_compl.1 hb ((mem b c).2 (hc ▸ (mem a c).1 ha))
      unfold wsym
      rw [hcut a b h1, hcut b a h1.symm]
      norm_num
    rw [this, zero_div]
  have h1 := gather_le o h hsig hl hb hα hk hs hkn
  rw [h0, zero_div] at h1
  have hz : ∀ i w, embedding U hkn i w = clusterMean label (embedding U hkn i) (label w) := fun i w => by
    have h2 := (Finset.sum_eq_zero_iff_of_nonneg fun i _ => scatter_nonneg (label := label) (embedding U hkn i)).1
      (le_antisymm h1 (Finset.sum_nonneg fun i _ => scatter_nonneg _)) i (Finset.mem_univ _)
    have h3 := (Finset.sum_eq_zero_iff_of_nonneg fun w _ => sq_nonneg (embedding U hkn i w - clusterMean label (embedding U hkn i) (label w))).1 h2 w (Finset.mem_univ _)
    exact sub_eq_zero.1 (pow_eq_zero_iff (by norm_num) |>.1 h3)
  refine ⟨fun hc => ?_, fun hc i => by rw [hz i u, hz i v, hc]⟩
  by_contra hne
  have h2 := C132_apart o h hsig hl hb hα hk hs hkn hne
  rw [h0, zero_div, sub_zero, one_mul, Finset.sum_eq_zero fun i _ => by rw [← hz i u, ← hz i v, hc i]; ring] at h2
  have := card_pos hs (label u)
  have := card_pos hs (label v)
  have : 0 < 1 / ((members label (label u)).card : ℝ) + 1 / (members label (label v)).card := by positivity
  linarith

/-! ## A concrete case: two edges of weight one, linked by an edge of weight 1/10 -/

/-- Two edges of weight one and a weak link. -/
noncomputable def twoPairs (w : ℝ) : Matrix (Fin 4) (Fin 4) ℝ := !![0, 1, 0, 0; 1, 0, w, 0; 0, w, 0, 1; 0, 0, 1, 0]

/-- Which of the two edges a vertex belongs to. -/
def pairOf : Fin 4 → Fin 2 := ![0, 0, 1, 1]

/-- an edge of weight one is knit by 2 -/
theorem knit_pair {A : Finset (Fin n)} (o : GraphObj n ℝ R) (ho : o.graph.Built) (hs : (o.signals.map Prod.fst).Nodup) (hc : o.graph.lapType = .combinatorial)
    (hW : NonnegW o.graph.W.dense) {a b : Fin n} (hab : a ≠ b) (hmem : ∀ v, v ∈ [a, b] ↔ v ∈ A) (h1 : o.graph.W.dense a b = 1) (h2 : o.graph.W.dense b a = 1) :
    Knit o A 2 := by
  obtain ⟨o', hsub, hbt, hlt, hd⟩ := sub_weights o ho hs [a, b]
  have hnn : NonnegW o'.graph.W.dense := fun i j => by
    rw [hd]
    exact hW _ _
  obtain ⟨S0, s0, hr0, hl0, -⟩ := ready_ofGraph hbt hnn (by simp) (hlt.trans hc)
  obtain ⟨e', U', -, hr, hb, -, hl, -⟩ := C113_computed hr0
  refine ⟨[a, b], o', S0, _, e', U', by simpa using hab, hmem, hsub, hr, hl.trans hl0, hb, fun h => ?_⟩
  have hcut := (C115_cut hr (hl.trans hl0) hb h {⟨0, by simp⟩}).2
  have hcv : cut o'.graph.W.dense {⟨0, by simp⟩} = 1 := by
    unfold cut
    have : ({⟨0, by simp⟩} : Finset (Fin [a, b].length))ᶜ = {⟨1, by simp⟩} := by
      ext i
      obtain ⟨i, hi⟩ := i
      simp only [List.length_cons, List.length_nil] at hi
      interval_cases i <;> simp
    rw [this, Finset.sum_singleton, Finset.sum_singleton, wsym, hd, hd]
    simp [h1, h2]
  rw [hcv, Finset.card_compl] at hcut
  simpa using hcut

theorem pair_knit (o : GraphObj 4 ℝ R) (ho : o.graph.Built) (hs : (o.signals.map Prod.fst).Nodup) (hc : o.graph.lapType = .combinatorial)
    {w : ℝ} (hw : 0 ≤ w) (hW : o.graph.W.dense = twoPairs w) (c : Fin 2) : Knit o (members pairOf c) 2 := by
  have hnn : NonnegW o.graph.W.dense := by
    rw [hW]
    intro u v
    revert u v
    simp [Fin.forall_fin_succ, twoPairs, hw]
  fin_cases c
  · exact knit_pair o ho hs hc hnn (a := 0) (b := 1) (by decide) (by decide) (by rw [hW]; simp [twoPairs]) (by rw [hW]; simp [twoPairs])
  · exact knit_pair o ho hs hc hnn (a := 2) (b := 3) (by decide) (by decide) (by rw [hW]; simp [twoPairs]) (by rw [hW]; simp [twoPairs])

/-- The hypotheses of `C132_mode`, `C132_gather`, `C132_apart`, `C132_misplaced` and `C132_recovered` hold of two linked edges: every vertex is closer to its
edge than to the other in `U[:, :2]`. -/
example : ∃ (o : GraphObj 4 ℝ ℝ) (S : Solvers 4) (s : GState 4) (e : Fin 4 → ℝ) (U : Matrix (Fin 4) (Fin 4) ℝ), Ready S o.graph s ∧
    s.lapType = .combinatorial ∧ s.basis = some ⟨4, e, U⟩ ∧ o.graph.W.dense = twoPairs (1 / 10) ∧ (∀ c, Knit o (members pairOf c) 2) ∧ Function.Surjective pairOf ∧
    ∀ v d, d ≠ pairOf v → ∑ i, (embedding U (by norm_num : 2 ≤ 4) i v - clusterMean pairOf (embedding U (by norm_num) i) (pairOf v)) ^ 2 <
      ∑ i, (embedding U (by norm_num : 2 ≤ 4) i v - clusterMean pairOf (embedding U (by norm_num) i) d) ^ 2 := by
  obtain ⟨g, hg, hd, hlt⟩ := Graph.exists_built (K := ℝ) (twoPairs (1 / 10))
  have hnn : NonnegW g.W.dense := by
    rw [hd]; intro u v
    revert u v
    simp [Fin.forall_fin_succ, twoPairs]
  obtain ⟨S0, s0, hr0, hl0, -⟩ := ready_ofGraph hg hnn (by norm_num) hlt
  obtain ⟨e, U, -, hr, hb, -, hl, -⟩ := C113_computed hr0
  have hk := pair_knit (R := ℝ) ⟨g, none, []⟩ hg (by simp) hlt (by norm_num) hd
  have hs : Function.Surjective pairOf := by decide
  have hm0 : members pairOf 0 = {0, 1} := by decide
  have hm1 : members pairOf 1 = {2, 3} := by decide
  have hc0 : ({0, 1} : Finset (Fin 4))ᶜ = {2, 3} := by decide
  have hc1 : ({2, 3} : Finset (Fin 4))ᶜ = {0, 1} := by decide
  have hcut : ratioCut g.W.dense pairOf = 1 / 10 := by
    unfold ratioCut
    rw [Fin.sum_univ_two, hm0, hm1, hd]
    unfold cut
    rw [hc0, hc1]
    simp [wsym, twoPairs]
  have hcard : ∀ c, (members pairOf c).card = 2 := by decide
  refine ⟨⟨g, none, []⟩, S0, _, e, U, hr, hl.trans hl0, hb, hd, hk, hs, fun v d hvd => ?_⟩
  refine C132_recovered (⟨g, none, []⟩ : GraphObj 4 ℝ ℝ) hr (by simp) (hl.trans hl0) hb (by norm_num : (0 : ℝ) < 2) hk hs (by norm_num) ?_ hvd
  change ratioCut g.W.dense pairOf * _ < 2
  rw [hcut, hcard]
  norm_num

/-- The hypotheses of `C132_components` hold of two edges without a link. -/
example : ∃ (o : GraphObj 4 ℝ ℝ) (S : Solvers 4) (s : GState 4) (e : Fin 4 → ℝ) (U : Matrix (Fin 4) (Fin 4) ℝ), Ready S o.graph s ∧
    s.lapType = .combinatorial ∧ s.basis = some ⟨4, e, U⟩ ∧ o.graph.W.dense = twoPairs 0 ∧ (∀ c, Knit o (members pairOf c) 2) ∧ Function.Surjective pairOf ∧
    (∀ u v, pairOf u ≠ pairOf v → o.graph.W.dense u v = 0) ∧
    ∀ u v, (∀ i, embedding U (by norm_num : 2 ≤ 4) i u = embedding U (by norm_num : 2 ≤ 4) i v) ↔ pairOf u = pairOf v := by
  obtain ⟨g, hg, hd, hlt⟩ := Graph.exists_built (K := ℝ) (twoPairs 0)
  have hnn : NonnegW g.W.dense := by
    rw [hd]; intro u v
    revert u v
    simp [Fin.forall_fin_succ, twoPairs]
  obtain ⟨S0, s0, hr0, hl0, -⟩ := ready_ofGraph hg hnn (by norm_num) hlt
  obtain ⟨e, U, -, hr, hb, -, hl, -⟩ := C113_computed hr0
  have hk := pair_knit (R := ℝ) ⟨g, none, []⟩ hg (by simp) hlt le_rfl hd
  have hs : Function.Surjective pairOf := by decide
  have hcut : ∀ u v, pairOf u ≠ pairOf v → g.W.dense u v = 0 := by
    rw [hd]
    simp [Fin.forall_fin_succ, twoPairs, pairOf]
  exact ⟨⟨g, none, []⟩, S0, _, e, U, hr, hl.trans hl0, hb, hd, hk, hs, hcut, fun u v =>
    C132_components (⟨g, none, []⟩ : GraphObj 4 ℝ ℝ) hr (by simp) (hl.trans hl0) hb (by norm_num : (0 : ℝ) < 2) hk hs (by norm_num) hcut u v⟩

end PyGSP
