import Verif.Model.NNSearch
import Verif.Props.NNGraph

/-!
# C130: `NNGraph(..., use_flann=True)`
-/

namespace PyGSP

open Matrix Spec Gen

variable {N d : ℕ}

namespace Spec

/-- An exact answer for the distances `δ`: a list of `k + 1` closest points for every point, with their distances. -/
def ExactAnswer (k : ℕ) (δ : Fin N → Fin N → ℝ) (F : Found N) : Prop :=
  F.flat = false ∧ KnnSpec k δ F.NN ∧ ∀ i, F.D i = (F.NN i).map (δ i)

end Spec

namespace Gen

/-- pairing the listed points with their distances is looking up the distances -/
theorem zip_sum (l : List (Fin N)) (f : Fin N → ℝ) (φ : Fin N → ℝ → ℝ) :
    ((l.zip (l.map f)).map fun e => φ e.1 e.2).sum = (l.map fun a => φ a (f a)).sum := by
  induction l with
  | nil => rfl
  | cons a l ih => simp [ih]

/-- an answer with the numbers `δ` instead of distances gives the matrix that `δ` gives -/
theorem foundKnn_eq {k : ℕ} (hN : 0 < N) (hk : 1 ≤ k) (sigma : Option ℝ) (δ : Fin N → Fin N → ℝ) {F : Found N} (hf : F.flat = false)
    (hl : ∀ i, (F.NN i).length = k + 1) (hD : ∀ i, F.D i = (F.NN i).map (δ i)) : foundKnn sigma F = nnKnn k sigma δ F.NN := by
  have hne : ¬ ∀ i, (F.D i).tail = [] := by
    intro q
    have := congrArg List.length (q ⟨0, hN⟩)
    rw [hD, List.length_tail, List.length_map, hl, List.length_nil] at this
    omega
  have hm : foundMean F = nnMean δ fun i => (F.NN i).tail := by
    unfold foundMean nnMean
    simp only [hD, List.map_tail, List.length_tail, List.length_map]
  have hw : ∀ σ, foundWeights σ F = nnWeights δ σ fun i => (F.NN i).tail := by
    intro σ
    unfold foundWeights nnWeights
    ext i j
    simp only [Matrix.of_apply, hD, ← List.map_tail]
    exact zip_sum _ (δ i) fun a x => if a = j then Real.exp (-x ^ 2 / σ) else 0
  unfold foundKnn nnKnn
  rw [hf, if_neg (by simp), if_neg hne, if_neg (by omega : ¬ k = 0)]
  simp only [hm, hw]

/-- the search by scipy is the one of `nnGraph` -/
theorem scipy_knn {k : ℕ} (hN : 0 < N) (sigma : Option ℝ) (nn : Fin N → List (Fin N)) (hl : ∀ i, (nn i).length = k + 1) (dist : DistType) (Y : Fin N → Fin d → ℝ) :
    (scipySearch nn dist Y k >>= foundKnn sigma) = (dist.order >>= fun p => nnKnn k sigma (fun i j => minkowski p (Y i) (Y j)) nn) := by
  unfold scipySearch
  match dist.order with
  | .error e => rfl
  | .ok p =>
    simp only [bind, Except.bind]
    by_cases hk : k = 0
    · subst hk
      simp [foundKnn, nnKnn]
    · exact foundKnn_eq (k := k) hN (by omega) sigma _ (by simp [hk]) hl fun i => rfl

/-- an order accepted by scipy is passed to scikit-learn -/
theorem skMetric_of {dist : DistType} {p : MinkP} (hp : dist.order = .ok p) : skMetric dist = p := by
  cases dist with
  | minkowski q =>
    unfold DistType.order at hp
    simp only at hp
    split at hp
    · cases hp
    · rename_i hq
      obtain rfl := Except.ok.inj hp
      unfold skMetric
      exact if_neg (by linarith)
  | other s => cases hp
  | _ => exact Except.ok.inj hp

/-- the end of the constructor: from the matrix to the graph -/
noncomputable def finish (method : SymMethod) (lt : LapType) (Y : Fin N → Fin d → ℝ) (W : Matrix (Fin N) (Fin N) ℝ) : Py (Graph N ℝ × (Fin N → Fin d → ℝ)) :=
  symmetrize true W method >>= fun S => Graph.ofCsr (Sp.ofDense S) lt >>= fun g => .ok (g, Y)

theorem any_knn (flann : Bool) (pf : PyflannSearch N d) (sk : SklearnSearch N d) {X Y : Fin N → Fin d → ℝ} {center rescale : Bool} {k : ℕ}
    (sigma : Option ℝ) (epsilon : ℝ) (method : SymMethod) (dist : DistType) (nn : Fin N → List (Fin N)) (lt : LapType) (hk : k < N)
    (hY : nnPoints center rescale X = .ok Y) :
    nnGraphAny flann pf sk X .knn center rescale k sigma epsilon method dist nn lt =
      ((nnSearch flann pf sk nn dist Y k >>= foundKnn sigma) >>= finish method lt Y) := by
  unfold nnGraphAny finish
  rw [if_neg (by omega), hY]
  simp only [bind, Except.bind]
  cases nnSearch flann pf sk nn dist Y k with
  | error e => rfl
  | ok F => rfl

theorem graph_knn {X Y : Fin N → Fin d → ℝ} {center rescale : Bool} {k : ℕ}
    (sigma : Option ℝ) (epsilon : ℝ) (method : SymMethod) (dist : DistType) (nn : Fin N → List (Fin N)) (lt : LapType) (hk : k < N)
    (hY : nnPoints center rescale X = .ok Y) :
    nnGraph X .knn center rescale k sigma epsilon method dist nn lt =
      ((dist.order >>= fun p => nnKnn k sigma (fun i j => minkowski p (Y i) (Y j)) nn) >>= finish method lt Y) := by
  unfold nnGraph finish
  rw [if_neg (by omega), hY]
  cases dist.order <;> rfl

/-- the graph depends on the search through the matrix only -/
theorem any_congr {flann flann' : Bool} {pf pf' : PyflannSearch N d} {sk sk' : SklearnSearch N d} {X Y : Fin N → Fin d → ℝ} {center rescale : Bool} {k : ℕ}
    {sigma : Option ℝ} {dist dist' : DistType} {nn nn' : Fin N → List (Fin N)} (hY : nnPoints center rescale X = .ok Y)
    (h : (nnSearch flann pf sk nn dist Y k >>= foundKnn sigma) = (nnSearch flann' pf' sk' nn' dist' Y k >>= foundKnn sigma)) (epsilon : ℝ)
    (method : SymMethod) (lt : LapType) :
    nnGraphAny flann pf sk X .knn center rescale k sigma epsilon method dist nn lt =
      nnGraphAny flann' pf' sk' X .knn center rescale k sigma epsilon method dist' nn' lt := by
  by_cases hk : N ≤ k
  · unfold nnGraphAny
    rw [if_pos hk, if_pos hk]
  · rw [any_knn flann pf sk sigma epsilon method dist nn lt (by omega) hY, any_knn flann' pf' sk' sigma epsilon method dist' nn' lt (by omega) hY, h]

/-- two exact answers are the same when no two points are at the same distance of a point -/
theorem knn_unique {k : ℕ} {δ : Fin N → Fin N → ℝ} {nn nn' : Fin N → List (Fin N)} (h : KnnSpec k δ nn) (h' : KnnSpec k δ nn')
    (hδ : ∀ i a b, δ i a = δ i b → a = b) : nn = nn' := by
  funext i
  obtain ⟨a1, a2, a3, a4⟩ := h i
  obtain ⟨b1, b2, b3, b4⟩ := h' i
  have key : ∀ l l' : List (Fin N), l.Nodup → l'.Nodup → l.length = l'.length → (∀ x ∈ l, ∀ j ∉ l, δ i x ≤ δ i j) → (∀ x ∈ l', ∀ j ∉ l', δ i x ≤ δ i j) →
      l ⊆ l' := by
    intro l l' n1 n2 hlen c1 c2 x hx
    by_contra hx'
    obtain ⟨y, hy, hy'⟩ : ∃ y ∈ l', y ∉ l := by
      by_contra q
      push Not at q
      have hsub : l'.toFinset ⊆ l.toFinset.erase x := by
        intro y hy
        rw [List.mem_toFinset] at hy
        exact Finset.mem_erase.2 ⟨fun e => hx' (e ▸ hy), List.mem_toFinset.2 (q y hy)⟩
      have hc := Finset.card_le_card hsub
      rw [Finset.card_erase_of_mem (List.mem_toFinset.2 hx), List.toFinset_card_of_nodup n1, List.toFinset_card_of_nodup n2] at hc
      have := List.length_pos_of_mem hx
      omega
    have e := hδ i x y (le_antisymm (c1 x hx y hy') (c2 y hy x hx'))
    exact hx' (e ▸ hy)
  have hperm : (nn i).Perm (nn' i) := (List.perm_ext_iff_of_nodup a1 b1).2 fun x =>
    ⟨fun q => key _ _ a1 b1 (a2.trans b2.symm) a4 b4 q, fun q => key _ _ b1 a1 (b2.trans a2.symm) b4 a4 q⟩
  exact hperm.eq_of_pairwise (fun x y _ _ p q => hδ i x y (le_antisymm p q)) a3 b3

end Gen

section

variable (pf : PyflannSearch N d) (sk : SklearnSearch N d) (X : Fin N → Fin d → ℝ) (type : NNType) (center rescale : Bool) (k : ℕ) (sigma : Option ℝ)
  (epsilon : ℝ) (method : SymMethod) (dist : DistType) (nn : Fin N → List (Fin N)) (lt : LapType)

/-- **`use_flann` makes no difference when neither package is installed**, nor for the search by radius: the graph, or the error, is the one of `use_flann=False`. -/
theorem C130_no_package (hnn : ∀ i, (nn i).length = k + 1) :
    (nnGraphAny false pf sk X type center rescale k sigma epsilon method dist nn lt = nnGraph X type center rescale k sigma epsilon method dist nn lt) ∧
    ((∀ m Y j, pf m Y j = .error .importError) → (∀ m Y j, sk m Y j = .error .importError) →
      nnGraphAny true pf sk X type center rescale k sigma epsilon method dist nn lt = nnGraph X type center rescale k sigma epsilon method dist nn lt) ∧
    (type ≠ .knn →
      nnGraphAny true pf sk X type center rescale k sigma epsilon method dist nn lt = nnGraph X type center rescale k sigma epsilon method dist nn lt) := by
  have main : ∀ flann, (type = .knn → ∀ Y, nnSearch flann pf sk nn dist Y k = scipySearch nn dist Y k) →
      nnGraphAny flann pf sk X type center rescale k sigma epsilon method dist nn lt = nnGraph X type center rescale k sigma epsilon method dist nn lt := by
    intro flann hs
    by_cases hkN : N ≤ k
    · unfold nnGraphAny nnGraph
      rw [if_pos hkN, if_pos hkN]
    match hY : nnPoints center rescale X with
    | .error e =>
      unfold nnGraphAny nnGraph
      rw [hY, if_neg hkN, if_neg hkN]
      rfl
    | .ok Y =>
      cases type with
      | knn =>
        rw [any_knn flann pf sk sigma epsilon method dist nn lt (by omega) hY, graph_knn sigma epsilon method dist nn lt (by omega) hY, hs rfl Y,
          scipy_knn (by omega) sigma nn hnn dist Y]
      | _ =>
        unfold nnGraphAny nnGraph
        rfl
  refine ⟨main false fun _ Y => by simp [nnSearch], fun h1 h2 => main true fun _ Y => ?_, fun h => main true fun e => absurd e h⟩
  simp [nnSearch, h1, h2]

end

section

variable {pf : PyflannSearch N d} {sk : SklearnSearch N d} {X : Fin N → Fin d → ℝ} {center rescale : Bool} {k : ℕ} {sigma : Option ℝ}
  {epsilon : ℝ} {method : SymMethod} {dist : DistType} {nn : Fin N → List (Fin N)} {lt : LapType} {Y : Fin N → Fin d → ℝ} {p : MinkP} {F : Found N}

/-- **With scikit-learn** and a valid metric, the graph is the one of an exact search, so that all of C79 holds for it. -/
theorem C130_sklearn (hk : 1 ≤ k) (hpf : pf dist Y (k + 1) = .error .importError) (hp : dist.order = .ok p) (hY : nnPoints center rescale X = .ok Y)
    (hsk : sk p Y (k + 1) = .ok F) (hF : ExactAnswer k (fun i j => minkowski p (Y i) (Y j)) F) :
    nnGraphAny true pf sk X .knn center rescale k sigma epsilon method dist nn lt = nnGraph X .knn center rescale k sigma epsilon method dist F.NN lt := by
  rw [← (C130_no_package pf sk X .knn center rescale k sigma epsilon method dist F.NN lt fun i => (hF.2.1 i).2.1).1]
  by_cases hkN : N ≤ k
  · unfold nnGraphAny
    rw [if_pos hkN, if_pos hkN]
  apply any_congr hY
  have e1 : nnSearch true pf sk nn dist Y k = .ok F := by
    simp [nnSearch, hpf, skMetric_of hp, hsk]
  have e2 : nnSearch false pf sk F.NN dist Y k = scipySearch F.NN dist Y k := by simp [nnSearch]
  rw [e1, e2, scipy_knn (by omega) sigma F.NN (fun i => (hF.2.1 i).2.1) dist Y, hp]
  exact foundKnn_eq (by omega) hk sigma _ hF.1 (fun i => (hF.2.1 i).2.1) hF.2.2

/-- **The same graph with and without `use_flann`**, when scikit-learn and scipy both answer exactly and no two points are at the same distance of a third (or the same) point. -/
theorem C130_same_graph (hk : 1 ≤ k) (hpf : pf dist Y (k + 1) = .error .importError) (hp : dist.order = .ok p) (hY : nnPoints center rescale X = .ok Y)
    (hsk : sk p Y (k + 1) = .ok F) (hF : ExactAnswer k (fun i j => minkowski p (Y i) (Y j)) F) (hnn : KnnSpec k (fun i j => minkowski p (Y i) (Y j)) nn)
    (hties : ∀ i a b, minkowski p (Y i) (Y a) = minkowski p (Y i) (Y b) → a = b) :
    nnGraphAny true pf sk X .knn center rescale k sigma epsilon method dist nn lt =
      nnGraphAny false pf sk X .knn center rescale k sigma epsilon method dist nn lt := by
  rw [C130_sklearn hk hpf hp hY hsk hF, (C130_no_package pf sk X .knn center rescale k sigma epsilon method dist nn lt fun i => (hnn i).2.1).1,
    knn_unique hF.2.1 hnn hties]

/-- **Wrong arguments are rejected without `use_flann` and silently replaced by the Euclidean distance with it**, when scikit-learn is used: an unknown `dist_type` (instead of a KeyError)
and a Minkowski order at most zero, which is the default value of `order` (instead of a ValueError). -/
theorem C130_metric_violated (hk : 1 ≤ k) (hkN : k < N) {wrong : DistType} (hw : (∃ s, wrong = .other s) ∨ ∃ q ≤ 0, wrong = .minkowski q)
    (hpf : pf wrong Y (k + 1) = .error .importError) (hY : nnPoints center rescale X = .ok Y)
    (hsk : sk (.fin 2) Y (k + 1) = .ok F) (hF : ExactAnswer k (fun i j => √(∑ a, (Y i a - Y j a) ^ 2)) F) :
    nnGraphAny true pf sk X .knn center rescale k sigma epsilon method wrong nn lt =
      nnGraph X .knn center rescale k sigma epsilon method .euclidean F.NN lt ∧
    ∃ e, nnGraph X .knn center rescale k sigma epsilon method wrong nn lt = .error e ∧ (e = .keyError ∨ e = .valueError) := by
  have hm : skMetric wrong = .fin 2 := by
    rcases hw with ⟨s, rfl⟩ | ⟨q, hq, rfl⟩
    · rfl
    · exact if_pos hq
  refine ⟨?_, ?_⟩
  · rw [← (C130_no_package pf sk X .knn center rescale k sigma epsilon method .euclidean F.NN lt fun i => (hF.2.1 i).2.1).1]
    apply any_congr hY
    have e1 : nnSearch true pf sk nn wrong Y k = .ok F := by
      simp [nnSearch, hpf, hm, hsk]
    have e2 : nnSearch false pf sk F.NN .euclidean Y k = scipySearch F.NN .euclidean Y k := by simp [nnSearch]
    rw [e1, e2, scipy_knn (by omega) sigma F.NN (fun i => (hF.2.1 i).2.1) .euclidean Y]
    refine foundKnn_eq (by omega) hk sigma _ hF.1 (fun i => (hF.2.1 i).2.1) fun i => ?_
    rw [hF.2.2]
    exact List.map_congr_left fun l _ => (mink_two _ _).symm
  · have h := (C79_errors X .knn center rescale k sigma epsilon method wrong nn lt).2 hkN Y hY
    rcases hw with ⟨s, rfl⟩ | ⟨q, hq, rfl⟩
    · exact ⟨_, h.2.1 s (.inl rfl), .inl rfl⟩
    · exact ⟨_, h.2.2.1 q (by linarith) (.inl rfl), .inr rfl⟩

/-- **Only a missing package is replaced**: any other error of pyflann, or of scikit-learn when pyflann is missing, is the error of the constructor. -/
theorem C130_errors (hkN : k < N) (hY : nnPoints center rescale X = .ok Y) {e : PyErr} (he : e ≠ .importError) :
    (pf dist Y (k + 1) = .error e → nnGraphAny true pf sk X .knn center rescale k sigma epsilon method dist nn lt = .error e) ∧
    (pf dist Y (k + 1) = .error .importError → dist.order = .ok p → sk p Y (k + 1) = .error e →
      nnGraphAny true pf sk X .knn center rescale k sigma epsilon method dist nn lt = .error e) := by
  constructor
  · intro hpf
    rw [any_knn _ _ _ _ _ _ _ _ _ hkN hY]
    unfold nnSearch
    rw [if_pos rfl, hpf]
    cases e <;> first | exact absurd rfl he | rfl
  · intro hpf hp hsk
    rw [any_knn _ _ _ _ _ _ _ _ _ hkN hY]
    unfold nnSearch
    rw [if_pos rfl, hpf, skMetric_of hp]
    dsimp only
    rw [hsk]
    cases e <;> first | exact absurd rfl he | rfl

/-- **`k = 0`** is an IndexError without `use_flann`; with scikit-learn, whose arrays always have two dimensions, the graph has no edge. -/
theorem C130_no_neighbour (hN : 0 < N) (hpf : pf dist Y 1 = .error .importError) (hp : dist.order = .ok p) (hY : nnPoints center rescale X = .ok Y)
    (hsk : sk p Y 1 = .ok F) (hF : ExactAnswer 0 (fun i j => minkowski p (Y i) (Y j)) F) (hm : ∀ s, method ≠ .other s) (hlt : lt = .combinatorial ∨ lt = .normalized) :
    (∃ g, nnGraphAny true pf sk X .knn center rescale 0 sigma epsilon method dist nn lt = .ok (g, Y) ∧ g.W.dense = 0) ∧
    ((∀ i, (nn i).length = 1) → nnGraphAny false pf sk X .knn center rescale 0 sigma epsilon method dist nn lt = .error .indexError) := by
  constructor
  · have e1 : nnSearch true pf sk nn dist Y 0 = .ok F := by
      simp [nnSearch, hpf, skMetric_of hp, hsk]
    have e2 : foundKnn sigma F = .ok 0 := by
      unfold foundKnn
      rw [hF.1, if_neg (by simp), if_pos]
      intro i
      apply List.eq_nil_of_length_eq_zero
      rw [hF.2.2, List.length_tail, List.length_map, (hF.2.1 i).2.1]
    obtain ⟨S, hS, hS0⟩ : ∃ S, symmetrize true (0 : Matrix (Fin N) (Fin N) ℝ) method = .ok S ∧ S = 0 := by
      obtain ⟨⟨S1, h1, h1'⟩, ⟨S2, h2, h2'⟩, h3, h4, h5⟩ := C53_values true (0 : Matrix (Fin N) (Fin N) ℝ)
      have hn : NonnegW (0 : Matrix (Fin N) (Fin N) ℝ) := fun i j => le_rfl
      obtain ⟨S3, h3, h3'⟩ := h3 hn
      obtain ⟨S4, h4, h4'⟩ := h4 hn
      obtain ⟨S5, h5, h5'⟩ := h5 hn
      cases method with
      | average => exact ⟨S1, h1, by ext i j; simp [h1']⟩
      | maximum => exact ⟨S2, h2, by ext i j; simp [h2']⟩
      | fill => exact ⟨S3, h3, by ext i j; simp [h3']⟩
      | tril => exact ⟨S4, h4, by ext i j; simp [h4']⟩
      | triu => exact ⟨S5, h5, by ext i j; simp [h5']⟩
      | other s => exact absurd rfl (hm s)
    obtain ⟨g, hg, -, hd, -⟩ := Graph.ofCsr_canonical _ (Sp.canonical_ofDense S) hlt
    refine ⟨g, ?_, by rw [hd, Sp.dense_ofDense, hS0]⟩
    unfold nnGraphAny
    rw [if_neg (by omega)]
    simp only [bind, Except.bind, hY, e1, e2, hS, hg]
  · intro hl
    rw [(C130_no_package pf sk X .knn center rescale 0 sigma epsilon method dist nn lt hl).1]
    unfold nnGraph
    rw [if_neg (by omega)]
    simp only [bind, Except.bind, hY, hp, nnKnn, if_true]

end

/-- **With pyflann the weights are made from the numbers that pyflann returns**, whatever they are.  If it answers with `k + 1` closest points and with the images of their distances by a function
`f`, then with the default symmetrization the weights are the means of the numbers `exp(-f(d)² / σ)` between a point and its `k` nearest neighbours, and `σ` is by default the mean of the `f(d)`.
FLANN documents that its Euclidean distances are squared (`f x = x ^ 2`): the weights are then `exp(-d⁴ / σ)`, where `use_flann=False` gives `exp(-d² / σ)`. -/
theorem C130_pyflann {pf : PyflannSearch N d} {sk : SklearnSearch N d} {X : Fin N → Fin d → ℝ} {center rescale : Bool} {k : ℕ} {sigma : Option ℝ}
    {epsilon : ℝ} {dist : DistType} {nn : Fin N → List (Fin N)} {lt : LapType} {g : Graph N ℝ} {Y : Fin N → Fin d → ℝ} {p : MinkP} {F : Found N} (f : ℝ → ℝ)
    (hk : 1 ≤ k) (hX : ∀ i j, X i = X j → i = j) (h : nnGraphAny true pf sk X .knn center rescale k sigma epsilon .average dist nn lt = .ok (g, Y))
    (hp : dist.order = .ok p) (hpf : pf dist Y (k + 1) = .ok F) (hflat : F.flat = false) (hF : KnnSpec k (fun i j => minkowski p (Y i) (Y j)) F.NN)
    (hD : ∀ i, F.D i = (F.NN i).map fun l => f (minkowski p (Y i) (Y l))) :
    ∃ nearest : Fin N → Finset (Fin N),
      (∀ i, i ∉ nearest i ∧ (nearest i).card = k ∧
        ∀ l ∈ nearest i, ∀ j ∉ nearest i, j ≠ i → minkowski p (Y i) (Y l) ≤ minkowski p (Y i) (Y j)) ∧
      ∃ σ, (∀ s, sigma = some s → σ = s) ∧ (sigma = none → σ = (∑ i, ∑ l ∈ nearest i, f (minkowski p (Y i) (Y l))) / (N * k)) ∧
        ∀ i j, g.W.dense i j = ((if j ∈ nearest i then Real.exp (-(f (minkowski p (Y i) (Y j))) ^ 2 / σ) else 0) +
          if i ∈ nearest j then Real.exp (-(f (minkowski p (Y j) (Y i))) ^ 2 / σ) else 0) / 2 := by
  have hv := order_valid hp
  have hkN : ¬ N ≤ k := by
    intro q
    unfold nnGraphAny at h
    rw [if_pos q] at h
    cases h
  match hY : nnPoints center rescale X with
  | .error e =>
    unfold nnGraphAny at h
    rw [if_neg hkN, hY] at h
    cases h
  | .ok Y' =>
    rw [any_knn true pf sk sigma epsilon .average dist nn lt (by omega) hY] at h
    match hs : (nnSearch true pf sk nn dist Y' k >>= foundKnn sigma), h with
    | .error e, h => cases h
    | .ok W, h =>
      simp only [finish, bind, Except.bind] at h
      match hS : symmetrize true W .average, h with
      | .error e, h => simp [hS] at h
      | .ok S, h =>
        match hg : Graph.ofCsr (Sp.ofDense S) lt, h with
        | .error e, h => simp [hS, hg] at h
        | .ok g', h =>
          simp only [hS, hg, Except.ok.injEq, Prod.mk.injEq] at h
          obtain ⟨rfl, rfl⟩ := h
          obtain ⟨g2, e1, e2, e3, -⟩ := Graph.ofCsr_canonical _ (Sp.canonical_ofDense S) (Graph.ofCsr_ok hg).2.2.2
          obtain rfl := Except.ok.inj (e1.symm.trans hg)
          rw [Sp.dense_ofDense] at e3
          obtain ⟨c, hc, s, hs'⟩ := points_affine (by omega) hY
          have h0 : ∀ i j, minkowski p (Y' i) (Y' j) = 0 ↔ i = j := by
            intro i j
            rw [hs' i, hs' j, mink_affine p hv hc.le, mul_eq_zero, or_iff_right hc.ne', mink_zero hv]
            exact ⟨hX i j, fun e => by rw [e]⟩
          have hhead := knn_head hF (fun i j => mink_nonneg p _ _) h0
          have htail : ∀ i, (F.NN i).tail.Nodup ∧ i ∉ (F.NN i).tail ∧ (F.NN i).tail.length = k ∧
              ∀ a ∈ (F.NN i).tail, ∀ j ∉ (F.NN i).tail, j ≠ i → minkowski p (Y' i) (Y' a) ≤ minkowski p (Y' i) (Y' j) := by
            intro i
            obtain ⟨l, e, q⟩ := hhead i
            rw [e, List.tail_cons]
            exact q
          have hsearch : nnSearch true pf sk nn dist Y' k = .ok F := by simp [nnSearch, hpf]
          rw [hsearch] at hs
          have hW : nnKnn k sigma (fun i j => f (minkowski p (Y' i) (Y' j))) F.NN = .ok W := by
            rw [← foundKnn_eq (by omega) hk sigma _ hflat (fun i => (hF i).2.1) hD]
            exact hs
          unfold nnKnn at hW
          rw [if_neg (by omega)] at hW
          simp only at hW
          split at hW
          · cases hW
          have hW := (Except.ok.inj hW).symm
          have hWa := fun i j => nnWeights_apply (fun i j => f (minkowski p (Y' i) (Y' j)))
            (sigma.getD (nnMean (fun i j => f (minkowski p (Y' i) (Y' j))) fun i => (F.NN i).tail)) (nb := fun i => (F.NN i).tail) (fun i => (htail i).1) i j
          rw [← hW] at hWa
          have hmem : ∀ i j, j ∈ (F.NN i).tail.toFinset ↔ j ∈ (F.NN i).tail := fun i j => List.mem_toFinset
          refine ⟨fun i => (F.NN i).tail.toFinset, fun i => ⟨?_, ?_, ?_⟩,
            sigma.getD (nnMean (fun i j => f (minkowski p (Y' i) (Y' j))) fun i => (F.NN i).tail), fun s e => ?_, fun e => ?_, fun i j => ?_⟩
          · rw [hmem]; exact (htail i).2.1
          · rw [List.toFinset_card_of_nodup (htail i).1]; exact (htail i).2.2.1
          · intro l hl j hj
            exact (htail i).2.2.2 l ((hmem _ _).1 hl) j (fun q => hj ((hmem _ _).2 q))
          · rw [e]; rfl
          · subst e
            rw [Option.getD_none, nnMean]
            congr 1
            · exact Finset.sum_congr rfl fun i _ => (List.sum_toFinset _ (htail i).1).symm
            · rw [Finset.sum_congr rfl fun i _ => (htail i).2.2.1]
              simp
          · obtain ⟨S1, h1, h1'⟩ := (C53_values true W).1
            obtain rfl := Except.ok.inj (h1.symm.trans hS)
            rw [e3, h1', hWa, hWa]
            simp only [hmem]

/-- a search that always answers exactly exists -/
theorem Gen.exists_exact (N d : ℕ) : ∃ sk : SklearnSearch N d, ∀ p Y k, k < N → ∃ F, sk p Y (k + 1) = .ok F ∧ ExactAnswer k (fun i j => minkowski p (Y i) (Y j)) F := by
  classical
  refine ⟨fun p Y j => if h : ∃ F, ExactAnswer (j - 1) (fun i j => minkowski p (Y i) (Y j)) F then .ok h.choose else .error .valueError, fun p Y k hk => ?_⟩
  have h : ∃ F, ExactAnswer (k + 1 - 1) (fun i j => minkowski p (Y i) (Y j)) F := by
    obtain ⟨nn, h⟩ := exists_knn hk fun i j => minkowski p (Y i) (Y j)
    exact ⟨⟨false, nn, fun i => (nn i).map fun l => minkowski p (Y i) (Y l)⟩, rfl, h, fun i => rfl⟩
  exact ⟨h.choose, dif_pos h, h.choose_spec⟩

/-- the hypotheses of the theorems about scikit-learn are met: the points 0, 1, 3 on a line, two neighbours, the Manhattan distance -/
example : ∃ (pf : PyflannSearch 3 1) (sk : SklearnSearch 3 1) (nn : Fin 3 → List (Fin 3)) (g : Graph 3 ℝ) (Y : Fin 3 → Fin 1 → ℝ),
    nnGraphAny true pf sk ![![0], ![1], ![3]] .knn false false 2 none 0 .average .manhattan nn .combinatorial = .ok (g, Y) ∧
    nnGraphAny false pf sk ![![0], ![1], ![3]] .knn false false 2 none 0 .average .manhattan nn .combinatorial = .ok (g, Y) := by
  obtain ⟨sk, hsk⟩ := Gen.exists_exact 3 1
  have hX : ∀ i j : Fin 3, (![![0], ![1], ![3]] : Fin 3 → Fin 1 → ℝ) i = ![![0], ![1], ![3]] j → i = j := by
    intro i j h
    have := congrFun h 0
    fin_cases i <;> fin_cases j <;> simp_all
  obtain ⟨Y, hY, hg⟩ := C79_returns (k := 2) (by norm_num) (by norm_num) hX false false (sigma := none) (by simp) 0 (method := .average) (by simp)
    (dist := .manhattan) (p := .fin 1) rfl (lt := .combinatorial) (.inl rfl)
  obtain rfl : ![![0], ![1], ![3]] = Y := Except.ok.inj hY
  obtain ⟨nn, hnn⟩ := exists_knn (k := 2) (by norm_num) fun i j : Fin 3 => minkowski (.fin 1) ((![![0], ![1], ![3]] : Fin 3 → Fin 1 → ℝ) i) (![![0], ![1], ![3]] j)
  obtain ⟨F, hF, hE⟩ := hsk (.fin 1) ![![0], ![1], ![3]] 2 (by norm_num)
  obtain ⟨g, hg⟩ := hg nn hnn
  have e2 := (C130_no_package (fun _ _ _ => .error .importError) sk ![![0], ![1], ![3]] .knn false false 2 none 0 .average .manhattan nn .combinatorial
    fun i => (hnn i).2.1).1
  refine ⟨fun _ _ _ => .error .importError, sk, nn, g, _, ?_, e2.trans hg⟩
  rw [C130_same_graph (by norm_num) rfl rfl hY hF hE hnn ?_, e2, hg]
  intro i a b h
  have h1 : ∀ x y : Fin 1 → ℝ, minkowski (.fin 1) x y = |x 0 - y 0| := by
    intro x y
    simp [minkowski]
  rw [h1, h1] at h
  clear hg e2 hE hF hnn hsk hX hY
  fin_cases i <;> fin_cases a <;> fin_cases b <;> first | rfl | (norm_num [abs_of_neg, abs_of_pos] at h)

end PyGSP
