import Verif.Props.IO

/-!
# C84: loading and saving

`Graph.load` and `G.save` choose a format and a backend.  The readers and writers of the two libraries are parameters.
-/

namespace PyGSP.IO

open Matrix

theorem takeWhile_ne_append {c : Char} {a b : Name} (ha : c ∉ a) (hb : b = [] ∨ b.head? = some c) :
    (a ++ b).takeWhile (fun x => x ≠ c) = a := by
  induction a with
  | nil =>
    rcases hb with rfl | hb
    · rfl
    · cases b with
      | nil => rfl
      | cons x b =>
        obtain rfl : x = c := by simpa using hb
        simp
  | cons x a ih =>
    have hx : x ≠ c := fun e => ha (by simp [e])
    rw [List.cons_append, List.takeWhile_cons_of_pos (by simpa using hx), ih fun h => ha (List.mem_cons_of_mem _ h)]

/-- the name of the file in a path -/
theorem file_part {dir file : Name} (hd : dir = [] ∨ dir.getLast? = some '/') (hf : '/' ∉ file) :
    (((dir ++ file).reverse.takeWhile fun c => c ≠ '/').reverse) = file := by
  rw [List.reverse_append, takeWhile_ne_append (by simpa using hf), List.reverse_reverse]
  rcases hd with rfl | hd
  · left; rfl
  · right; rwa [List.head?_reverse]

theorem dropWhile_dots {s t : Name} (h : ∃ c ∈ s, c ≠ '.') :
    (s ++ t).dropWhile (fun c => c = '.') = s.dropWhile (fun c => c = '.') ++ t := by
  induction s with
  | nil => obtain ⟨c, hc, -⟩ := h; cases hc
  | cons x s ih =>
    by_cases hx : x = '.'
    · subst hx
      have : ∃ c ∈ s, c ≠ '.' := by
        obtain ⟨c, hc, hne⟩ := h
        rcases List.mem_cons.1 hc with rfl | hc
        · exact absurd rfl hne
        · exact ⟨c, hc, hne⟩
      simpa using ih this
    · simp [hx]

/-- **C84** The format is guessed from the name of the file: `dir/stem.ext` has the format `ext`. -/
theorem C84_extension {dir stem ext : Name} (hd : dir = [] ∨ dir.getLast? = some '/') (hs : '/' ∉ stem) (he : '/' ∉ ext)
    (hdot : '.' ∉ ext) (hstem : ∃ c ∈ stem, c ≠ '.') {File : Type} (env : Env File) (backend : Backend) :
    (∀ content, load env (dir ++ (stem ++ '.' :: ext)) content none backend =
        load env (dir ++ (stem ++ '.' :: ext)) content (some ext) backend) ∧
      ∀ {n : ℕ} (g : Graph n ℝ) S, save env g S (dir ++ (stem ++ '.' :: ext)) none backend =
        save env g S (dir ++ (stem ++ '.' :: ext)) (some ext) backend := by
  have key : guessFmt (dir ++ (stem ++ '.' :: ext)) = ext := by
    unfold guessFmt
    rw [file_part hd (by simp [hs, he])]
    simp only [dropWhile_dots hstem]
    rw [if_pos (by simp), List.reverse_append, List.reverse_cons, List.append_assoc,
      takeWhile_ne_append (by simpa using hdot) (by right; simp), List.reverse_reverse]
  constructor
  · intro content
    simp only [load, Option.getD_none, Option.getD_some, key]
  · intro n g S
    simp only [save, Option.getD_none, Option.getD_some, key]

/-- **C84** A file name without an extension (or all of whose dots are at its beginning, as in `.graphml`) is not accepted unless a
format is given, and the graph is left alone. -/
theorem C84_no_extension {dir dots stem : Name} (hd : dir = [] ∨ dir.getLast? = some '/') (h1 : ∀ c ∈ dots, c = '.') (hs : '/' ∉ stem)
    (hdot : '.' ∉ stem) {File : Type} (env : Env File) (backend : Backend) :
    (∀ content, load env (dir ++ (dots ++ stem)) content none backend = .error .valueError) ∧
      ∀ {n : ℕ} (g : Graph n ℝ) S, save env g S (dir ++ (dots ++ stem)) none backend = (.error .valueError, S) := by
  have hsl : '/' ∉ dots := fun h => by simpa using h1 _ h
  have key : guessFmt (dir ++ (dots ++ stem)) = [] := by
    unfold guessFmt
    rw [file_part hd (by simp [hs, hsl])]
    have hb : (dots ++ stem).dropWhile (fun c => c = '.') = stem.dropWhile (fun c => c = '.') := by
      clear hsl
      induction dots with
      | nil => rfl
      | cons x l ih =>
        obtain rfl := h1 x (by simp)
        simpa using ih fun c hc => h1 c (List.mem_cons_of_mem _ hc)
    simp only [hb]
    rw [if_neg fun h => hdot ((List.dropWhile_suffix _).subset h)]
  have hns : ([] : Name) ∉ supported := by decide
  constructor
  · intro content
    simp only [load, Option.getD_none, key]
    rw [if_pos hns]
  · intro n g S
    simp only [save, Option.getD_none, key]
    rw [if_pos hns]

/-- **C84** A format other than graphml, gml and gexf, or a backend other than networkx and graph-tool, raises ValueError, and the
graph is left alone. -/
theorem C84_rejects {File : Type} (env : Env File) (path : Name) :
    (∀ fmt backend, fmt ≠ "graphml".toList → fmt ≠ "gml".toList → fmt ≠ "gexf".toList →
      (∀ content, load env path content (some fmt) backend = .error .valueError) ∧
        ∀ {n : ℕ} (g : Graph n ℝ) S, save env g S path (some fmt) backend = (.error .valueError, S)) ∧
    ∀ fmt name,
      (∀ content, load env path content fmt (.other name) = .error .valueError) ∧
        ∀ {n : ℕ} (g : Graph n ℝ) S, save env g S path fmt (.other name) = (.error .valueError, S) := by
  refine ⟨fun fmt backend h1 h2 h3 => ?_, fun fmt name => ⟨fun content => ?_, fun g S => ?_⟩⟩
  · have : fmt ∉ supported := by
      intro h
      simp only [supported, List.mem_cons, List.not_mem_nil, or_false] at h
      rcases h with h | h | h
      · exact h1 h
      · exact h2 h
      · exact h3 h
    constructor
    · intro content
      simp only [load, Option.getD_some]
      rw [if_pos this]
    · intro n g S
      simp only [save, Option.getD_some]
      rw [if_pos this]
  · simp only [load, dispatch]
    split <;> rfl
  · simp only [save, dispatch]
    split <;> rfl

theorem mem_supported {fmt : Name} (h : fmt = "graphml".toList ∨ fmt = "gml".toList ∨ fmt = "gexf".toList) : ¬ fmt ∉ supported := by
  simp only [supported, List.mem_cons, List.not_mem_nil, or_false, not_not]
  exact h

theorem dispatch_second {σ α : Type} (nx gt : σ → Py α × σ) (s : σ) (h : nx s = (.error .importError, s)) :
    dispatch .none nx gt s = dispatch .graphTool nx gt s := by
  simp only [dispatch, h]
  generalize gt s = r
  obtain ⟨e | r, s⟩ := r
  · cases e <;> rfl
  · rfl

/-- **C84** Without a backend, NetworkX is used if it can be imported, and graph-tool otherwise; ImportError is raised if neither can, the
graph being left alone.  (The readers and writers do not raise ImportError themselves.) -/
theorem C84_backend {File : Type} (env : Env File) (path : Name) {fmt : Name}
    (hf : fmt = "graphml".toList ∨ fmt = "gml".toList ∨ fmt = "gexf".toList)
    (hr : ∀ f, env.nxRead fmt f ≠ .error .importError)
    (hw : ∀ x, env.nxWrite fmt x ≠ .error .importError) :
    (env.nxAvailable → (∀ content, (∀ nx, env.nxRead fmt content = .ok nx → fromNetworkx nx ≠ .error .importError) →
        load env path content (some fmt) .none = load env path content (some fmt) .networkx) ∧
      ∀ {n : ℕ} (g : Graph n ℝ) S, g.Built → Separable S →
        save env g S path (some fmt) .none = save env g S path (some fmt) .networkx) ∧
    (¬ env.nxAvailable → env.gtAvailable → (∀ content,
        load env path content (some fmt) .none = load env path content (some fmt) .graphTool) ∧
      ∀ {n : ℕ} (g : Graph n ℝ) S, save env g S path (some fmt) .none = save env g S path (some fmt) .graphTool) ∧
    (¬ env.nxAvailable → ¬ env.gtAvailable → ∀ backend, (∀ name, backend ≠ .other name) →
      (∀ content, load env path content (some fmt) backend = .error .importError) ∧
      ∀ {n : ℕ} (g : Graph n ℝ) S, save env g S path (some fmt) backend = (.error .importError, S)) := by
  have hs := mem_supported hf
  refine ⟨fun hn => ⟨fun content hc => ?_, fun g S hg hS => ?_⟩, fun hn hg => ⟨fun content => ?_, fun g S => ?_⟩,
    fun hn hg backend hb => ⟨fun content => ?_, fun g S => ?_⟩⟩
  · simp only [load, Option.getD_some, if_neg hs, dispatch, if_pos hn]
    cases hx : env.nxRead fmt content with
    | error e =>
      have : e ≠ .importError := fun he => hr content (by rw [hx, he])
      cases e <;> first | rfl | exact absurd rfl this
    | ok nx =>
      simp only
      have := hc nx hx
      cases hy : fromNetworkx nx with
      | ok r => rfl
      | error e =>
        have : e ≠ .importError := fun he => this (by rw [hy, he])
        cases e <;> first | rfl | exact absurd rfl this
  · obtain ⟨L, hbr, -⟩ := broken_list hS
    obtain ⟨l, hl, -⟩ := edgeList_weights hg
    simp only [save, Option.getD_some, if_neg hs, dispatch, if_pos hn, toNetworkx, hbr, oneDim_asOne, hl]
    cases hy : env.nxWrite fmt _ with
    | ok r => rfl
    | error e =>
      have : e ≠ .importError := fun he => hw _ (by rw [hy, he])
      cases e <;> first | rfl | exact absurd rfl this
  · simp only [load, Option.getD_some, if_neg hs]
    rw [dispatch_second]
    rw [if_neg hn]
  · simp only [save, Option.getD_some, if_neg hs]
    rw [dispatch_second]
    rw [if_neg hn]
  · simp only [load, Option.getD_some, if_neg hs, dispatch, if_neg hn, if_neg hg]
    cases backend <;> first | rfl | exact absurd rfl (hb _)
  · simp only [save, Option.getD_some, if_neg hs, dispatch, if_neg hn, if_neg hg]
    cases backend <;> first | rfl | exact absurd rfl (hb _)

/-- **C84** A graph saved with NetworkX (by default, or explicitly) and loaded again has the same weights and the same signals, if
NetworkX reads what it has written. -/
theorem C84_round_trip {File : Type} (env : Env File) (path : Name) {fmt : Name}
    (hf : fmt = "graphml".toList ∨ fmt = "gml".toList ∨ fmt = "gexf".toList) {backend : Backend} (hb : backend = .networkx ∨ backend = .none)
    (hav : env.nxAvailable) {n : ℕ} (hn : 0 < n) {g : Graph n ℝ} (hg : g.Built) {S : List (Name × Sig (Fin n → Option ℝ))} (hS : Separable S)
    (h2 : ∀ a cols, (a, .two cols) ∈ S → 2 ≤ cols.length)
    (hfaith : ∀ nx, ∃ file, env.nxWrite fmt nx = .ok file ∧ env.nxRead fmt file = .ok nx) :
    ∃ file g' S', save env g S path (some fmt) backend = (.ok file, breakSignals S) ∧
      load env path file (some fmt) backend = .ok ⟨n, g', S'⟩ ∧ g'.Built ∧ g'.W.dense = g.W.dense ∧
      (∀ a x, dget S a = some (.one x) → dget S' a = some (.one x)) ∧
      (∀ a cols, dget S a = some (.two cols) → dget S' a = some (.two (lexCols cols)) ∧
        (cols.length ≤ 10 → dget S' a = some (.two cols))) ∧
      (∀ a, dget S a = none → dget S' a = none) := by
  have hs := mem_supported hf
  obtain ⟨nx, g', S', t1, -, -, t2, t3, t4, t5, t6, t7⟩ := C82_round_trip hn hg hS h2
  obtain ⟨file, f1, f2⟩ := hfaith nx
  refine ⟨file, g', S', ?_, ?_, t3, t4, t5, t6, t7⟩
  · rcases hb with rfl | rfl <;> simp only [save, Option.getD_some, if_neg hs, dispatch, if_pos hav, t1, f1]
  · rcases hb with rfl | rfl <;> simp only [load, Option.getD_some, if_neg hs, dispatch, if_pos hav, f2, t2]

/-- Violation: `save` breaks the signals of the graph that is saved: a signal with several columns is no longer there afterwards. -/
theorem C84_save_mutates_violated {File : Type} (env : Env File) (path : Name) {fmt : Name}
    (hf : fmt = "graphml".toList ∨ fmt = "gml".toList ∨ fmt = "gexf".toList) (hav : env.nxAvailable) {n : ℕ} {g : Graph n ℝ}
    (hg : g.Built) {S : List (Name × Sig (Fin n → Option ℝ))} (hS : Separable S) {a : Name} {cols : List (Fin n → Option ℝ)}
    (ha : dget S a = some (.two cols)) :
    dget (save env g S path (some fmt) .networkx).2 a = none := by
  have hs := mem_supported hf
  obtain ⟨L, hbr, -⟩ := broken_list hS
  obtain ⟨l, hl, -⟩ := edgeList_weights hg
  have : (save env g S path (some fmt) .networkx).2 = breakSignals S := by
    simp only [save, Option.getD_some, if_neg hs, dispatch, if_pos hav, toNetworkx, hbr, oneDim_asOne, hl]
  rw [this]
  exact (C81_export_mutates_violated hS ha).1

/-- An environment that satisfies the hypotheses of C84 exists: a file is the graph itself. -/
noncomputable def memoryEnv : Env (NxGraph ⊕ GtGraph) where
  nxAvailable := true
  gtAvailable := false
  nxRead := fun _ f => match f with | .inl x => .ok x | .inr _ => .error .valueError
  nxWrite := fun _ x => .ok (.inl x)
  gtRead := fun _ f => match f with | .inr x => .ok x | .inl _ => .error .valueError
  gtWrite := fun _ x => .ok (.inr x)
  loopFactor := 1

example (fmt : Name) : memoryEnv.nxAvailable ∧
    (∀ nx, ∃ file, memoryEnv.nxWrite fmt nx = .ok file ∧ memoryEnv.nxRead fmt file = .ok nx) ∧
    (∀ f, memoryEnv.nxRead fmt f ≠ .error .importError) ∧
    ∀ x, memoryEnv.nxWrite fmt x ≠ .error .importError := by
  refine ⟨rfl, fun nx => ⟨.inl nx, rfl, rfl⟩, fun f => ?_, fun x => by simp [memoryEnv]⟩
  cases f <;> simp [memoryEnv]

/-- `data/my.graph.graphml` has the format graphml. -/
example : (("data/".toList = [] ∨ "data/".toList.getLast? = some '/') ∧ '/' ∉ "my.graph".toList ∧ '.' ∉ "graphml".toList) ∧
    "data/".toList ++ ("my.graph".toList ++ '.' :: "graphml".toList) = "data/my.graph.graphml".toList := by
  refine ⟨⟨.inr ?_, ?_, ?_⟩, ?_⟩ <;> decide

end PyGSP.IO
