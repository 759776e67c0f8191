import Verif.Model.ImgPatches
import Verif.Props.PointNN
import Verif.Props.Grid

/-!
# C96: ImgPatches, Grid2dImgPatches
-/

namespace PyGSP.Gen

open Matrix Spec

variable {N d : ℕ}

/-- The position `m` of an axis of length `h` is what one sees at position `q` when mirrors are placed at both ends of the axis. -/
def Mirror (h : ℕ) (q : ℤ) (m : ℕ) : Prop := m < h ∧ ∃ t : ℤ, q = m + 2 * h * t ∨ q = -1 - m + 2 * h * t

theorem reflect_mirror {h : ℕ} (hh : 0 < h) (q : ℤ) : Mirror h q (reflect h q) := by
  have h2 : (0 : ℤ) < 2 * h := by positivity
  have hm0 := Int.emod_nonneg q h2.ne'
  have hm1 := Int.emod_lt_of_pos q h2
  have hdiv := Int.emod_add_mul_ediv q (2 * h)
  unfold reflect
  simp only
  split
  · rename_i hlt
    exact ⟨hlt, q / (2 * h), .inl (by rw [Int.toNat_of_nonneg hm0]; linarith)⟩
  · rename_i hge
    refine ⟨by omega, q / (2 * h) + 1, .inr ?_⟩
    have : ((2 * h - 1 - (q % (2 * h : ℤ)).toNat : ℕ) : ℤ) = 2 * h - 1 - q % (2 * h) := by omega
    rw [this]
    linarith

theorem mirror_unique {h : ℕ} {q : ℤ} {m m' : ℕ} (h1 : Mirror h q m) (h2 : Mirror h q m') : m = m' := by
  obtain ⟨l1, t, e⟩ := h1
  obtain ⟨l2, t', e'⟩ := h2
  have key : ∀ (u s : ℤ), u = 2 * h * s → -(2 * h) < u → u < 2 * h → u = 0 := fun u s e a b => by
    have hh : (0 : ℤ) < 2 * h := by linarith
    have s1 : s < 1 := by
      by_contra hs; push Not at hs
      nlinarith
    have s2 : -1 < s := by
      by_contra hs; push Not at hs
      nlinarith
    have : s = 0 := by omega
    rw [e, this, mul_zero]
  have l1' : (m : ℤ) < h := by exact_mod_cast l1
  have l2' : (m' : ℤ) < h := by exact_mod_cast l2
  have p1 : (0 : ℤ) ≤ m := by positivity
  have p2 : (0 : ℤ) ≤ m' := by positivity
  rcases e with e | e <;> rcases e' with e' | e'
  · have := key (m - m') (t' - t) (by linarith) (by linarith) (by linarith)
    omega
  · have := key (m + m' + 1) (t' - t) (by linarith) (by linarith) ?_
    · omega
    · by_contra hc
      push Not at hc
      omega
  · have := key (m + m' + 1) (t - t') (by linarith) (by linarith) ?_
    · omega
    · omega
  · have := key (m' - m) (t' - t) (by linarith) (by linarith) (by linarith)
    omega

theorem reflect_eq {h : ℕ} {q : ℤ} {m : ℕ} (hm : Mirror h q m) : reflect h q = m :=
  mirror_unique (reflect_mirror (by have := hm.1; omega) q) hm

theorem pad_windows {h r : ℕ} (hh : 0 < h) (hr : 0 < r) : windows h r (padWidth r) = .ok h := by
  unfold windows padWidth
  simp only
  rw [if_neg (by omega)]
  congr 1
  omega

/-- The image has `h` rows, `w` columns and `D` values for each pixel, `px m l ch` being that of channel `ch` at row `m` and column `l`: a gray image is an array with two
dimensions, an image with channels an array with three. -/
def IsImage (img : Arr) (h w D : ℕ) (px : ℕ → ℕ → ℕ → ℝ) : Prop :=
  (img.shape = [h, w] ∧ D = 1 ∧ ∀ m l, px m l 0 = img.val [m, l]) ∨ (img.shape = [h, w, D] ∧ 0 < D ∧ ∀ m l ch, px m l ch = img.val [m, l, ch])

theorem imgFeatures_eq {img : Arr} {h w D : ℕ} {px : ℕ → ℕ → ℕ → ℝ} (hi : IsImage img h w D px) (hh : 0 < h) (hw : 0 < w) {patch : List ℕ} {r c : ℕ}
    (hp : patchShape patch = .ok (r, c)) (hr : 0 < r) (hc : 0 < c) :
    imgFeatures img patch = .ok ⟨h * w, r * c * D, fun p f => px (reflect h (((p.val / w : ℕ) : ℤ) + (f.val / (c * D) : ℕ) - ((r - 1) / 2 : ℕ)))
      (reflect w (((p.val % w : ℕ) : ℤ) + (f.val / D % c : ℕ) - ((c - 1) / 2 : ℕ))) (f.val % D)⟩ := by
  unfold imgFeatures
  rw [hp]
  show (match imgShape img.shape with
    | none => _
    | some (h, w, d) => _) = _
  rcases hi with ⟨hs, rfl, hpx⟩ | ⟨hs, hD, hpx⟩
  · have hnd : img.ndim = 2 := by unfold Arr.ndim; rw [hs]; rfl
    rw [hs]
    simp only [imgShape, hnd, pad_windows hh hr, pad_windows hw hc]
    simp only [Nat.reduceEqDiff, and_false, if_false, if_true]
    show (if h * w * (r * c * 1) ≠ h * w * (r * c * 1) then _ else _) = _
    rw [if_neg (by simp)]
    refine congrArg Except.ok ?_
    congr 2
    funext p f
    rw [Nat.mod_one, hpx]
    rfl
  · obtain ⟨D, rfl⟩ := Nat.exists_eq_succ_of_ne_zero hD.ne'
    rw [hs]
    simp only [imgShape, pad_windows hh hr, pad_windows hw hc, Nat.succ_ne_zero, false_and, if_false]
    show (if h * w * (r * c * (D + 1)) ≠ h * w * (r * c * (D + 1)) then _ else _) = _
    rw [if_neg (by simp)]
    refine congrArg Except.ok ?_
    congr 2
    funext p f
    rw [hpx]
    rfl

theorem fin_split {w a b n : ℕ} (hb : b < w) (e : n = a * w + b) : n / w = a ∧ n % w = b := by
  subst e
  have hw : 0 < w := by omega
  constructor
  · rw [mul_comm, Nat.mul_add_div hw, Nat.div_eq_of_lt hb, add_zero]
  · rw [mul_comm, Nat.mul_add_mod, Nat.mod_eq_of_lt hb]

/-- **Features**: for an image with `h` rows and `w` columns and a patch of `r × c` pixels, there is one vertex for each pixel, row by row, and one feature for each pixel of the patch and each channel, row
by row: the value of the pixel of the patch around the vertex, with mirrors at the borders of the image. -/
theorem C96_features {img : Arr} {h w D : ℕ} {px : ℕ → ℕ → ℕ → ℝ} (hi : IsImage img h w D px) (hh : 0 < h) (hw : 0 < w) {patch : List ℕ} {r c : ℕ}
    (hp : patch = [r, c] ∨ (patch.length ≠ 2 ∧ patch.head? = some r ∧ c = r)) (hr : 0 < r) (hc : 0 < c) :
    ∃ X : Fin (h * w) → Fin (r * c * D) → ℝ, imgFeatures img patch = .ok ⟨h * w, r * c * D, X⟩ ∧
      ∀ i j a b ch, i < h → j < w → a < r → b < c → ch < D → ∀ p f, p.val = i * w + j → f.val = (a * c + b) * D + ch →
        (∀ m l, Mirror h ((i : ℤ) + a - ((r - 1) / 2 : ℕ)) m → Mirror w ((j : ℤ) + b - ((c - 1) / 2 : ℕ)) l → X p f = px m l ch) ∧
        ((r - 1) / 2 ≤ i + a → i + a < h + (r - 1) / 2 → (c - 1) / 2 ≤ j + b → j + b < w + (c - 1) / 2 →
          X p f = px (i + a - (r - 1) / 2) (j + b - (c - 1) / 2) ch) := by
  have hps : patchShape patch = .ok (r, c) := by
    rcases hp with rfl | ⟨h1, h2, rfl⟩
    · rfl
    · match patch, h1, h2 with
      | [x], _, h2 => cases h2; rfl
      | x :: y :: z :: l, _, h2 => cases h2; rfl
      | [x, y], h1, _ => exact absurd rfl h1
  refine ⟨_, imgFeatures_eq hi hh hw hps hr hc, fun i j a b ch hi hj ha hb hch p f ep ef => ?_⟩
  obtain ⟨e1, e2⟩ := fin_split hj ep
  obtain ⟨e3, e4⟩ := fin_split hch ef
  obtain ⟨e5, e6⟩ := fin_split hb e3
  have e7 : f.val / (c * D) = a := by rw [Nat.mul_comm c D, ← Nat.div_div_eq_div_mul, e5]
  have main : ∀ m l, Mirror h ((i : ℤ) + a - ((r - 1) / 2 : ℕ)) m → Mirror w ((j : ℤ) + b - ((c - 1) / 2 : ℕ)) l →
      px (reflect h (((p.val / w : ℕ) : ℤ) + (f.val / (c * D) : ℕ) - ((r - 1) / 2 : ℕ)))
        (reflect w (((p.val % w : ℕ) : ℤ) + (f.val / D % c : ℕ) - ((c - 1) / 2 : ℕ))) (f.val % D) = px m l ch := fun m l hm hl => by
    rw [e1, e2, e4, e6, e7, reflect_eq hm, reflect_eq hl]
  refine ⟨main, fun b1 b2 b3 b4 => main _ _ ⟨by omega, 0, .inl (by omega)⟩ ⟨by omega, 0, .inl (by omega)⟩⟩

/-- **Own pixel**: for a patch with odd sides, the middle feature of a vertex is its pixel. -/
theorem C96_center {img : Arr} {h w D : ℕ} {px : ℕ → ℕ → ℕ → ℝ} (hi : IsImage img h w D px) (r c : ℕ) :
    ∀ X : Fin (h * w) → Fin ((2 * r + 1) * (2 * c + 1) * D) → ℝ, imgFeatures img [2 * r + 1, 2 * c + 1] = .ok ⟨h * w, (2 * r + 1) * (2 * c + 1) * D, X⟩ →
      ∀ i j ch, i < h → j < w → ch < D → ∀ p f, p.val = i * w + j → f.val = (r * (2 * c + 1) + c) * D + ch → X p f = px i j ch := by
  intro X hX i j ch h1 h2 h3 p f ep ef
  obtain ⟨X', hX', hf⟩ := C96_features hi (by omega) (by omega) (patch := [2 * r + 1, 2 * c + 1]) (.inl rfl) (by omega) (by omega)
  rw [hX] at hX'
  have e := Except.ok.inj hX'
  simp only [Sigma.mk.injEq, heq_eq_eq, true_and] at e
  subst e
  rw [(hf i j r c ch h1 h2 (by omega) (by omega) h3 p f ep ef).2 (by omega) (by omega) (by omega) (by omega)]
  congr 1 <;> omega

/-- **Brightness and contrast**: with the default `center=True, rescale=True` of NNGraph, the graph does not change when a constant is added to the image and when it is multiplied by a positive number. -/
theorem C96_contrast (img : Arr) (patch : List ℕ) (type : NNType) (k : ℕ) (sigma : Option ℝ) (epsilon : ℝ) (method : SymMethod) (dist : DistType)
    (nn : (N : ℕ) → Fin N → List (Fin N)) (lt : LapType) (s : ℝ) {c : ℝ} (hc : 0 < c) :
    imgPatches ⟨img.shape, fun idx => c * (img.val idx - s)⟩ patch type true true k sigma epsilon method dist nn lt =
      imgPatches img patch type true true k sigma epsilon method dist nn lt := by
  unfold imgPatches
  have hf : imgFeatures ⟨img.shape, fun idx => c * (img.val idx - s)⟩ patch =
      (imgFeatures img patch).map fun q => ⟨q.1, q.2.1, fun i a => c * (q.2.2 i a - s)⟩ := by
    unfold imgFeatures
    cases patchShape patch with
    | error e => rfl
    | ok rc =>
      obtain ⟨r, c'⟩ := rc
      show (match imgShape img.shape with
        | none => _
        | some (h, w, d) => _) = Except.map _ (match imgShape img.shape with
        | none => _
        | some (h, w, d) => _)
      cases imgShape img.shape with
      | none => rfl
      | some q =>
        obtain ⟨h, w, d⟩ := q
        show (if d = 0 ∧ img.ndim = 3 then _ else _) = Except.map _ (if d = 0 ∧ img.ndim = 3 then _ else _)
        by_cases h3 : d = 0 ∧ img.ndim = 3
        · rw [if_pos h3, if_pos h3]; rfl
        rw [if_neg h3, if_neg h3]
        cases windows h r (padWidth r) with
        | error e => rfl
        | ok n1 =>
          cases windows w c' (padWidth c') with
          | error e => rfl
          | ok n2 =>
            show (if n1 * n2 * (r * c' * if d = 0 then 1 else d) ≠ h * w * (r * c' * if d = 0 then 1 else d) then _ else _) =
              Except.map _ (if n1 * n2 * (r * c' * if d = 0 then 1 else d) ≠ h * w * (r * c' * if d = 0 then 1 else d) then _ else _)
            by_cases h4 : n1 * n2 * (r * c' * if d = 0 then 1 else d) ≠ h * w * (r * c' * if d = 0 then 1 else d)
            · rw [if_pos h4, if_pos h4]; rfl
            · rw [if_neg h4, if_neg h4]; rfl
  rw [hf]
  cases hX : imgFeatures img patch with
  | error e => rfl
  | ok q =>
    obtain ⟨N, d, X⟩ := q
    show (nnGraph (fun i a => c * (X i a - s)) type true true k sigma epsilon method dist (nn N) lt >>= _) = (nnGraph X type true true k sigma epsilon method dist (nn N) lt >>= _)
    rcases Nat.eq_zero_or_pos N with rfl | hN
    · rw [(C79_errors _ type true true k sigma epsilon method dist (nn 0) lt).1 (by omega), (C79_errors _ type true true k sigma epsilon method dist (nn 0) lt).1 (by omega)]
    · rw [(C79_invariance hN X type k sigma epsilon method dist (nn N) lt (fun _ => s)).2.1 c hc]

/-- **Errors** of the features: no patch shape, an image with other dimensions than two or three (UnboundLocalError, after a message), an empty image, patch or set of channels. -/
theorem C96_errors (img : Arr) (patch : List ℕ) :
    (patch = [] → imgFeatures img patch = .error .indexError) ∧
    (patch ≠ [] → img.shape.length ≠ 2 → img.shape.length ≠ 3 → imgFeatures img patch = .error .nameError) ∧
    (∀ r c, patchShape patch = .ok (r, c) → ∀ h w,
      (∀ d, img.shape = [h, w] ∨ img.shape = [h, w, d] → h = 0 ∨ w = 0 ∨ r = 0 ∨ c = 0 → imgFeatures img patch = .error .valueError) ∧
      (img.shape = [h, w, 0] → imgFeatures img patch = .error .valueError)) := by
  refine ⟨fun e => by subst e; rfl, fun hp h2 h3 => ?_, fun r c hp h w => ⟨fun d hs h0 => ?_, fun hs => ?_⟩⟩
  · obtain ⟨⟨r, c⟩, hps⟩ : ∃ rc, patchShape patch = .ok rc := by
      match patch, hp with
      | [x], _ => exact ⟨_, rfl⟩
      | [x, y], _ => exact ⟨_, rfl⟩
      | x :: y :: z :: l, _ => exact ⟨_, rfl⟩
    unfold imgFeatures
    rw [hps]
    have : imgShape img.shape = none := by
      match hsh : img.shape with
      | [] => rfl
      | [x] => rfl
      | [x, y] => rw [hsh] at h2; simp at h2
      | [x, y, z] => rw [hsh] at h3; simp at h3
      | x :: y :: z :: u :: l => rfl
    show (match imgShape img.shape with
      | none => _
      | some (h, w, d) => _) = _
    rw [this]
  · have hwin : windows h r (padWidth r) = .error .valueError ∨ (windows h r (padWidth r) = .ok h ∧ windows w c (padWidth c) = .error .valueError) := by
      by_cases h1 : h = 0 ∨ r = 0
      · exact .inl (if_pos (by tauto))
      · push Not at h1
        exact .inr ⟨pad_windows (by omega) (by omega), if_pos (by tauto)⟩
    unfold imgFeatures
    rw [hp]
    show (match imgShape img.shape with
      | none => _
      | some (h, w, d) => _) = _
    obtain ⟨d', hd'⟩ : ∃ d', imgShape img.shape = some (h, w, d') := by
      rcases hs with hs | hs <;> rw [hs] <;> exact ⟨_, rfl⟩
    rw [hd']
    simp only
    split
    · rfl
    · rcases hwin with e | ⟨e, e'⟩
      · rw [e]; rfl
      · rw [e, e']; rfl
  · unfold imgFeatures
    rw [hp]
    show (match imgShape img.shape with
      | none => _
      | some (h, w, d) => _) = _
    have hnd : img.ndim = 3 := by unfold Arr.ndim; rw [hs]; rfl
    rw [hs]
    simp only [imgShape, hnd, true_and, if_true]

/-- **ImgPatches**: when it returns, the graph has one vertex for each pixel and is the nearest neighbor graph of the features. -/
theorem C96_graph {img : Arr} {h w D : ℕ} {px : ℕ → ℕ → ℕ → ℝ} (hi : IsImage img h w D px) {patch : List ℕ} {type : NNType} {center rescale : Bool} {k : ℕ} {sigma : Option ℝ}
    {epsilon : ℝ} {method : SymMethod} {dist : DistType} {nn : (N : ℕ) → Fin N → List (Fin N)} {lt : LapType} {G : Σ N d : ℕ, Graph N ℝ × (Fin N → Fin d → ℝ)}
    (hG : imgPatches img patch type center rescale k sigma epsilon method dist nn lt = .ok G) :
    ∃ (r c : ℕ) (X : Fin (h * w) → Fin (r * c * D) → ℝ) (g : Graph (h * w) ℝ) (Y : Fin (h * w) → Fin (r * c * D) → ℝ), 0 < h ∧ 0 < w ∧ 0 < r ∧ 0 < c ∧
      patchShape patch = .ok (r, c) ∧ imgFeatures img patch = .ok ⟨h * w, r * c * D, X⟩ ∧ G = ⟨h * w, r * c * D, g, Y⟩ ∧
      nnGraph X type center rescale k sigma epsilon method dist (nn (h * w)) lt = .ok (g, Y) := by
  unfold imgPatches at hG
  obtain ⟨⟨N, d, X⟩, hX, h2⟩ := bindOk hG
  obtain ⟨⟨g, Y⟩, h3, h4⟩ := bindOk h2
  have h4 := Except.ok.inj h4
  obtain ⟨r, c, hp⟩ : ∃ r c, patchShape patch = .ok (r, c) := by
    cases hp : patchShape patch with
    | error e => unfold imgFeatures at hX; rw [hp] at hX; cases hX
    | ok rc => exact ⟨rc.1, rc.2, rfl⟩
  have hpos : ¬ (h = 0 ∨ w = 0 ∨ r = 0 ∨ c = 0) := fun h0 => by
    have := ((C96_errors img patch).2.2 r c hp h w).1 D (by rcases hi with ⟨hs, -⟩ | ⟨hs, -⟩ <;> tauto) h0
    rw [hX] at this
    cases this
  push Not at hpos
  obtain ⟨p1, p2, p3, p4⟩ := hpos
  have hX' := imgFeatures_eq hi (by omega) (by omega) hp (by omega) (by omega)
  rw [hX] at hX'
  have e := Except.ok.inj hX'
  obtain ⟨rfl, e⟩ := Sigma.mk.inj e
  have e := eq_of_heq e
  obtain ⟨rfl, e⟩ := Sigma.mk.inj e
  exact ⟨r, c, X, g, Y, by omega, by omega, by omega, by omega, hp, hX, h4.symm, h3⟩

/-- **Grid2dImgPatches** adds the links of the grid of the pixels to those of the graph of the patches, pixel by pixel; the coordinates are those of the grid, the first pixel being at the top left. -/
theorem C96_grid {img : Arr} {h w D : ℕ} {px : ℕ → ℕ → ℕ → ℝ} (hi : IsImage img h w D px) (hw : 2 ≤ w) {patch : List ℕ} {type : NNType} {center rescale : Bool} {k : ℕ}
    {sigma : Option ℝ} {epsilon : ℝ} {method : SymMethod} {dist : DistType} {nn : (N : ℕ) → Fin N → List (Fin N)} {lt : LapType} {d : ℕ} {Gp : Graph (h * w) ℝ}
    {Y : Fin (h * w) → Fin d → ℝ} (hG : imgPatches img patch type center rescale k sigma epsilon method dist nn lt = .ok ⟨h * w, d, Gp, Y⟩) :
    ∃ (g : Graph (h * w) ℝ) (P : Fin (h * w) → Fin 2 → ℝ),
      grid2dImgPatches img (fun _ Wp Wg => Wp + Wg) patch type center rescale k sigma epsilon method dist nn lt = .ok ⟨h * w, g, P⟩ ∧ g.Built ∧
      g.lapType = .combinatorial ∧
      ∀ i j p, i < h → j < w → p.val = i * w + j → (P p 0 = (j : ℝ) / w ∧ P p 1 = 1 - ((i : ℝ) + 1) / h) ∧
        ∀ i' j' q, i' < h → j' < w → q.val = i' * w + j' → g.W.dense p q = Gp.W.dense p q +
          if (i = i' ∧ (j = j' + 1 ∨ j' = j + 1)) ∨ (j = j' ∧ (i = i' + 1 ∨ i' = i + 1)) then 1 else 0 := by
  obtain ⟨r, c, X, gp, Y', hh, -⟩ := C96_graph hi hG
  obtain ⟨gg, hgg, -, -, hW⟩ := C70_weights hh hw 0 (lt := .combinatorial) (.inl rfl)
  obtain ⟨g, hg, hb, hgW, hl⟩ := Graph.ofCsr_ofDense (Gp.W.dense + gg.W.dense) (lt := .combinatorial) (.inl rfl)
  have hs : imgSize img.shape = .ok (h, w) := by rcases hi with ⟨hs, -⟩ | ⟨hs, -⟩ <;> rw [hs] <;> rfl
  refine ⟨g, gridCoords h w, ?_, hb, hl, fun i j p hi hj ep => ⟨?_, fun i' j' q hi' hj' eq => ?_⟩⟩
  · unfold grid2dImgPatches
    rw [hs]
    show (grid2d h w 0 .combinatorial >>= _) = _
    rw [hgg]
    show (imgPatches img patch type center rescale k sigma epsilon method dist nn lt >>= _) = _
    rw [hG]
    show (if e : h * w = h * w then _ else _) = _
    rw [dif_pos rfl]
    show (Graph.ofCsr (Sp.ofDense (Gp.W.dense + gg.W.dense)) .combinatorial >>= _) = _
    rw [hg]
    rfl
  · obtain ⟨e1, e2⟩ := fin_split hj ep
    unfold gridCoords
    simp only [Matrix.cons_val_zero, Matrix.cons_val_one, e1, e2, true_and]
    have hh' : (0 : ℝ) < h := by exact_mod_cast hh
    rw [show h - 1 - i = h - (i + 1) by omega, Nat.cast_sub (by omega)]
    push_cast
    field_simp
  · obtain ⟨e1, e2⟩ := fin_split hj ep
    obtain ⟨e3, e4⟩ := fin_split hj' eq
    rw [hgW, Matrix.add_apply, hW, e1, e2, e3, e4, max_self, ite_self]
    refine congrArg₂ (· + ·) rfl (if_congr ?_ rfl rfl)
    unfold ndist
    omega

/-- **Grid2dImgPatches, errors**: an image with one column, or none, or no row, or a single dimension; and those of ImgPatches. -/
theorem C96_grid_errors (img : Arr) (aggregate : (N : ℕ) → Matrix (Fin N) (Fin N) ℝ → Matrix (Fin N) (Fin N) ℝ → Matrix (Fin N) (Fin N) ℝ) (patch : List ℕ)
    (type : NNType) (center rescale : Bool) (k : ℕ) (sigma : Option ℝ) (epsilon : ℝ) (method : SymMethod) (dist : DistType) (nn : (N : ℕ) → Fin N → List (Fin N)) (lt : LapType) :
    (img.shape.length < 2 → grid2dImgPatches img aggregate patch type center rescale k sigma epsilon method dist nn lt = .error .indexError) ∧
    (∀ h w l, img.shape = h :: w :: l → h = 0 ∨ w ≤ 1 → grid2dImgPatches img aggregate patch type center rescale k sigma epsilon method dist nn lt = .error .valueError) ∧
    (∀ h w l e, img.shape = h :: w :: l → 0 < h → 2 ≤ w → imgPatches img patch type center rescale k sigma epsilon method dist nn lt = .error e →
      grid2dImgPatches img aggregate patch type center rescale k sigma epsilon method dist nn lt = .error e) := by
  refine ⟨fun h => ?_, fun h w l hs h0 => ?_, fun h w l e hs h1 h2 he => ?_⟩
  · have : imgSize img.shape = .error .indexError := by
      match hsh : img.shape with
      | [] => rfl
      | [x] => rfl
      | x :: y :: l => rw [hsh] at h; simp at h
    unfold grid2dImgPatches
    rw [this]
    rfl
  · unfold grid2dImgPatches
    rw [hs]
    show (grid2d h w 0 .combinatorial >>= _) = _
    rw [(C70_errors h w 0 .combinatorial).2 (by tauto)]
    rfl
  · obtain ⟨gg, hgg, -⟩ := C70_weights h1 h2 0 (lt := .combinatorial) (.inl rfl)
    unfold grid2dImgPatches
    rw [hs]
    show (grid2d h w 0 .combinatorial >>= _) = _
    rw [hgg]
    show (imgPatches img patch type center rescale k sigma epsilon method dist nn lt >>= _) = _
    rw [he]
    rfl

/-- **Links**: with the nearest neighbors of distinct patches, the graph with the grid is undirected without self-loop, with every pixel linked to the `k` nearest patches at least, and connected. -/
theorem C96_grid_structure {img : Arr} {h w D : ℕ} {px : ℕ → ℕ → ℕ → ℝ} (hi : IsImage img h w D px) (hw : 2 ≤ w) {patch : List ℕ} {center rescale : Bool} {k : ℕ}
    {sigma : Option ℝ} {epsilon : ℝ} {method : SymMethod} {dist : DistType} {nn : (N : ℕ) → Fin N → List (Fin N)} {lt : LapType} {d : ℕ} {Gp : Graph (h * w) ℝ}
    {Y : Fin (h * w) → Fin d → ℝ} (hG : imgPatches img patch .knn center rescale k sigma epsilon method dist nn lt = .ok ⟨h * w, d, Gp, Y⟩)
    {p : MinkP} (hp : dist.order = .ok p) (hnn : KnnSpec k (fun i j => minkowski p (Y i) (Y j)) (nn (h * w)))
    (hX : ∀ X : Fin (h * w) → Fin d → ℝ, imgFeatures img patch = .ok ⟨h * w, d, X⟩ → ∀ i j, X i = X j → i = j) (hσ : ∀ s, sigma = some s → 0 < s)
    {g : Graph (h * w) ℝ} {P : Fin (h * w) → Fin 2 → ℝ}
    (hg : grid2dImgPatches img (fun _ Wp Wg => Wp + Wg) patch .knn center rescale k sigma epsilon method dist nn lt = .ok ⟨h * w, g, P⟩) :
    Undirected g.W.dense ∧ (∀ i, g.W.dense i i = 0) ∧ (∀ i j, 0 ≤ g.W.dense i j ∧ g.W.dense i j ≤ 2) ∧ StronglyConnected g.W.dense ∧
      (method = .average ∨ method = .maximum ∨ method = .fill → ∀ i, k ≤ (Finset.univ.filter fun j => g.W.dense i j ≠ 0).card) := by
  obtain ⟨r, c, X, gp, Y', hh, -, hr, hc, hps, hX1, e, h3⟩ := C96_graph hi hG
  obtain ⟨-, e⟩ := Sigma.mk.inj e
  obtain ⟨rfl, e⟩ := Sigma.mk.inj (eq_of_heq e)
  obtain ⟨rfl, rfl⟩ := Prod.mk.inj (eq_of_heq e)
  obtain ⟨-, s2, s3, s4, s5⟩ := C79_knn_structure h3 hp hnn (hX X hX1) hσ
  obtain ⟨gg, hgg, -, -, hW⟩ := C70_weights hh hw 0 (lt := .combinatorial) (.inl rfl)
  obtain ⟨t1, t2, t3, -⟩ := C70_structure hh hw (.inl rfl) hgg
  have hsum : g.W.dense = Gp.W.dense + gg.W.dense := by
    obtain ⟨g', P', hg', -, -, hf⟩ := C96_grid hi hw hG
    rw [hg] at hg'
    obtain ⟨-, e⟩ := Sigma.mk.inj (Except.ok.inj hg')
    obtain ⟨rfl, rfl⟩ := Prod.mk.inj (eq_of_heq e)
    funext a b
    have hw0 : 0 < w := by omega
    have da : ∀ a : Fin (h * w), a.val / w < h := fun a => (Nat.div_lt_iff_lt_mul hw0).2 a.2
    rw [(hf (a.val / w) (a.val % w) a (da a) (Nat.mod_lt _ hw0) (Nat.div_add_mod' _ _).symm).2 (b.val / w) (b.val % w) b (da b) (Nat.mod_lt _ hw0)
      (Nat.div_add_mod' _ _).symm, Matrix.add_apply, hW, max_self, ite_self]
    refine congrArg₂ (· + ·) rfl (if_congr ?_ rfl rfl)
    unfold ndist
    generalize a.val / w = x1
    generalize b.val / w = x2
    generalize a.val % w = x3
    generalize b.val % w = x4
    omega
  have g01 : ∀ i j, 0 ≤ gg.W.dense i j ∧ gg.W.dense i j ≤ 1 := fun i j => by
    rw [hW, max_self, ite_self]
    split <;> norm_num
  have hne : ∀ i j, gg.W.dense i j ≠ 0 → g.W.dense i j ≠ 0 := fun i j h0 => by
    rw [hsum, Matrix.add_apply]
    have := (s4 i j).1
    have := lt_of_le_of_ne (g01 i j).1 (Ne.symm h0)
    exact ne_of_gt (by linarith)
  have hne' : ∀ i j, Gp.W.dense i j ≠ 0 → g.W.dense i j ≠ 0 := fun i j h0 => by
    rw [hsum, Matrix.add_apply]
    have := (g01 i j).1
    have := lt_of_le_of_ne (s4 i j).1 (Ne.symm h0)
    exact ne_of_gt (by linarith)
  refine ⟨fun i j => ?_, fun i => ?_, fun i j => ?_, fun i j => ?_, fun hm i => (s5 hm i).trans (Finset.card_le_card fun j hj => ?_)⟩
  · rw [hsum, Matrix.add_apply, Matrix.add_apply, s2 i j, t1 i j]
  · rw [hsum, Matrix.add_apply, s3, t3, add_zero]
  · rw [hsum, Matrix.add_apply]
    have := s4 i j
    have := g01 i j
    constructor <;> linarith
  · exact Relation.ReflTransGen.mono (fun a b hab => hne a b hab) _ _ (t2 i j)
  · rw [Finset.mem_filter] at hj ⊢
    exact ⟨hj.1, hne' i j hj.2⟩

/-- An image of two rows and two columns with a patch of one pixel: the features are the pixels, and the graph exists. -/
example : ∃ (img : Arr) (nn : (N : ℕ) → Fin N → List (Fin N)) (G : Σ N d : ℕ, Graph N ℝ × (Fin N → Fin d → ℝ)), img.shape = [2, 2] ∧
    imgPatches img [1, 1] .knn false false 1 none 0 .average .euclidean nn .combinatorial = .ok G := by
  let img : Arr := ⟨[2, 2], fun idx => match idx with
    | [i, j] => 2 * i + j
    | _ => 0⟩
  have hi : IsImage img 2 2 1 (fun i j _ => 2 * i + j) := .inl ⟨rfl, rfl, fun m l => rfl⟩
  obtain ⟨X, hX, hf⟩ := C96_features hi (by norm_num) (by norm_num) (patch := [1, 1]) (.inl rfl) (by norm_num) (by norm_num)
  have hval : ∀ p, X p 0 = p.val := fun p => by
    have hp := p.isLt
    rw [(hf (p.val / 2) (p.val % 2) 0 0 0 (by omega) (by omega) (by norm_num) (by norm_num) (by norm_num) p 0 (by omega) rfl).2 (by omega) (by omega) (by omega) (by omega)]
    simp only [add_zero, Nat.sub_self, Nat.zero_div, Nat.sub_zero]
    norm_cast
    omega
  have hinj : ∀ i j, X i = X j → i = j := fun i j e => by
    have := congrFun e 0
    rw [hval, hval] at this
    exact Fin.ext (by exact_mod_cast this)
  obtain ⟨Y, hY, hg⟩ := C79_returns (k := 1) (by norm_num) (by norm_num) hinj false false (sigma := none) (by simp) 0 (method := .average) (by simp) (dist := .euclidean) rfl
    (lt := .combinatorial) (.inl rfl)
  obtain ⟨nn, hnn⟩ := exists_knn (k := 1) (by norm_num) (fun i j : Fin (2 * 2) => minkowski (.fin 2) (Y i) (Y j))
  obtain ⟨g, hg⟩ := hg nn hnn
  refine ⟨img, fun N i => if h : N = 2 * 2 then h ▸ nn (h ▸ i) else [], ⟨2 * 2, 1 * 1 * 1, g, Y⟩, rfl, ?_⟩
  unfold imgPatches
  rw [hX]
  show (nnGraph X .knn false false 1 none 0 .average .euclidean nn .combinatorial >>= _) = _
  rw [hg]
  rfl

end PyGSP.Gen
