import Verif.Functional.MsSsimGrad
import Verif.Functional.PropsGradients
import Verif.Functional.PropsMsSsimValue
import Mathlib.Analysis.SpecialFunctions.Pow.Deriv
import Mathlib.Analysis.Calculus.LocalExtr.Basic

/-!
C146: the gradients of the multiscale structural similarity.

`Paper.score` is the index of the paper (`PropsMsSsimValue`), `HasDerivAt` is Mathlib's definition of the derivative.
-/

namespace Verif.Functional.MsSsimGrad

open Real Verif.Layers Verif.Functional.Gradients Verif.Functional.MsSsim Filter Topology Finset

/-! ### Specification -/

/-- The comparisons that the index multiplies, from fine to coarse: mean contrast and structure, and at the coarsest scale the mean of
the products with the luminance comparison. -/
noncomputable def comparisons (p : Params) : List ℝ → Paper.Image → Paper.Image → List ℝ
  | [], _, _ => []
  | [_], x, y => [Paper.overPositions p x fun i j =>
      Paper.l p (Paper.patch x.px i j) (Paper.patch y.px i j) * Paper.cs p (Paper.patch x.px i j) (Paper.patch y.px i j)]
  | _ :: β :: βs, x, y => (Paper.overPositions p x fun i j => Paper.cs p (Paper.patch x.px i j) (Paper.patch y.px i j)) ::
      comparisons p (β :: βs) (Paper.coarser x) (Paper.coarser y)

/-- A place in a batch: image, channel, row, column. -/
abbrev Place := ℕ × ℕ × ℕ × ℕ

/-- The batch with `t` at a place. -/
def put (x : Batch) (q : Place) (t : ℝ) : Batch :=
  { x with pix := fun b c i j => if (b, c, i, j) = q then t else x.pix b c i j }

/-- A batch of which no pixel is differentiated by. -/
def fixed (x : Batch) : NBatch := ⟨x.batch, x.channels, x.height, x.width, fun b c i j => Node.const (x.pix b c i j)⟩

/-- A batch of which one pixel is differentiated by. -/
def withVar (x : Batch) (q : Place) : NBatch :=
  ⟨x.batch, x.channels, x.height, x.width, fun b c i j =>
    if (b, c, i, j) = q then Node.leaf (x.pix b c i j) else Node.const (x.pix b c i j)⟩

/-- The pixel at a place. -/
def at' (x : Batch) (q : Place) : ℝ := x.pix q.1 q.2.1 q.2.2.1 q.2.2.2

/-! ### Operations -/

/-- The value and the factor of the backward pass. -/
def Has (a : Node) (v d : ℝ) : Prop := a.val = .val v ∧ ∀ g : ℝ, a.back (.val g) = .val (d * g)

/-- The value is right and the backward pass is a number. -/
def Near (a : Node) (f : ℝ → ℝ) (t : ℝ) : Prop := ∃ d, Has a (f t) d

theorem tracks_iff {a : Node} {f : ℝ → ℝ} {t : ℝ} : Tracks a f t ↔ ∃ d, Has a (f t) d ∧ HasDerivAt f d t :=
  ⟨fun ⟨d, h1, h2, h3⟩ => ⟨d, ⟨h1, h2⟩, h3⟩, fun ⟨d, ⟨h1, h2⟩, h3⟩ => ⟨d, h1, h2, h3⟩⟩

theorem Tracks.near {a : Node} {f : ℝ → ℝ} {t : ℝ} (h : Tracks a f t) : Near a f t := by
  obtain ⟨d, h1, h2, -⟩ := h
  exact ⟨d, h1, h2⟩

theorem sumN_tracks {f : ℕ → Node} {k : ℕ → ℝ → ℝ} {t : ℝ} {n : ℕ} (h : ∀ c < n, Tracks (f c) (k c) t) :
    Tracks (sumN n f) (fun s => ∑ u ∈ range n, k u s) t := by
  induction n with
  | zero => exact (tracks_const 0 t).congr (Eventually.of_forall fun s => by simp)
  | succ n ih =>
    exact ((ih fun c hc => h c (by omega)).add (h n (by omega))).congr
      (Eventually.of_forall fun s => by simp only [sum_range_succ])

theorem divc_tracks {a : Node} {f : ℝ → ℝ} {t n : ℝ} (h : Tracks a f t) (hn : n ≠ 0) : Tracks (divc n a) (fun s => f s / n) t := by
  obtain ⟨d, h1, h2, h3⟩ := h
  refine ⟨d / n, by rw [divc, h1, div_val hn], fun g => ?_, h3.div_const n⟩
  show a.back (div (.val g) (.val n)) = _
  rw [div_val hn, h2]; congr 1; ring

theorem relu_pos {a : Node} {v : ℝ} (h : a.val = .val v) (hv : 0 < v) (g : F) : (relu a).back g = a.back g := by
  unfold relu
  simp only [h]
  rw [if_neg (by rw [max_eq_right hv.le]; exact hv.not_ge)]

theorem relu_neg {a : Node} {v : ℝ} (h : a.val = .val v) (hv : v ≤ 0) (g : F) : (relu a).back g = a.back (.val 0) := by
  unfold relu
  simp only [h]
  rw [if_pos (by rw [max_eq_left hv])]

theorem relu_val {a : Node} {v : ℝ} (h : a.val = .val v) : (relu a).val = .val (max 0 v) := by
  rw [relu, h]; rfl

theorem powF_val {f x : ℝ} (hf : 0 ≤ f) : powF f (.val x) = .val (x ^ f) := if_neg (by intro h; linarith [h.2])

theorem powF_pos {f x : ℝ} (hx : x ≠ 0) : powF f (.val x) = .val (x ^ f) := if_neg fun h => hx h.1

/-- A clipped power follows its argument, where that is not zero. -/
theorem clipped_tracks {a : Node} {k : ℝ → ℝ} {t f : ℝ} (hf : 0 ≤ f) (h : Tracks a k t) (h0 : k t ≠ 0) :
    Tracks (pow f (relu a)) (fun s => max 0 (k s) ^ f) t := by
  have hc := h.cont
  obtain ⟨d, h1, h2, h3⟩ := h
  rcases lt_or_gt_of_ne h0 with hn | hp
  · have hz : (fun s => max 0 (k s) ^ f) =ᶠ[𝓝 t] fun _ => (0 : ℝ) ^ f := by
      filter_upwards [hc.eventually (gt_mem_nhds hn)] with s hs
      rw [max_eq_left hs.le]
    refine ⟨0, ?_, fun g => ?_, (hasDerivAt_const t _).congr_of_eventuallyEq hz⟩
    · rw [pow, relu_val h1, powF_val hf]
    · show (relu a).back _ = _
      rw [relu_neg h1 hn.le, h2]; congr 1; ring
  · have hz : (fun s => max 0 (k s) ^ f) =ᶠ[𝓝 t] fun s => k s ^ f := by
      filter_upwards [hc.eventually (lt_mem_nhds hp)] with s hs
      rw [max_eq_right hs.le]
    have hm : max 0 (k t) = k t := max_eq_right hp.le
    refine ⟨d * f * k t ^ (f - 1), ?_, fun g => ?_, (h3.rpow_const (Or.inl h0)).congr_of_eventuallyEq hz⟩
    · rw [pow, relu_val h1, powF_val hf]
    · show (relu a).back _ = _
      rw [relu_pos h1 hp, relu_val h1, hm, powF_pos h0]
      by_cases hf0 : f = 0
      · rw [if_pos hf0, h2, hf0]; congr 1; ring
      · rw [if_neg hf0]
        show a.back (.val (g * (f * k t ^ (f - 1)))) = _
        rw [h2]; congr 1; ring

/-- A clipped power has a finite gradient everywhere. -/
theorem clipped_near {a : Node} {k : ℝ → ℝ} {t f : ℝ} (hf : 0 ≤ f) (h : Tracks a k t) :
    Near (pow f (relu a)) (fun s => max 0 (k s) ^ f) t := by
  by_cases h0 : k t = 0
  · obtain ⟨d, h1, h2, -⟩ := h
    refine ⟨0, ?_, fun g => ?_⟩
    · rw [pow, relu_val h1, powF_val hf]
    · show (relu a).back _ = _
      rw [relu_neg h1 h0.le, h2]; congr 1; ring
  · exact Tracks.near (clipped_tracks hf h h0)

/-- The derivative of a product, from the values and the derivatives. -/
def prodDeriv : List (ℝ × ℝ) → ℝ
  | [] => 0
  | (v, d) :: l => d * (l.map Prod.fst).prod + v * prodDeriv l

theorem prodVal_has {l : List Node} {w : List (ℝ × ℝ)} (h : List.Forall₂ (fun a q => Has a q.1 q.2) l w) :
    prodVal l = .val (w.map Prod.fst).prod := by
  induction h with
  | nil => rfl
  | cons h _ ih =>
    rw [prodVal, h.1, ih]
    show F.val _ = _
    rw [List.map_cons, List.prod_cons]

open Classical in
theorem prodBack_has (anyZero : Prop) (R pre g : ℝ) {l : List Node} {w : List (ℝ × ℝ)}
    (h : List.Forall₂ (fun a q => Has a q.1 q.2) l w) (hz : ¬ anyZero → ∀ q ∈ w, q.1 ≠ 0)
    (hR : R = pre * (w.map Prod.fst).prod) :
    prodBack anyZero (.val R) (.val pre) (.val g) l = .val (pre * prodDeriv w * g) := by
  induction h generalizing pre with
  | nil => simp [prodBack, prodDeriv]
  | @cons a q l w h hl ih =>
    have hrest := ih (pre * q.1) (fun k q' hq => hz k q' (by simp [hq]))
      (by rw [hR, List.map_cons, List.prod_cons]; ring)
    have hp := prodVal_has hl
    rw [prodBack, hp, h.1]
    have e : (if anyZero then mul (.val g) (mul (.val pre) (.val (w.map Prod.fst).prod))
        else div (mul (.val g) (.val R)) (.val q.1)) = F.val (g * (pre * (w.map Prod.fst).prod)) := by
      by_cases hc : anyZero
      · rw [if_pos hc]; rfl
      · have h0 := hz hc q (by simp)
        rw [if_neg hc]
        show div (.val (g * R)) (.val q.1) = _
        rw [div_val h0, hR, List.map_cons, List.prod_cons]
        congr 1; field_simp
    have e' : mul (.val pre) (.val q.1) = .val (pre * q.1) := rfl
    rw [e']
    convert congrArg₂ F.add (h.2 (g * (pre * (w.map Prod.fst).prod))) hrest using 2
    · rw [e]
    · show _ = F.val _
      congr 1
      simp only [prodDeriv]
      ring

theorem prod_has {anyZero : Prop} {l : List Node} {w : List (ℝ × ℝ)} (h : List.Forall₂ (fun a q => Has a q.1 q.2) l w)
    (hz : ¬ anyZero → ∀ q ∈ w, q.1 ≠ 0) : Has (prod anyZero l) (w.map Prod.fst).prod (prodDeriv w) := by
  refine ⟨prodVal_has h, fun g => ?_⟩
  show prodBack anyZero (prodVal l) (.val 1) (.val g) l = _
  rw [prodVal_has h, prodBack_has anyZero _ 1 g h hz (by rw [one_mul]), one_mul]

theorem times_has {a b : Node} {v d v' d' : ℝ} (ha : Has a v d) (hb : Has b v' d') :
    Has (a.times b) (v * v') (d * v' + v * d') := by
  refine ⟨by rw [Node.times, ha.1, hb.1]; rfl, fun g => ?_⟩
  show (a.back (mul (.val g) b.val)).add (b.back (mul (.val g) a.val)) = _
  rw [ha.1, hb.1]
  show (a.back (.val (g * v'))).add (b.back (.val (g * v))) = _
  rw [ha.2, hb.2]
  show F.val _ = _
  congr 1; ring

theorem sumN_near {f : ℕ → Node} {k : ℕ → ℝ → ℝ} {t : ℝ} {n : ℕ} (h : ∀ c < n, Near (f c) (k c) t) :
    Near (sumN n f) (fun s => ∑ u ∈ range n, k u s) t := by
  induction n with
  | zero => exact ⟨0, by simp [sumN, Node.const], fun g => by simp [sumN, Node.const]⟩
  | succ n ih =>
    obtain ⟨d, h1, h2⟩ := ih fun c hc => h c (by omega)
    obtain ⟨e, k1, k2⟩ := h n (by omega)
    refine ⟨d + e, ?_, fun g => ?_⟩
    · rw [sumN, Node.add, h1, k1]
      show F.val _ = _
      simp only [sum_range_succ]
    · show ((sumN n f).back _).add ((f n).back _) = _
      rw [h2, k2, add_mul]; rfl

theorem divc_near {a : Node} {f : ℝ → ℝ} {t n : ℝ} (h : Near a f t) (hn : n ≠ 0) : Near (divc n a) (fun s => f s / n) t := by
  obtain ⟨d, h1, h2⟩ := h
  refine ⟨d / n, by rw [divc, h1, div_val hn], fun g => ?_⟩
  show a.back (div (.val g) (.val n)) = _
  rw [div_val hn, h2]; congr 1; ring

theorem zeros_near {l : List Node} (h : ∀ a ∈ l, Quiet a) : zeros l = .val 0 := by
  induction l with
  | nil => rfl
  | cons a l ih =>
    rw [zeros, h a (by simp), ih fun b hb => h b (by simp [hb])]
    show F.val _ = _
    rw [add_zero]

theorem also_back {l : List Node} (h : ∀ a ∈ l, Quiet a) (a : Node) {v d : ℝ} (ha : Has a v d) : Has (also l a) v d := by
  refine ⟨ha.1, fun g => ?_⟩
  show (a.back _).add (zeros l) = _
  rw [ha.2, zeros_near h]
  show F.val _ = _
  rw [add_zero]

theorem Near.quiet {a : Node} {f : ℝ → ℝ} {t : ℝ} (h : Near a f t) : Quiet a := by
  obtain ⟨d, -, h2⟩ := h
  rw [Quiet, h2, mul_zero]

/-! ### Images -/

/-- The tensors are the values of `X` at `t`, and their backward passes multiply by the derivatives. -/
structure BTracks (xn : NBatch) (X : ℝ → Batch) (t : ℝ) : Prop where
  batch : ∀ s, (X s).batch = xn.batch
  channels : ∀ s, (X s).channels = xn.channels
  height : ∀ s, (X s).height = xn.height
  width : ∀ s, (X s).width = xn.width
  pix : ∀ b c i j, Tracks (xn.pix b c i j) (fun s => (X s).pix b c i j) t

theorem conv_tracks (p : Params) {x : ℕ → ℕ → Node} {X : ℝ → ℕ → ℕ → ℝ} {t : ℝ}
    (h : ∀ a b, Tracks (x a b) (fun s => X s a b) t) (i j : ℕ) :
    Tracks (convN p x i j) (fun s => conv p.windowSize p.gaussianStd (X s) i j) t :=
  sumN_tracks fun _ _ => sumN_tracks fun _ _ => (h _ _).scale _

theorem luminance_tracks {p : Params} (hp : p.Good) {x y : ℕ → ℕ → Node} {X Y : ℝ → ℕ → ℕ → ℝ} {t : ℝ}
    (hx : ∀ a b, Tracks (x a b) (fun s => X s a b) t) (hy : ∀ a b, Tracks (y a b) (fun s => Y s a b) t) (i j : ℕ) :
    Tracks (luminanceN p x y i j) (fun s => luminance p (X s) (Y s) i j) t := by
  have ux := conv_tracks p hx i j
  have uy := conv_tracks p hy i j
  have hc : 0 < (p.k1 * p.dataRange) ^ 2 := by have := hp.c1; positivity
  exact (((ux.scale 2).times uy).shift _).over ((ux.sq.add uy.sq).shift _) (by positivity)

theorem contrast_tracks {p : Params} (hp : p.Good) {x y : ℕ → ℕ → Node} {X Y : ℝ → ℕ → ℕ → ℝ} {t : ℝ}
    (hx : ∀ a b, Tracks (x a b) (fun s => X s a b) t) (hy : ∀ a b, Tracks (y a b) (fun s => Y s a b) t) (i j : ℕ) :
    Tracks (contrastN p x y i j) (fun s => contrast p (X s) (Y s) i j) t := by
  have ux := conv_tracks p hx i j
  have uy := conv_tracks p hy i j
  have uxx := conv_tracks p (fun a b => (hx a b).times (hx a b)) i j
  have uyy := conv_tracks p (fun a b => (hy a b).times (hy a b)) i j
  have uxy := conv_tracks p (fun a b => (hx a b).times (hy a b)) i j
  have hc : 0 < (p.k2 * p.dataRange) ^ 2 := by have := hp.c2; positivity
  refine (((((uxy.add ((ux.times uy).scale (-1))).scale 2).shift _).over
    (((uxx.add ((ux.times ux).scale (-1))).add (uyy.add ((uy.times uy).scale (-1)))).shift _) ?_)).congr
    (Eventually.of_forall fun s => ?_)
  · have h1 := var_nonneg hp.pos p.gaussianStd (X t) i j
    have h2 := var_nonneg hp.pos p.gaussianStd (Y t) i j
    have : (0 : ℝ) < conv p.windowSize p.gaussianStd (fun a b => X t a b * X t a b) i j +
      -1 * (conv p.windowSize p.gaussianStd (X t) i j * conv p.windowSize p.gaussianStd (X t) i j) +
      (conv p.windowSize p.gaussianStd (fun a b => Y t a b * Y t a b) i j +
      -1 * (conv p.windowSize p.gaussianStd (Y t) i j * conv p.windowSize p.gaussianStd (Y t) i j)) +
      (p.k2 * p.dataRange) ^ 2 := by linarith
    exact this.ne'
  · simp only [contrast]
    congr 1 <;> ring

theorem ssimSingle_tracks {p : Params} (hp : p.Good) (h w : ℕ) {x y : ℕ → ℕ → Node} {X Y : ℝ → ℕ → ℕ → ℝ} {t : ℝ}
    (hx : ∀ a b, Tracks (x a b) (fun s => X s a b) t) (hy : ∀ a b, Tracks (y a b) (fun s => Y s a b) t) :
    Tracks (ssimSingleN p h w x y).1 (fun s => (ssimSingle p h w (X s) (Y s)).1) t ∧
      Tracks (ssimSingleN p h w x y).2 (fun s => (ssimSingle p h w (X s) (Y s)).2) t := by
  have hn : ((h - p.windowSize + 1 : ℕ) : ℝ) * ((w - p.windowSize + 1 : ℕ) : ℝ) ≠ 0 := by positivity
  exact ⟨divc_tracks (sumN_tracks fun _ _ => sumN_tracks fun _ _ =>
      (luminance_tracks hp hx hy _ _).times (contrast_tracks hp hx hy _ _)) hn,
    divc_tracks (sumN_tracks fun _ _ => sumN_tracks fun _ _ => contrast_tracks hp hx hy _ _) hn⟩

theorem down_tracks {xn : NBatch} {X : ℝ → Batch} {t : ℝ} (h : BTracks xn X t) :
    BTracks (padAndDownsampleN xn) (fun s => padAndDownsample (X s)) t where
  batch := h.batch
  channels := h.channels
  height s := by simp only [padAndDownsample, padAndDownsampleN, h.height s]
  width s := by simp only [padAndDownsample, padAndDownsampleN, h.width s]
  pix b c i j := by
    refine (divc_tracks ((((h.pix b c _ _).add (h.pix b c _ _)).add (h.pix b c _ _)).add (h.pix b c _ _))
      (by norm_num : (4 : ℝ) ≠ 0)).congr (Eventually.of_forall fun s => ?_)
    simp only [padAndDownsample, h.height s, h.width s]

/-! ### The scales -/

/-- What the loop gives for images of all scales that are large enough. -/
noncomputable def outputsN (p : Params) : List ℝ → NBatch → NBatch → List (ℕ → ℕ → Node × Node)
  | [], _, _ => []
  | f :: fs, x, y =>
    (fun c b => (pow f (relu (ssimSingleN p x.height x.width (x.pix b c) (y.pix b c)).1),
      pow f (relu (ssimSingleN p x.height x.width (x.pix b c) (y.pix b c)).2))) ::
      outputsN p fs (padAndDownsampleN x) (padAndDownsampleN y)

/-- The images that the loop compares in its current round. -/
noncomputable def currentN (scale : ℕ) (x : NBatch) : NBatch := if scale ≠ 0 then padAndDownsampleN x else x

theorem scaleOutputsN_eq {p : Params} (h : p.Good) (factors : List ℝ) (scale : ℕ) (x y : NBatch) (hc : 0 < x.channels)
    (hl : ∀ s < factors.length, p.windowSize ≤ sizeAt (currentN scale x).height s ∧
      p.windowSize ≤ sizeAt (currentN scale x).width s) :
    scaleOutputsN p factors scale x y = .ok (outputsN p factors (currentN scale x) (currentN scale y)) := by
  induction factors generalizing scale x y with
  | nil => rfl
  | cons f fs ih =>
    have step : scaleOutputsN p (f :: fs) scale x y =
        if (currentN scale x).height < p.windowSize ∨ (currentN scale x).width < p.windowSize then .error .runtime
        else (ssimMultichannelN p (currentN scale x) (currentN scale y)).bind fun s =>
          (scaleOutputsN p fs (scale + 1) (currentN scale x) (currentN scale y)).map fun rest =>
            (fun c b => (pow f (relu (s c b).1), pow f (relu (s c b).2))) :: rest := rfl
    have hcc : 0 < (currentN scale x).channels := by
      unfold currentN
      split_ifs with hs <;> exact hc
    have hd : ∀ z, currentN (scale + 1) z = padAndDownsampleN z := fun z => by
      unfold currentN
      rw [if_pos (by omega)]
    have hm : ssimMultichannelN p (currentN scale x) (currentN scale y) = .ok fun c b =>
        ssimSingleN p (currentN scale x).height (currentN scale x).width ((currentN scale x).pix b c)
          ((currentN scale y).pix b c) := by
      unfold ssimMultichannelN
      have := h.odd
      rw [if_neg (by omega), if_neg (by omega)]
    have h0 := hl 0 (by simp)
    rw [sizeAt_zero, sizeAt_zero] at h0
    rw [step, if_neg (by omega), hm, Except.bind, ih (scale + 1) _ _ hcc ?_]
    · rw [hd, hd]
      rfl
    · rw [hd]
      intro s hs
      have := hl (s + 1) (by simpa using hs)
      rw [sizeAt_succ, sizeAt_succ] at this
      exact this

theorem outputsN_ne {p : Params} {factors : List ℝ} (h : factors ≠ []) (x y : NBatch) : outputsN p factors x y ≠ [] := by
  cases factors with
  | nil => exact absurd rfl h
  | cons f fs => simp [outputsN]

/-- The comparisons of two images at the finest scale, in terms of the model. -/
theorem single_eq {p : Params} (h : p.Good) (x y : Batch) (hh : p.windowSize ≤ x.height) (hw : p.windowSize ≤ x.width) (b c : ℕ) :
    ssimSingle p x.height x.width (x.pix b c) (y.pix b c) =
      (Paper.overPositions p (Paper.image x b c) fun i j =>
        Paper.l p (Paper.patch (x.pix b c) i j) (Paper.patch (y.pix b c) i j) *
          Paper.cs p (Paper.patch (x.pix b c) i j) (Paper.patch (y.pix b c) i j),
        Paper.overPositions p (Paper.image x b c) fun i j =>
          Paper.cs p (Paper.patch (x.pix b c) i j) (Paper.patch (y.pix b c) i j)) := by
  rw [← meanPos_eq p (Paper.image x b c) hh hw, ← meanPos_eq p (Paper.image x b c) hh hw]
  unfold ssimSingle
  simp only [luminance_eq h, contrast_eq h]
  rfl

/-- All entries of all scales have finite gradients. -/
theorem outputsN_quiet {p : Params} (hp : p.Good) {factors : List ℝ} (hf : ∀ f ∈ factors, 0 ≤ f) {xn yn : NBatch}
    {X Y : ℝ → Batch} {t : ℝ} (hx : BTracks xn X t) (hy : BTracks yn Y t) :
    ∀ o ∈ outputsN p factors xn yn, ∀ c b, Quiet (o c b).1 ∧ Quiet (o c b).2 := by
  induction factors generalizing xn yn X Y with
  | nil => simp [outputsN]
  | cons f fs ih =>
    intro o ho c b
    rcases List.mem_cons.1 ho with rfl | ho
    · have := ssimSingle_tracks hp xn.height xn.width (hx.pix b c) (hy.pix b c)
      exact ⟨(clipped_near (hf f (by simp)) this.1).quiet, (clipped_near (hf f (by simp)) this.2).quiet⟩
    · exact ih (fun g hg => hf g (by simp [hg])) (down_tracks hx) (down_tracks hy) o ho c b

/-- The factors of the score of one channel: each is the clipped power of its comparison. `R` is `Tracks` or `Near`, and `P` what
`R` needs of a comparison. -/
theorem factors_of {p : Params} (hp : p.Good) {t : ℝ} (R : Node → (ℝ → ℝ) → Prop) (P : ℝ → Prop) {factors : List ℝ}
    (hne : factors ≠ [])
    (hR : ∀ f ∈ factors, ∀ a k, Tracks a k t → P (k t) → R (pow f (relu a)) fun s => max 0 (k s) ^ f)
    {xn yn : NBatch} {X Y : ℝ → Batch} (hx : BTracks xn X t) (hy : BTracks yn Y t)
    (hl : ∀ s < factors.length, p.windowSize ≤ sizeAt xn.height s ∧ p.windowSize ≤ sizeAt xn.width s) (c b : ℕ)
    (hP : ∀ v ∈ comparisons p factors (Paper.image (X t) b c) (Paper.image (Y t) b c), P v) :
    ∃ last fs, ∃ L : ℝ → ℝ, (outputsN p factors xn yn).getLast? = some last ∧
      List.Forall₂ R ((outputsN p factors xn yn).dropLast.map fun o => (o c b).2) fs ∧ R (last c b).1 L ∧
      ∀ s, L s * (fs.map fun k => k s).prod = Paper.index p factors (Paper.image (X s) b c) (Paper.image (Y s) b c) := by
  induction factors generalizing xn yn X Y with
  | nil => exact absurd rfl hne
  | cons f fs ih =>
    have h0 := hl 0 (by simp)
    rw [sizeAt_zero, sizeAt_zero] at h0
    have hs := ssimSingle_tracks hp xn.height xn.width (hx.pix b c) (hy.pix b c)
    have he : ∀ s, ssimSingle p xn.height xn.width ((X s).pix b c) ((Y s).pix b c) =
        (Paper.overPositions p (Paper.image (X s) b c) fun i j =>
          Paper.l p (Paper.patch ((X s).pix b c) i j) (Paper.patch ((Y s).pix b c) i j) *
            Paper.cs p (Paper.patch ((X s).pix b c) i j) (Paper.patch ((Y s).pix b c) i j),
          Paper.overPositions p (Paper.image (X s) b c) fun i j =>
            Paper.cs p (Paper.patch ((X s).pix b c) i j) (Paper.patch ((Y s).pix b c) i j)) := fun s => by
      rw [← single_eq hp (X s) (Y s) (by rw [hx.height]; exact h0.1) (by rw [hx.width]; exact h0.2) b c, hx.height, hx.width]
    cases fs with
    | nil =>
      refine ⟨_, [], _, rfl, List.Forall₂.nil, hR f (by simp) _ _ hs.1 ?_, fun s => ?_⟩
      · simp only [he]
        exact hP _ (by simp [comparisons, Paper.image])
      · simp only [he, List.map_nil, List.prod_nil, mul_one]
        rfl
    | cons g gs =>
      obtain ⟨last, ks, L, h1, h2, h3, h4⟩ := ih (by simp) (fun f' hf' => hR f' (by simp [hf'])) (down_tracks hx)
        (down_tracks hy) (fun s hs => by
          have := hl (s + 1) (by simpa using hs)
          rw [sizeAt_succ, sizeAt_succ] at this
          exact this) (fun v hv => hP v (by
            rw [image_down, image_down] at hv
            rw [comparisons]
            exact List.mem_cons_of_mem _ hv))
      have hne' := outputsN_ne (p := p) (factors := g :: gs) (by simp) (padAndDownsampleN xn) (padAndDownsampleN yn)
      refine ⟨last, (fun s => max 0 (ssimSingle p xn.height xn.width ((X s).pix b c) ((Y s).pix b c)).2 ^ f) :: ks, L, ?_, ?_,
        h3, fun s => ?_⟩
      · rw [outputsN, List.getLast?_cons_of_ne_nil hne']
        exact h1
      · rw [outputsN, List.dropLast_cons_of_ne_nil hne', List.map_cons]
        refine List.Forall₂.cons (hR f (by simp) _ _ hs.2 ?_) h2
        simp only [he]
        exact hP _ (by simp [comparisons, Paper.image])
      · have e : Paper.index p (f :: g :: gs) (Paper.image (X s) b c) (Paper.image (Y s) b c) =
            (max 0 (Paper.overPositions p (Paper.image (X s) b c) fun i j =>
              Paper.cs p (Paper.patch ((X s).pix b c) i j) (Paper.patch ((Y s).pix b c) i j))) ^ f *
            Paper.index p (g :: gs) (Paper.coarser (Paper.image (X s) b c)) (Paper.coarser (Paper.image (Y s) b c)) := rfl
        have := h4 s
        rw [image_down, image_down] at this
        rw [e, ← this, List.map_cons, List.prod_cons]
        simp only [he]
        ring

theorem has_of_near {t : ℝ} {l : List Node} {fs : List (ℝ → ℝ)} (h : List.Forall₂ (fun a k => Near a k t) l fs) :
    ∃ w : List (ℝ × ℝ), List.Forall₂ (fun a q => Has a q.1 q.2) l w ∧ w.map Prod.fst = fs.map fun k => k t := by
  induction h with
  | nil => exact ⟨[], .nil, rfl⟩
  | @cons a k l fs h _ ih =>
    obtain ⟨d, h⟩ := h
    obtain ⟨w, h1, h2⟩ := ih
    exact ⟨(k t, d) :: w, .cons h h1, by simp [h2]⟩

theorem has_of_tracks {t : ℝ} {l : List Node} {fs : List (ℝ → ℝ)} (h : List.Forall₂ (fun a k => Tracks a k t) l fs) :
    ∃ w : List (ℝ × ℝ), List.Forall₂ (fun a q => Has a q.1 q.2) l w ∧ (w.map Prod.fst = fs.map fun k => k t) ∧
      HasDerivAt (fun s => (fs.map fun k => k s).prod) (prodDeriv w) t := by
  induction h with
  | nil => exact ⟨[], .nil, rfl, by simpa [prodDeriv] using hasDerivAt_const t (1 : ℝ)⟩
  | @cons a k l fs h _ ih =>
    obtain ⟨d, h, hd⟩ := tracks_iff.1 h
    obtain ⟨w, h1, h2, h3⟩ := ih
    refine ⟨(k t, d) :: w, .cons h h1, by simp [h2], ?_⟩
    simp only [List.map_cons, List.prod_cons, prodDeriv, h2]
    exact hd.fun_mul h3

theorem mem_of_has {l : List Node} {w : List (ℝ × ℝ)} (h : List.Forall₂ (fun a q => Has a q.1 q.2) l w) :
    ∀ q ∈ w, ∃ a ∈ l, a.val = .val q.1 := by
  induction h with
  | nil => simp
  | cons h _ ih =>
    intro q hq
    rcases List.mem_cons.1 hq with rfl | hq
    · exact ⟨_, by simp, h.1⟩
    · obtain ⟨a, ha, h'⟩ := ih q hq
      exact ⟨a, by simp [ha], h'⟩

/-- Large enough, for tensors with gradients. -/
theorem large {p : Params} {n : ℕ} {xn : NBatch} {X : ℝ → Batch} {t : ℝ} (hx : BTracks xn X t) (hl : LargeEnough p n (X t)) :
    ∀ s < n, p.windowSize ≤ sizeAt xn.height s ∧ p.windowSize ≤ sizeAt xn.width s := by
  intro s hs
  have := hl s hs
  rwa [hx.height, hx.width] at this

/-- The scores: finite gradients, and the derivatives where no comparison of the image is zero. -/
theorem scores {p : Params} (hp : p.Good) {factors : List ℝ} (hne : factors ≠ []) (hf : ∀ f ∈ factors, 0 ≤ f) {xn yn : NBatch}
    {X Y : ℝ → Batch} {t : ℝ} (hx : BTracks xn X t) (hy : BTracks yn Y t) (hc : 0 < xn.channels)
    (hl : LargeEnough p factors.length (X t)) :
    ∃ score : ℕ → Node, (∀ r, msSsimN p factors r xn yn = reduceN r xn.batch score) ∧
      (∀ b < xn.batch, Near (score b) (fun s => Paper.score p factors (X s) (Y s) b) t) ∧
      ∀ b < xn.batch, (∀ c < xn.channels, ∀ v ∈ comparisons p factors (Paper.image (X t) b c) (Paper.image (Y t) b c), v ≠ 0) →
        Tracks (score b) (fun s => Paper.score p factors (X s) (Y s) b) t := by
  have hl' := large hx hl
  have ho : scaleOutputsN p factors 0 xn yn = .ok (outputsN p factors xn yn) := scaleOutputsN_eq hp factors 0 xn yn hc hl'
  obtain ⟨last, -, hlast⟩ := getLast?_ne (outputsN_ne (p := p) hne xn yn)
  have hcn : ((xn.channels : ℕ) : ℝ) ≠ 0 := by positivity
  have hq : ∀ a ∈ entries xn.channels xn.batch (outputsN p factors xn yn), Quiet a := by
    intro a ha
    simp only [entries, List.mem_flatMap, List.mem_range] at ha
    obtain ⟨o, hom, c, -, b, -, ha⟩ := ha
    have := outputsN_quiet hp hf hx hy o hom c b
    rcases List.mem_cons.1 ha with rfl | ha
    · exact this.1
    · rw [List.mem_singleton.1 ha]; exact this.2
  have hz : ∀ c < xn.channels, ∀ b < xn.batch, ∀ w : List (ℝ × ℝ), List.Forall₂ (fun a q => Has a q.1 q.2)
      ((outputsN p factors xn yn).dropLast.map fun o => (o c b).2) w →
      ¬ (∃ o ∈ (outputsN p factors xn yn).dropLast, ∃ c < xn.channels, ∃ b < xn.batch, (o c b).2.val = .val 0) →
      ∀ q ∈ w, q.1 ≠ 0 := by
    intro c hc b hb w hw hno q hq h0
    obtain ⟨a, ha, hv⟩ := mem_of_has hw q hq
    obtain ⟨o, ho, rfl⟩ := List.mem_map.1 ha
    exact hno ⟨o, ho, c, hc, b, hb, by rw [hv, h0]⟩
  have hsc : ∀ b s, Paper.score p factors (X s) (Y s) b =
      (∑ c ∈ range xn.channels, Paper.index p factors (Paper.image (X s) b c) (Paper.image (Y s) b c)) / xn.channels := by
    intro b s
    rw [Paper.score, hx.channels]
  refine ⟨_, fun r => by unfold msSsimN; rw [ho]; simp only [Except.bind, hlast]; rfl, fun b hb => ?_, fun b hb h0 => ?_⟩
  · simp only [hsc]
    have : Near (divc xn.channels (sumN xn.channels fun c => combineN (∃ o ∈ (outputsN p factors xn yn).dropLast,
        ∃ c < xn.channels, ∃ b < xn.batch, (o c b).2.val = .val 0) (outputsN p factors xn yn) last c b)) _ t :=
      divc_near (sumN_near (k := fun c s => Paper.index p factors (Paper.image (X s) b c) (Paper.image (Y s) b c))
        fun c hcc => by
          obtain ⟨last', fs, L, h1, h2, h3, h4⟩ := factors_of hp (fun a k => Near a k t) (fun _ => True) hne
            (fun f hfm a k ha _ => clipped_near (hf f hfm) ha) hx hy hl' c b fun _ _ => trivial
          rw [hlast] at h1
          obtain rfl := Option.some.inj h1
          obtain ⟨w, w1, w2⟩ := has_of_near h2
          obtain ⟨d, h3⟩ := h3
          have key := times_has h3 (prod_has w1 (hz c hcc b hb w w1))
          rw [w2, h4 t] at key
          exact ⟨_, key⟩) hcn
    obtain ⟨d, hd⟩ := this
    exact ⟨d, also_back hq _ hd⟩
  · simp only [hsc]
    have : Tracks (divc xn.channels (sumN xn.channels fun c => combineN (∃ o ∈ (outputsN p factors xn yn).dropLast,
        ∃ c < xn.channels, ∃ b < xn.batch, (o c b).2.val = .val 0) (outputsN p factors xn yn) last c b)) _ t :=
      divc_tracks (sumN_tracks (k := fun c s => Paper.index p factors (Paper.image (X s) b c) (Paper.image (Y s) b c))
        fun c hcc => by
          obtain ⟨last', fs, L, h1, h2, h3, h4⟩ := factors_of hp (fun a k => Tracks a k t) (fun v => v ≠ 0) hne
            (fun f hfm a k ha h0 => clipped_tracks (hf f hfm) ha h0) hx hy hl' c b (h0 c hcc)
          rw [hlast] at h1
          obtain rfl := Option.some.inj h1
          obtain ⟨w, w1, w2, w3⟩ := has_of_tracks h2
          obtain ⟨d, h3, h3'⟩ := tracks_iff.1 h3
          have key := times_has h3 (prod_has w1 (hz c hcc b hb w w1))
          rw [w2, h4 t] at key
          refine tracks_iff.2 ⟨_, key, ?_⟩
          simp only [← h4]
          exact h3'.fun_mul w3) hcn
    obtain ⟨d, hd, hd'⟩ := tracks_iff.1 this
    exact tracks_iff.2 ⟨d, also_back hq _ hd, hd'⟩

/-! ### Theorems -/

/-- The image of which a pixel is differentiated by. -/
inductive Side
  | preds
  | target

/-- The two arguments. -/
def Side.nodes (x y : Batch) (q : Place) : Side → NBatch × NBatch
  | .preds => (withVar x q, fixed y)
  | .target => (fixed x, withVar y q)

/-- The two batches with `t` in place of the pixel. -/
def Side.put (x y : Batch) (q : Place) (t : ℝ) : Side → Batch × Batch
  | .preds => (MsSsimGrad.put x q t, y)
  | .target => (x, MsSsimGrad.put y q t)

/-- The value of the pixel. -/
def Side.at (x y : Batch) (q : Place) : Side → ℝ
  | .preds => at' x q
  | .target => at' y q

theorem fixed_tracks (x : Batch) (t : ℝ) : BTracks (fixed x) (fun _ => x) t :=
  ⟨fun _ => rfl, fun _ => rfl, fun _ => rfl, fun _ => rfl, fun _ _ _ _ => tracks_const _ _⟩

theorem withVar_tracks (x : Batch) (q : Place) : BTracks (withVar x q) (MsSsimGrad.put x q) (at' x q) where
  batch _ := rfl
  channels _ := rfl
  height _ := rfl
  width _ := rfl
  pix b c i j := by
    unfold withVar MsSsimGrad.put
    simp only
    by_cases h : (b, c, i, j) = q
    · simp only [if_pos h]
      subst h
      exact tracks_leaf _
    · simp only [if_neg h]
      exact tracks_const _ _

theorem put_at (x : Batch) (q : Place) : MsSsimGrad.put x q (at' x q) = x := by
  unfold MsSsimGrad.put
  have : (fun b c i j => if (b, c, i, j) = q then at' x q else x.pix b c i j) = x.pix := by
    funext b c i j
    split_ifs with h
    · subst h; rfl
    · rfl
  rw [this]

/-- The scores, for one pixel of one of the images. -/
theorem scores_side {p : Params} (hp : p.Good) {factors : List ℝ} (hne : factors ≠ []) (hf : ∀ f ∈ factors, 0 ≤ f) (x y : Batch)
    (hs : SameShape x y) (hc : 0 < x.channels) (hl : LargeEnough p factors.length x) (side : Side) (q : Place) :
    ∃ score : ℕ → Node,
      (∀ r, msSsimN p factors r (side.nodes x y q).1 (side.nodes x y q).2 = reduceN r x.batch score) ∧
      (∀ b < x.batch, Near (score b) (fun s => Paper.score p factors (side.put x y q s).1 (side.put x y q s).2 b) (side.at x y q)) ∧
      ∀ b < x.batch, (∀ c < x.channels, ∀ v ∈ comparisons p factors (Paper.image x b c) (Paper.image y b c), v ≠ 0) →
        Tracks (score b) (fun s => Paper.score p factors (side.put x y q s).1 (side.put x y q s).2 b) (side.at x y q) := by
  cases side with
  | preds =>
    have := scores hp hne hf (withVar_tracks x q) (fixed_tracks y _) hc (by rw [put_at]; exact hl)
    rw [put_at] at this
    exact this
  | target =>
    have := scores hp hne hf (fixed_tracks x _) (withVar_tracks y q) hc hl
    rw [put_at] at this
    exact this

theorem side_at (x y : Batch) (q : Place) (side : Side) : side.put x y q (side.at x y q) = (x, y) := by
  cases side <;> simp only [Side.put, Side.at, put_at]

/-- **C146.** For all images of one shape that are large enough, every pixel of either of them and every image of the batch: the
gradient of its score by the pixel is finite, and it is the derivative of the index of the paper, unless a comparison of the image
is exactly zero. So infinite derivatives of powers at clipped comparisons do not spoil it, also those of comparisons that the
score does not use. -/
theorem C146_gradient {p : Params} (hp : p.Good) {factors : List ℝ} (hne : factors ≠ []) (hf : ∀ f ∈ factors, 0 ≤ f) (x y : Batch)
    (hs : SameShape x y) (hc : 0 < x.channels) (hl : LargeEnough p factors.length x) (side : Side) (q : Place) :
    ∃ ns : List Node, msSsimN p factors "none" (side.nodes x y q).1 (side.nodes x y q).2 = .ok (.perImage ns) ∧
      ns.length = x.batch ∧ ∀ b (hb : b < ns.length), ns[b].val = .val (Paper.score p factors x y b) ∧
        ∃ g, ns[b].grad = .val g ∧
          ((∀ c < x.channels, ∀ v ∈ comparisons p factors (Paper.image x b c) (Paper.image y b c), v ≠ 0) →
            HasDerivAt (fun s => Paper.score p factors (side.put x y q s).1 (side.put x y q s).2 b) g (side.at x y q)) := by
  obtain ⟨score, h1, h2, h3⟩ := scores_side hp hne hf x y hs hc hl side q
  refine ⟨(List.range x.batch).map score, by rw [h1]; simp [reduceN], by simp, fun b hb => ?_⟩
  have hb' : b < x.batch := by simpa using hb
  have e : ((List.range x.batch).map score)[b] = score b := by simp
  rw [e]
  obtain ⟨d, hd⟩ := h2 b hb'
  have ev : (score b).val = .val (Paper.score p factors x y b) := by
    rw [hd.1]
    show F.val (Paper.score p factors (side.put x y q (side.at x y q)).1 (side.put x y q (side.at x y q)).2 b) = _
    rw [side_at]
  refine ⟨ev, d, by rw [Node.grad, hd.2, mul_one], fun h0 => ?_⟩
  obtain ⟨d', k, hd'⟩ := tracks_iff.1 (h3 b hb' h0)
  have := F.val.inj ((hd.2 1).symm.trans (k.2 1))
  rw [mul_one, mul_one] at this
  rw [this]
  exact hd'

/-- **C146, reductions.** The same for the sum and the mean over the images, if no comparison of any image is zero. -/
theorem C146_reductions {p : Params} (hp : p.Good) {factors : List ℝ} (hne : factors ≠ []) (hf : ∀ f ∈ factors, 0 ≤ f)
    (x y : Batch) (hs : SameShape x y) (hc : 0 < x.channels) (hb : 0 < x.batch) (hl : LargeEnough p factors.length x) (side : Side)
    (q : Place)
    (h0 : ∀ b < x.batch, ∀ c < x.channels, ∀ v ∈ comparisons p factors (Paper.image x b c) (Paper.image y b c), v ≠ 0) :
    (∃ n g, msSsimN p factors "sum" (side.nodes x y q).1 (side.nodes x y q).2 = .ok (.scalar n) ∧ n.grad = .val g ∧
      HasDerivAt (fun s => ∑ b ∈ range x.batch, Paper.score p factors (side.put x y q s).1 (side.put x y q s).2 b) g
        (side.at x y q)) ∧
    ∃ n g, msSsimN p factors "mean" (side.nodes x y q).1 (side.nodes x y q).2 = .ok (.scalar n) ∧ n.grad = .val g ∧
      HasDerivAt (fun s => (∑ b ∈ range x.batch, Paper.score p factors (side.put x y q s).1 (side.put x y q s).2 b) / x.batch) g
        (side.at x y q) := by
  obtain ⟨score, h1, h2, h3⟩ := scores_side hp hne hf x y hs hc hl side q
  have ht := sumN_tracks (n := x.batch) fun b hb => h3 b hb (h0 b hb)
  obtain ⟨g, hg, hd⟩ := ht.grad
  obtain ⟨g', hg', hd'⟩ := (divc_tracks ht (n := x.batch) (by positivity)).grad
  exact ⟨⟨_, g, by rw [h1]; simp [reduceN], hg, hd⟩, _, g', by rw [h1]; simp [reduceN], hg', hd'⟩

/-- **C146, images that cannot be processed.** The exceptions are those without gradients: images that are too small raise. -/
theorem C146_rejects {p : Params} (factors : List ℝ) (x y : Batch) (hne : factors ≠ [])
    (hw : x.height < p.windowSize ∨ x.width < p.windowSize) (side : Side) (q : Place) (r : String) :
    msSsimN p factors r (side.nodes x y q).1 (side.nodes x y q).2 = .error .runtime := by
  cases factors with
  | nil => exact absurd rfl hne
  | cons f fs =>
    have : scaleOutputsN p (f :: fs) 0 (side.nodes x y q).1 (side.nodes x y q).2 = .error .runtime := by
      unfold scaleOutputsN
      simp only [ne_eq, not_true_eq_false, if_false]
      rw [if_pos]
      cases side <;> exact hw
    rw [msSsimN, this]
    rfl

/-- The score is between zero and one. -/
theorem score_range {p : Params} (hp : p.Good) {factors : List ℝ} (hne : factors ≠ []) (hf : ∀ f ∈ factors, 0 ≤ f) (x y : Batch)
    (hs : SameShape x y) (hc : 0 < x.channels) (hl : LargeEnough p factors.length x) (b : ℕ) (hb : b < x.batch) :
    0 ≤ Paper.score p factors x y b ∧ Paper.score p factors x y b ≤ 1 := by
  obtain ⟨l, h1, -, h2⟩ := C45_range hp hne hf x y hc hl
  rw [(C45_value hp hne x y hs hc hl).1] at h1
  cases h1
  exact h2 _ (List.mem_map.2 ⟨b, List.mem_range.2 hb, rfl⟩)

theorem put_shape (x y : Batch) (hs : SameShape x y) (side : Side) (q : Place) (s : ℝ) :
    SameShape (side.put x y q s).1 (side.put x y q s).2 ∧ (side.put x y q s).1.channels = x.channels ∧
      (side.put x y q s).1.batch = x.batch ∧ (side.put x y q s).1.height = x.height ∧ (side.put x y q s).1.width = x.width := by
  cases side <;> exact ⟨hs, rfl, rfl, rfl, rfl⟩

theorem put_range {p : Params} (hp : p.Good) {factors : List ℝ} (hne : factors ≠ []) (hf : ∀ f ∈ factors, 0 ≤ f) (x y : Batch)
    (hs : SameShape x y) (hc : 0 < x.channels) (hl : LargeEnough p factors.length x) (b : ℕ) (hb : b < x.batch) (side : Side)
    (q : Place) (s : ℝ) : 0 ≤ Paper.score p factors (side.put x y q s).1 (side.put x y q s).2 b ∧
      Paper.score p factors (side.put x y q s).1 (side.put x y q s).2 b ≤ 1 := by
  obtain ⟨k1, k2, k3, k4, k5⟩ := put_shape x y hs side q s
  refine score_range hp hne hf _ _ k1 (by rw [k2]; exact hc) (fun n hn => ?_) b (by rw [k3]; exact hb)
  rw [k4, k5]
  exact hl n hn

/-- **C146, nothing to learn.** Where no comparison is exactly zero, an image whose score is one, or whose score is zero because in
every channel a comparison is negative, gives no gradient to any pixel. -/
theorem C146_flat {p : Params} (hp : p.Good) {factors : List ℝ} (hne : factors ≠ []) (hf : ∀ f ∈ factors, 0 ≤ f) (x y : Batch)
    (hs : SameShape x y) (hc : 0 < x.channels) (hl : LargeEnough p factors.length x) (side : Side) (q : Place) :
    ∃ ns : List Node, msSsimN p factors "none" (side.nodes x y q).1 (side.nodes x y q).2 = .ok (.perImage ns) ∧
      ns.length = x.batch ∧ ∀ b (hb : b < ns.length),
        (∀ c < x.channels, ∀ v ∈ comparisons p factors (Paper.image x b c) (Paper.image y b c), v ≠ 0) →
        Paper.score p factors x y b = 0 ∨ Paper.score p factors x y b = 1 → ns[b].grad = .val 0 := by
  obtain ⟨ns, h1, h2, h3⟩ := C146_gradient hp hne hf x y hs hc hl side q
  refine ⟨ns, h1, h2, fun b hb h0 hv => ?_⟩
  obtain ⟨-, g, hg, hd⟩ := h3 b hb
  have hd := hd h0
  have r := put_range hp hne hf x y hs hc hl b (by omega) side q
  have e : Paper.score p factors (side.put x y q (side.at x y q)).1 (side.put x y q (side.at x y q)).2 b =
      Paper.score p factors x y b := by rw [side_at]
  have : g = 0 := by
    rcases hv with hv | hv
    · refine IsLocalMin.hasDerivAt_eq_zero (Eventually.of_forall fun s => ?_) hd
      rw [e, hv]; exact (r s).1
    · refine IsLocalMax.hasDerivAt_eq_zero (Eventually.of_forall fun s => ?_) hd
      rw [e, hv]; exact (r s).2
  rw [hg, this]

/-- All comparisons of an image with itself are one. -/
theorem comparisons_self {p : Params} (hp : p.Good) (factors : List ℝ) (x : Paper.Image)
    (hl : ∀ s < factors.length, p.windowSize ≤ sizeAt x.h s ∧ p.windowSize ≤ sizeAt x.w s) :
    ∀ v ∈ comparisons p factors x x, v = 1 := by
  have hL : ∀ (z : ℕ → ℕ → ℝ) i j, Paper.l p (Paper.patch z i j) (Paper.patch z i j) = 1 := fun z i j => by
    rw [← luminance_eq hp, luminance_self hp]
  have hC : ∀ (z : ℕ → ℕ → ℝ) i j, Paper.cs p (Paper.patch z i j) (Paper.patch z i j) = 1 := fun z i j => by
    rw [← contrast_eq hp, contrast_self hp]
  induction factors generalizing x with
  | nil => simp [comparisons]
  | cons f fs ih =>
    have h0 := hl 0 (by simp)
    rw [sizeAt_zero, sizeAt_zero] at h0
    have hm : Paper.overPositions p x (fun _ _ => 1) = 1 := by rw [← meanPos_eq p x h0.1 h0.2, meanPos_one]
    cases fs with
    | nil =>
      intro v hv
      simp only [comparisons, hL, hC, mul_one, hm, List.mem_singleton] at hv
      exact hv
    | cons g gs =>
      intro v hv
      simp only [comparisons, hC, hm, List.mem_cons] at hv
      rcases hv with hv | hv
      · exact hv
      · refine ih (Paper.coarser x) (fun s hs => ?_) v hv
        have := hl (s + 1) (by simpa using hs)
        rw [sizeAt_succ, sizeAt_succ, half_eq, half_eq] at this
        exact this

/-- **C146, identical images.** For identical images all gradients are zero. -/
theorem C146_identical {p : Params} (hp : p.Good) {factors : List ℝ} (hne : factors ≠ []) (hf : ∀ f ∈ factors, 0 ≤ f) (x : Batch)
    (hc : 0 < x.channels) (hb : 0 < x.batch) (hl : LargeEnough p factors.length x) (side : Side) (q : Place) :
    ∃ ns : List Node, msSsimN p factors "none" (side.nodes x x q).1 (side.nodes x x q).2 = .ok (.perImage ns) ∧
      ns.length = x.batch ∧ ∀ n ∈ ns, n.val = .val 1 ∧ n.grad = .val 0 := by
  have hs : SameShape x x := ⟨rfl, rfl, rfl, rfl⟩
  obtain ⟨ns, h1, h2, h3⟩ := C146_flat hp hne hf x x hs hc hl side q
  obtain ⟨ns', k1, k2, k3⟩ := C146_gradient hp hne hf x x hs hc hl side q
  have e : ns' = ns := by
    rw [h1] at k1
    cases k1
    rfl
  subst e
  refine ⟨ns', h1, h2, fun n hn => ?_⟩
  obtain ⟨b, hbn, rfl⟩ := List.mem_iff_getElem.1 hn
  have hsc : Paper.score p factors x x b = 1 := by
    have i1 := (C45_identical hp hne x hc hb hl).2.2
    rw [(C45_value hp hne x x hs hc hl).1] at i1
    have i2 := Out.perImage.inj (Except.ok.inj i1)
    have := congrArg (fun l : List ℝ => l[b]?) i2
    have hb' : b < x.batch := by omega
    simpa [hb'] using this
  refine ⟨by rw [(k3 b hbn).1, hsc], h3 b hbn (fun c _ v hv => ?_) (Or.inr hsc)⟩
  rw [comparisons_self hp factors (Paper.image x b c) hl v hv]
  exact one_ne_zero

/-! ### The hypotheses can be met -/

/-- Two different images of the default size for the default exponents. -/
example : ∃ x y : Batch, x.pix ≠ y.pix ∧ SameShape x y ∧ 0 < x.channels ∧ LargeEnough {} defaultFactors.length x ∧
    (∀ f ∈ defaultFactors, 0 ≤ f) ∧ defaultFactors ≠ [] ∧ Params.Good {} := by
  refine ⟨⟨2, 3, 176, 176, fun _ _ i _ => i⟩, ⟨2, 3, 176, 176, fun _ _ _ j => j⟩, ?_, ⟨rfl, rfl, rfl, rfl⟩, by decide, ?_, ?_, ?_, ?_⟩
  · intro e
    have := congrFun (congrFun (congrFun (congrFun e 0) 0) 1) 0
    norm_num at this
  · intro s hs
    have : s < 5 := hs
    have : s = 0 ∨ s = 1 ∨ s = 2 ∨ s = 3 ∨ s = 4 := by omega
    rcases this with rfl | rfl | rfl | rfl | rfl <;> simp [sizeAt]
  · intro f hf
    simp only [defaultFactors, List.mem_cons, List.not_mem_nil, or_false] at hf
    rcases hf with rfl | rfl | rfl | rfl | rfl <;> norm_num
  · simp [defaultFactors]
  · constructor <;> norm_num

/-- The window of the next example. -/
noncomputable def small : Params := { windowSize := 3 }

/-- An image and its negative: the only comparison is negative, so the score is zero and `C146_flat` applies. -/
theorem negative_comparison_example : ∀ v ∈ comparisons small [1] ⟨3, 3, fun i _ => i - 1⟩ ⟨3, 3, fun i _ => 1 - i⟩, v < 0 := by
  have h2 : ∀ v, Paper.weight 3 1.5 2 v = Paper.weight 3 1.5 0 v := fun v => by
    unfold Paper.weight; congr 1; norm_num
  have hpos : ∀ u v, 0 < Paper.weight 3 1.5 u v := fun u v => exp_pos _
  have h0 : ∀ v, Paper.weight 3 1.5 1 v ≤ 2 * Paper.weight 3 1.5 0 v := fun v => by
    have e : Paper.weight 3 1.5 0 v = exp (-(2 / 9)) * Paper.weight 3 1.5 1 v := by
      unfold Paper.weight
      rw [← exp_add]; congr 1; push_cast; ring
    have := add_one_le_exp (-(2 / 9 : ℝ))
    have hp := hpos 1 v
    rw [e]; nlinarith
  have hm : Paper.mean 3 1.5 (Paper.patch (fun i _ => (i : ℝ) - 1) 0 0) = 0 := by
    simp only [Paper.mean, Paper.patch, sum_range_succ, sum_range_zero, h2]
    push_cast; rw [div_eq_zero_iff]; left; ring
  have hm' : Paper.mean 3 1.5 (Paper.patch (fun i _ => 1 - (i : ℝ)) 0 0) = 0 := by
    simp only [Paper.mean, Paper.patch, sum_range_succ, sum_range_zero, h2]
    push_cast; rw [div_eq_zero_iff]; left; ring
  have hV : 1 / 2 ≤ Paper.cov 3 1.5 (Paper.patch (fun i _ => (i : ℝ) - 1) 0 0) (Paper.patch (fun i _ => (i : ℝ) - 1) 0 0) := by
    rw [Paper.cov, hm]
    simp only [Paper.mean, Paper.patch, sum_range_succ, sum_range_zero, h2]
    push_cast
    have a0 := hpos 0 0; have a1 := hpos 0 1; have a2 := hpos 0 2
    have b0 := hpos 1 0; have b1 := hpos 1 1; have b2 := hpos 1 2
    have c0 := h0 0; have c1 := h0 1; have c2 := h0 2
    rw [div_le_div_iff₀ (by norm_num) (by positivity)]
    nlinarith
  have hW : Paper.cov 3 1.5 (Paper.patch (fun i _ => 1 - (i : ℝ)) 0 0) (Paper.patch (fun i _ => 1 - (i : ℝ)) 0 0) =
      Paper.cov 3 1.5 (Paper.patch (fun i _ => (i : ℝ) - 1) 0 0) (Paper.patch (fun i _ => (i : ℝ) - 1) 0 0) := by
    rw [Paper.cov, Paper.cov, hm, hm']
    congr 1; funext u v; simp only [Paper.patch]; ring
  have hX : Paper.cov 3 1.5 (Paper.patch (fun i _ => (i : ℝ) - 1) 0 0) (Paper.patch (fun i _ => 1 - (i : ℝ)) 0 0) =
      -Paper.cov 3 1.5 (Paper.patch (fun i _ => (i : ℝ) - 1) 0 0) (Paper.patch (fun i _ => (i : ℝ) - 1) 0 0) := by
    rw [Paper.cov, Paper.cov, hm, hm']
    simp only [Paper.mean, Paper.patch]
    rw [← neg_div, ← sum_neg_distrib]
    congr 1
    refine sum_congr rfl fun u _ => ?_
    rw [← sum_neg_distrib]
    exact sum_congr rfl fun v _ => by ring
  intro v hv
  simp only [comparisons, Paper.overPositions, small, List.mem_singleton, Nat.add_sub_cancel_left, sum_range_one, Paper.l, Paper.cs,
    hm, hm', hW, hX] at hv
  set V := Paper.cov 3 1.5 (Paper.patch (fun i _ => (i : ℝ) - 1) 0 0) (Paper.patch (fun i _ => (i : ℝ) - 1) 0 0)
  rw [hv]
  have : (2 * -V + (0.03 * 1) ^ 2) / (V + V + (0.03 * 1) ^ 2) < 0 :=
    div_neg_of_neg_of_pos (by linarith) (by positivity)
  norm_num at this ⊢
  exact this

end Verif.Functional.MsSsimGrad
