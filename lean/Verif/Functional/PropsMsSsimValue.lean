import Verif.Functional.PropsMsSsim
import Mathlib.Tactic.NormNum

/-!
C45: the value of the multiscale structural similarity is that of the paper (Wang, Simoncelli, Bovik 2003), stated with a
specification of its own: Gaussian weights, weighted means, variances and covariances about the means, the product over the
scales.
-/

namespace Verif.Functional.MsSsim

open Real Finset

/-! ### Specification -/

namespace Paper

/-- The weight of a pixel whose distances from the centre of the window are `u - (n - 1) / 2` and `v - (n - 1) / 2`: a Gaussian
of the distance. -/
noncomputable def weight (n : ℕ) (σ : ℝ) (u v : ℕ) : ℝ :=
  exp (-((u - ((n : ℝ) - 1) / 2) ^ 2 + (v - ((n : ℝ) - 1) / 2) ^ 2) / (2 * σ ^ 2))

/-- The weighted mean of `n × n` numbers. -/
noncomputable def mean (n : ℕ) (σ : ℝ) (f : ℕ → ℕ → ℝ) : ℝ :=
  (∑ u ∈ range n, ∑ v ∈ range n, weight n σ u v * f u v) / ∑ u ∈ range n, ∑ v ∈ range n, weight n σ u v

/-- The weighted covariance of `n × n` pairs of numbers; of `f` with itself, the variance. -/
noncomputable def cov (n : ℕ) (σ : ℝ) (f g : ℕ → ℕ → ℝ) : ℝ :=
  mean n σ fun u v => (f u v - mean n σ f) * (g u v - mean n σ g)

/-- The part of an image under a window: the first pixel is `(i, j)`. -/
def patch (x : ℕ → ℕ → ℝ) (i j : ℕ) : ℕ → ℕ → ℝ := fun u v => x (i + u) (j + v)

/-- Luminance comparison of two patches, with `C₁ = (K₁ L)²`. -/
noncomputable def l (p : Params) (f g : ℕ → ℕ → ℝ) : ℝ :=
  (2 * mean p.windowSize p.gaussianStd f * mean p.windowSize p.gaussianStd g + (p.k1 * p.dataRange) ^ 2) /
    (mean p.windowSize p.gaussianStd f ^ 2 + mean p.windowSize p.gaussianStd g ^ 2 + (p.k1 * p.dataRange) ^ 2)

/-- Contrast and structure comparison of two patches, with `C₂ = (K₂ L)²`. -/
noncomputable def cs (p : Params) (f g : ℕ → ℕ → ℝ) : ℝ :=
  (2 * cov p.windowSize p.gaussianStd f g + (p.k2 * p.dataRange) ^ 2) /
    (cov p.windowSize p.gaussianStd f f + cov p.windowSize p.gaussianStd g g + (p.k2 * p.dataRange) ^ 2)

/-- An image: height, width, pixels. -/
structure Image where
  h : ℕ
  w : ℕ
  px : ℕ → ℕ → ℝ

/-- The mean over all positions of the window inside the image. -/
noncomputable def overPositions (p : Params) (x : Image) (q : ℕ → ℕ → ℝ) : ℝ :=
  (∑ i ∈ range (x.h + 1 - p.windowSize), ∑ j ∈ range (x.w + 1 - p.windowSize), q i j) /
    ((x.h + 1 - p.windowSize : ℕ) * (x.w + 1 - p.windowSize : ℕ))

/-- Half of the resolution: the means of blocks of two by two pixels; beyond the border the last row or column is repeated. -/
noncomputable def coarser (x : Image) : Image where
  h := (x.h + 1) / 2
  w := (x.w + 1) / 2
  px i j := (∑ a ∈ range 2, ∑ b ∈ range 2, x.px (min (2 * i + a) (x.h - 1)) (min (2 * j + b) (x.w - 1))) / 4

/-- The index of two images for the exponents of the scales from fine to coarse: at the coarsest scale the mean of the products of
the comparisons, at the others the mean contrast and structure; negative means count as zero. -/
noncomputable def index (p : Params) : List ℝ → Image → Image → ℝ
  | [], _, _ => 1
  | [β], x, y => (max 0 (overPositions p x fun i j =>
      l p (patch x.px i j) (patch y.px i j) * cs p (patch x.px i j) (patch y.px i j))) ^ β
  | β :: βs, x, y => (max 0 (overPositions p x fun i j => cs p (patch x.px i j) (patch y.px i j))) ^ β *
      index p βs (coarser x) (coarser y)

/-- One channel of one image of a batch. -/
def image (x : Batch) (b c : ℕ) : Image := ⟨x.height, x.width, x.pix b c⟩

/-- The score of image `b` of a batch: the mean over the channels. -/
noncomputable def score (p : Params) (βs : List ℝ) (x y : Batch) (b : ℕ) : ℝ :=
  (∑ c ∈ range x.channels, index p βs (image x b c) (image y b c)) / x.channels

end Paper

/-! ### The windows agree -/

theorem window_eq {n : ℕ} (h : n % 2 = 1) {σ : ℝ} (hσ : σ ≠ 0) (u v : ℕ) :
    window n σ u v = Paper.weight n σ u v / ∑ a ∈ range n, ∑ b ∈ range n, Paper.weight n σ a b := by
  have hn : ((n / 2 : ℕ) : ℝ) = ((n : ℝ) - 1) / 2 := by
    have : n = 2 * (n / 2) + 1 := by omega
    have h2 : (n : ℝ) = 2 * ((n / 2 : ℕ) : ℝ) + 1 := by exact_mod_cast this
    linarith
  have hw : ∀ a b, Paper.weight n σ a b = gauss n σ a * gauss n σ b := by
    intro a b
    unfold Paper.weight gauss
    rw [hn, ← exp_add]
    congr 1
    field_simp
    ring
  unfold window normalized
  simp only [hw]
  rw [← sum_mul_sum, div_mul_div_comm]

theorem conv_eq {n : ℕ} (h : n % 2 = 1) {σ : ℝ} (hσ : σ ≠ 0) (x : ℕ → ℕ → ℝ) (i j : ℕ) :
    conv n σ x i j = Paper.mean n σ (Paper.patch x i j) := by
  unfold conv Paper.mean Paper.patch
  simp only [window_eq h hσ]
  rw [sum_div]
  refine sum_congr rfl fun u _ => ?_
  rw [sum_div]
  refine sum_congr rfl fun v _ => ?_
  ring

theorem cov_eq {n : ℕ} (h : n % 2 = 1) {σ : ℝ} (hσ : σ ≠ 0) (x y : ℕ → ℕ → ℝ) (i j : ℕ) :
    conv n σ (fun a b => x a b * y a b) i j - conv n σ x i j * conv n σ y i j =
      Paper.cov n σ (Paper.patch x i j) (Paper.patch y i j) := by
  have hpos : 0 < n := by omega
  unfold Paper.cov
  rw [← conv_eq h hσ x, ← conv_eq h hσ y]
  set m := conv n σ x i j with hm
  set k := conv n σ y i j with hk
  have : (fun u v => (Paper.patch x i j u v - m) * (Paper.patch y i j u v - k)) =
      Paper.patch (fun a b => (x a b - m) * (y a b - k)) i j := rfl
  rw [this, ← conv_eq h hσ]
  have e : (fun a b => (x a b - m) * (y a b - k)) =
      fun a b => ((x a b * y a b + (-k) * x a b) + (-m) * y a b) + m * k := by
    funext a b; ring
  rw [e, conv_add, conv_add, conv_add, conv_smul, conv_smul, conv_const hpos, ← hm, ← hk]
  ring

theorem luminance_eq {p : Params} (h : p.Good) (x y : ℕ → ℕ → ℝ) (i j : ℕ) :
    luminance p x y i j = Paper.l p (Paper.patch x i j) (Paper.patch y i j) := by
  unfold luminance Paper.l
  simp only [conv_eq h.odd h.std]

theorem contrast_eq {p : Params} (h : p.Good) (x y : ℕ → ℕ → ℝ) (i j : ℕ) :
    contrast p x y i j = Paper.cs p (Paper.patch x i j) (Paper.patch y i j) := by
  unfold contrast Paper.cs
  simp only [cov_eq h.odd h.std]

theorem meanPos_eq (p : Params) (x : Paper.Image) (hh : p.windowSize ≤ x.h) (hw : p.windowSize ≤ x.w) (q : ℕ → ℕ → ℝ) :
    meanPos p.windowSize x.h x.w q = Paper.overPositions p x q := by
  unfold meanPos Paper.overPositions
  rw [show x.h - p.windowSize + 1 = x.h + 1 - p.windowSize by omega,
    show x.w - p.windowSize + 1 = x.w + 1 - p.windowSize by omega]

theorem image_down (x : Batch) (b c : ℕ) :
    Paper.image (padAndDownsample x) b c = Paper.coarser (Paper.image x b c) := by
  unfold Paper.image Paper.coarser padAndDownsample
  simp only [Paper.Image.mk.injEq]
  refine ⟨by omega, by omega, ?_⟩
  funext i j
  simp only [sum_range_succ, sum_range_zero, add_zero, zero_add]
  ring

/-! ### The scales -/

/-- What the loop gives for images of all scales that are large enough. -/
noncomputable def outputs (p : Params) : List ℝ → Batch → Batch → List (ℕ → ℕ → ℝ × ℝ)
  | [], _, _ => []
  | f :: fs, x, y =>
    (fun c b => (max 0 (ssimSingle p x.height x.width (x.pix b c) (y.pix b c)).1 ^ f,
      max 0 (ssimSingle p x.height x.width (x.pix b c) (y.pix b c)).2 ^ f)) ::
      outputs p fs (padAndDownsample x) (padAndDownsample y)

theorem current_down (scale : ℕ) (x : Batch) : current (scale + 1) x = padAndDownsample x := by
  unfold current
  rw [if_pos (by omega)]

theorem scaleOutputs_eq {p : Params} (h : p.Good) (factors : List ℝ) (scale : ℕ) (x y : Batch) (hc : 0 < x.channels)
    (hl : LargeEnough p factors.length (current scale x)) :
    scaleOutputs p factors scale x y = .ok (outputs p factors (current scale x) (current scale y)) := by
  induction factors generalizing scale x y with
  | nil => rfl
  | cons f fs ih =>
    have step : scaleOutputs p (f :: fs) scale x y =
        if (current scale x).height < p.windowSize ∨ (current scale x).width < p.windowSize then .error .runtime
        else (ssimMultichannel p (current scale x) (current scale y)).bind fun s =>
          (scaleOutputs p fs (scale + 1) (current scale x) (current scale y)).map fun rest =>
            (fun c b => (max 0 (s c b).1 ^ f, max 0 (s c b).2 ^ f)) :: rest := rfl
    have hcc : 0 < (current scale x).channels := by
      unfold current
      split_ifs with hs <;> exact hc
    have h0 := hl 0 (by simp)
    rw [sizeAt_zero, sizeAt_zero] at h0
    rw [step, if_neg (by omega), multi_ok h hcc, Except.bind, ih (scale + 1) _ _ hcc ?_]
    · rw [current_down, current_down]
      rfl
    · rw [current_down]
      intro s hs
      rw [down_height, down_width, ← sizeAt_succ, ← sizeAt_succ]
      exact hl (s + 1) (by simpa using hs)

theorem outputs_ne {p : Params} {factors : List ℝ} (h : factors ≠ []) (x y : Batch) : outputs p factors x y ≠ [] := by
  cases factors with
  | nil => exact absurd rfl h
  | cons f fs => simp [outputs]

theorem combine_outputs {p : Params} (h : p.Good) {factors : List ℝ} (hne : factors ≠ []) (x y : Batch)
    (hs : x.height = y.height ∧ x.width = y.width)
    (hl : LargeEnough p factors.length x) (last : ℕ → ℕ → ℝ × ℝ) (hlast : (outputs p factors x y).getLast? = some last)
    (c b : ℕ) :
    combine (outputs p factors x y) last c b = Paper.index p factors (Paper.image x b c) (Paper.image y b c) := by
  induction factors generalizing x y with
  | nil => exact absurd rfl hne
  | cons f fs ih =>
    have h0 := hl 0 (by simp)
    rw [sizeAt_zero, sizeAt_zero] at h0
    have hss : ssimSingle p x.height x.width (x.pix b c) (y.pix b c) =
        (Paper.overPositions p (Paper.image x b c) fun i j =>
          Paper.l p (Paper.patch (x.pix b c) i j) (Paper.patch (y.pix b c) i j) *
            Paper.cs p (Paper.patch (x.pix b c) i j) (Paper.patch (y.pix b c) i j),
          Paper.overPositions p (Paper.image x b c) fun i j =>
            Paper.cs p (Paper.patch (x.pix b c) i j) (Paper.patch (y.pix b c) i j)) := by
      rw [← meanPos_eq p (Paper.image x b c) h0.1 h0.2, ← meanPos_eq p (Paper.image x b c) h0.1 h0.2]
      unfold ssimSingle
      simp only [luminance_eq h, contrast_eq h]
      rfl
    cases fs with
    | nil =>
      simp only [outputs, List.getLast?_singleton, Option.some.injEq] at hlast
      subst hlast
      unfold combine outputs
      simp only [List.dropLast, outputs, List.map_nil, List.prod_nil, mul_one]
      rw [hss]
      rfl
    | cons g gs =>
      have hl' : LargeEnough p (g :: gs).length (padAndDownsample x) := by
        intro s hs
        rw [down_height, down_width, ← sizeAt_succ, ← sizeAt_succ]
        exact hl (s + 1) (by simpa using hs)
      have hne' := outputs_ne (p := p) (factors := g :: gs) (by simp) (padAndDownsample x) (padAndDownsample y)
      have hlast' : (outputs p (g :: gs) (padAndDownsample x) (padAndDownsample y)).getLast? = some last := by
        rw [← hlast]
        conv_rhs => rw [outputs]
        rw [List.getLast?_cons_of_ne_nil hne']
      have := ih (by simp) (padAndDownsample x) (padAndDownsample y)
        (by simp only [down_height, down_width, hs.1, hs.2, and_self]) hl' hlast'
      rw [image_down, image_down] at this
      have e : Paper.index p (f :: g :: gs) (Paper.image x b c) (Paper.image y b c) =
          (max 0 (Paper.overPositions p (Paper.image x b c) fun i j =>
            Paper.cs p (Paper.patch (x.pix b c) i j) (Paper.patch (y.pix b c) i j))) ^ f *
          Paper.index p (g :: gs) (Paper.coarser (Paper.image x b c)) (Paper.coarser (Paper.image y b c)) := rfl
      rw [e, ← this]
      unfold combine
      conv_lhs => rw [outputs]
      rw [List.dropLast_cons_of_ne_nil hne', List.map_cons, List.prod_cons]
      simp only [hss]
      ring

/-- **C45 (value).** For every pair of batches of the same shape that is large enough for the number of scales, the function
returns the index of the paper for every image: the product over the scales of the comparisons computed with Gaussian weights,
averaged over the channels; and the mean or the sum of these scores if it is asked for. -/
theorem C45_value {p : Params} (h : p.Good) {factors : List ℝ} (hne : factors ≠ []) (x y : Batch) (hs : SameShape x y)
    (hc : 0 < x.channels) (hl : LargeEnough p factors.length x) :
    msSsim p factors "none" x y = .ok (.perImage ((List.range x.batch).map (Paper.score p factors x y))) ∧
      msSsim p factors "sum" x y = .ok (.scalar (∑ b ∈ range x.batch, Paper.score p factors x y b)) ∧
      msSsim p factors "mean" x y = .ok (.scalar ((∑ b ∈ range x.batch, Paper.score p factors x y b) / x.batch)) := by
  have hcur : ∀ z : Batch, current 0 z = z := fun z => rfl
  have ho := scaleOutputs_eq h factors 0 x y hc hl
  rw [hcur, hcur] at ho
  obtain ⟨last, -, hlast⟩ := getLast?_ne (outputs_ne (p := p) hne x y)
  have key : ∀ r, msSsim p factors r x y = reduce r ((List.range x.batch).map (Paper.score p factors x y)) := by
    intro r
    unfold msSsim
    rw [ho]
    simp only [Except.bind, hlast]
    congr 1
    refine List.map_congr_left fun b _ => ?_
    unfold Paper.score
    congr 1
    refine sum_congr rfl fun c _ => ?_
    exact combine_outputs h hne x y ⟨hs.2.2.1, hs.2.2.2⟩ hl last hlast c b
  have hsum : ((List.range x.batch).map (Paper.score p factors x y)).sum = ∑ b ∈ range x.batch, Paper.score p factors x y b := by
    rw [Finset.sum_range, ← List.sum_ofFn, List.ofFn_eq_map, ← List.map_coe_finRange_eq_range, List.map_map]
    rfl
  refine ⟨?_, ?_, ?_⟩
  · rw [key]; simp [reduce]
  · rw [key]; simp [reduce, hsum]
  · rw [key]; simp [reduce, hsum]

/-- **C45 (defaults).** The parameters that are used if none are given are those of the paper: windows of eleven by eleven pixels with
standard deviation 1.5, the constants 0.01 and 0.03 for the range one, and five scales with the published exponents. -/
theorem C45_defaults : ({} : Params) = ⟨1, 11, 1 / 100, 3 / 100, 3 / 2⟩ ∧ ({} : Params).Good ∧
    defaultFactors = [448 / 10000, 2856 / 10000, 3001 / 10000, 2363 / 10000, 1333 / 10000] := by
  refine ⟨?_, ⟨by norm_num, by norm_num, by norm_num, by norm_num⟩, ?_⟩
  · simp only [Params.mk.injEq]
    norm_num
  · unfold defaultFactors
    norm_num

/-- Batches that meet the hypotheses with the default parameters: two different pictures of 176 by 176 pixels. -/
example : ∃ x y : Batch, x.pix ≠ y.pix ∧ SameShape x y ∧ 0 < x.channels ∧ LargeEnough {} defaultFactors.length x := by
  refine ⟨⟨2, 3, 176, 176, fun _ _ i _ => i⟩, ⟨2, 3, 176, 176, fun _ _ _ j => j⟩, ?_, ⟨rfl, rfl, rfl, rfl⟩, by decide, ?_⟩
  · intro e
    have := congrFun (congrFun (congrFun (congrFun e 0) 0) 1) 0
    norm_num at this
  · intro s hs
    have : s < 5 := hs
    have : s = 0 ∨ s = 1 ∨ s = 2 ∨ s = 3 ∨ s = 4 := by omega
    rcases this with rfl | rfl | rfl | rfl | rfl <;> simp [sizeAt]

end Verif.Functional.MsSsim
