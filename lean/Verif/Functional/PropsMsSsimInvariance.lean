import Verif.Functional.PropsMsSsimValue
import Mathlib.Tactic.FieldSimp

/-!
C45, continued: what the index does not depend on: the unit of the pixels, and the choice of which axis is the height.
-/

namespace Verif.Functional.MsSsim

open Real Finset

/-! ### The unit of the pixels -/

/-- The batch with every pixel multiplied by `k`. -/
def Batch.scaled (k : ℝ) (x : Batch) : Batch := { x with pix := fun b c i j => k * x.pix b c i j }

theorem conv_scaled (ws : ℕ) (std k : ℝ) (x : ℕ → ℕ → ℝ) (i j : ℕ) :
    conv ws std (fun a b => k * x a b) i j = k * conv ws std x i j := by
  simp only [conv, mul_sum]
  exact sum_congr rfl fun u _ => sum_congr rfl fun v _ => by ring

theorem luminance_scaled (p : Params) {k : ℝ} (hk : k ≠ 0) (x y : ℕ → ℕ → ℝ) (i j : ℕ) :
    luminance { p with dataRange := k * p.dataRange } (fun a b => k * x a b) (fun a b => k * y a b) i j = luminance p x y i j := by
  simp only [luminance, conv_scaled]
  refine Eq.trans ?_ (mul_div_mul_left _ _ (pow_ne_zero 2 hk))
  congr 1 <;> ring

theorem contrast_scaled (p : Params) {k : ℝ} (hk : k ≠ 0) (x y : ℕ → ℕ → ℝ) (i j : ℕ) :
    contrast { p with dataRange := k * p.dataRange } (fun a b => k * x a b) (fun a b => k * y a b) i j = contrast p x y i j := by
  have h : ∀ x y : ℕ → ℕ → ℝ, conv p.windowSize p.gaussianStd (fun a b => k * x a b * (k * y a b)) i j =
      k ^ 2 * conv p.windowSize p.gaussianStd (fun a b => x a b * y a b) i j := fun x y => by
    rw [← conv_scaled]; congr 1; funext a b; ring
  simp only [contrast, conv_scaled, h]
  refine Eq.trans ?_ (mul_div_mul_left _ _ (pow_ne_zero 2 hk))
  congr 1 <;> ring

theorem padAndDownsample_scaled (k : ℝ) (x : Batch) : padAndDownsample (x.scaled k) = (padAndDownsample x).scaled k := by
  simp only [padAndDownsample, Batch.scaled, Batch.mk.injEq, true_and]
  funext b c i j
  ring

theorem scaleOutputs_scaled (p : Params) {k : ℝ} (hk : k ≠ 0) (factors : List ℝ) (scale : ℕ) (x y : Batch) :
    scaleOutputs { p with dataRange := k * p.dataRange } factors scale (x.scaled k) (y.scaled k) = scaleOutputs p factors scale x y := by
  induction factors generalizing scale x y with
  | nil => rfl
  | cons f fs ih =>
    have hcur : ∀ z : Batch, (if scale ≠ 0 then padAndDownsample (z.scaled k) else z.scaled k) =
        (if scale ≠ 0 then padAndDownsample z else z).scaled k := fun z => by
      rw [padAndDownsample_scaled]; split_ifs <;> rfl
    have hm : ∀ a b : Batch, ssimMultichannel { p with dataRange := k * p.dataRange } (a.scaled k) (b.scaled k) =
        ssimMultichannel p a b := fun a b => by
      simp only [ssimMultichannel, Batch.scaled, ssimSingle, luminance_scaled p hk, contrast_scaled p hk]
    simp only [scaleOutputs, hcur, hm, ih]
    rfl

/-- **C45 (unit).** Multiplying the pixels of both batches and the data range by the same number changes nothing: images from 0 to
255 with `data_range=255` get the scores of the same images from 0 to 1. -/
theorem C45_unit (p : Params) {k : ℝ} (hk : k ≠ 0) (factors : List ℝ) (reduction : String) (x y : Batch) :
    msSsim { p with dataRange := k * p.dataRange } factors reduction (x.scaled k) (y.scaled k) = msSsim p factors reduction x y := by
  unfold msSsim
  rw [scaleOutputs_scaled p hk]
  rfl

/-- The default range and 8-bit images. -/
example (x y : Batch) : msSsim { dataRange := 255 } defaultFactors "mean" (x.scaled 255) (y.scaled 255) =
    msSsim {} defaultFactors "mean" x y := by
  have := C45_unit {} (k := 255) (by norm_num) defaultFactors "mean" x y
  rw [mul_one] at this
  exact this

/-! ### Rows and columns -/

/-- The batch with rows and columns exchanged. -/
def Batch.transposed (x : Batch) : Batch where
  batch := x.batch
  channels := x.channels
  height := x.width
  width := x.height
  pix := fun b c i j => x.pix b c j i

theorem conv_transposed (ws : ℕ) (std : ℝ) (x : ℕ → ℕ → ℝ) (i j : ℕ) :
    conv ws std (fun a b => x b a) i j = conv ws std x j i := by
  simp only [conv]
  rw [sum_comm]
  exact sum_congr rfl fun u _ => sum_congr rfl fun v _ => by rw [window, window, mul_comm (normalized ws std v)]

theorem luminance_transposed (p : Params) (x y : ℕ → ℕ → ℝ) (i j : ℕ) :
    luminance p (fun a b => x b a) (fun a b => y b a) i j = luminance p x y j i := by
  unfold luminance
  simp only
  rw [conv_transposed p.windowSize p.gaussianStd x, conv_transposed p.windowSize p.gaussianStd y]

theorem contrast_transposed (p : Params) (x y : ℕ → ℕ → ℝ) (i j : ℕ) :
    contrast p (fun a b => x b a) (fun a b => y b a) i j = contrast p x y j i := by
  unfold contrast
  simp only
  rw [conv_transposed p.windowSize p.gaussianStd x, conv_transposed p.windowSize p.gaussianStd y,
    conv_transposed p.windowSize p.gaussianStd (fun a b => x a b * x a b),
    conv_transposed p.windowSize p.gaussianStd (fun a b => y a b * y a b),
    conv_transposed p.windowSize p.gaussianStd (fun a b => x a b * y a b)]

theorem meanPos_transposed (ws h w : ℕ) (f : ℕ → ℕ → ℝ) : meanPos ws w h (fun i j => f j i) = meanPos ws h w f := by
  unfold meanPos
  rw [sum_comm, mul_comm]

theorem padAndDownsample_transposed (x : Batch) : padAndDownsample x.transposed = (padAndDownsample x).transposed := by
  simp only [padAndDownsample, Batch.transposed, Batch.mk.injEq, true_and]
  funext b c i j
  ring

theorem scaleOutputs_transposed (p : Params) (factors : List ℝ) (scale : ℕ) (x y : Batch) :
    scaleOutputs p factors scale x.transposed y.transposed = scaleOutputs p factors scale x y := by
  induction factors generalizing scale x y with
  | nil => rfl
  | cons f fs ih =>
    have hcur : ∀ z : Batch, (if scale ≠ 0 then padAndDownsample z.transposed else z.transposed) =
        (if scale ≠ 0 then padAndDownsample z else z).transposed := fun z => by
      rw [padAndDownsample_transposed]; split_ifs <;> rfl
    have hm : ∀ a b : Batch, ssimMultichannel p a.transposed b.transposed = ssimMultichannel p a b := fun a b => by
      simp only [ssimMultichannel, Batch.transposed, ssimSingle, luminance_transposed, contrast_transposed]
      simp only [fun f : ℕ → ℕ → ℝ => meanPos_transposed p.windowSize a.height a.width f]
    simp only [scaleOutputs, hcur, hm, ih]
    simp only [Batch.transposed, or_comm]

/-- **C45 (axes).** Exchanging rows and columns of both batches changes nothing, also for odd sizes and for images that are
rejected. -/
theorem C45_axes (p : Params) (factors : List ℝ) (reduction : String) (x y : Batch) :
    msSsim p factors reduction x.transposed y.transposed = msSsim p factors reduction x y := by
  unfold msSsim
  rw [scaleOutputs_transposed]
  rfl

end Verif.Functional.MsSsim
