import Verif.Train.Psnr
import Mathlib.Tactic.Ring
import Mathlib.Tactic.Linarith
import Mathlib.Tactic.NormNum
import Mathlib.Tactic.IntervalCases
import Mathlib.Tactic.Positivity
import Mathlib.Algebra.Order.BigOperators.Group.Finset
import Mathlib.Algebra.BigOperators.Field

/-!
C83 and C84: PSNR, and the arguments of the feature metrics.
-/

namespace Verif.Train.Psnr

open scoped BigOperators

variable {ι : Type} [Fintype ι]

/-! ### C83 -/

/-- The order of PSNR values. -/
def Decibel.le : Decibel → Decibel → Prop
  | _, .infinite => True
  | .infinite, .finite _ => False
  | .finite x, .finite y => x ≤ y

/-- The root mean square error. -/
noncomputable def rmse (image reference : ι → ℝ) : ℝ := Real.sqrt (mse image reference)

theorem mse_nonneg (a b : ι → ℝ) : 0 ≤ mse a b :=
  div_nonneg (Finset.sum_nonneg fun _ _ => sq_nonneg _) (Nat.cast_nonneg _)

theorem mse_eq_zero [Nonempty ι] (a b : ι → ℝ) : mse a b = 0 ↔ a = b := by
  unfold mse
  have hc : (Fintype.card ι : ℝ) ≠ 0 := by
    have := Fintype.card_pos (α := ι)
    positivity
  rw [div_eq_zero_iff, or_iff_left hc, Finset.sum_eq_zero_iff_of_nonneg fun _ _ => sq_nonneg _]
  constructor
  · intro h
    funext i
    have := pow_eq_zero_iff (n := 2) (by norm_num) |>.1 (h i (Finset.mem_univ i))
    linarith
  · rintro rfl i -
    simp

/-- **C83, formula.** For floating point arrays the value is infinite exactly for equal arrays, and otherwise it is
twenty times the decimal logarithm of the data range over the root mean square error. -/
theorem C83_formula [Nonempty ι] (a b : ι → ℝ) (R : ℝ) (hR : 0 < R) :
    (calcPsnr a b R = .infinite ↔ a = b) ∧
      (a ≠ b → calcPsnr a b R = .finite (20 * Real.logb 10 (R / rmse a b))) := by
  unfold calcPsnr decibel
  constructor
  · rw [← mse_eq_zero a b]
    split_ifs with h
    · simp [h]
    · simp [h]
  · intro h
    rw [if_neg (mt (mse_eq_zero a b).1 h)]
    have hpos : 0 < mse a b := lt_of_le_of_ne (mse_nonneg a b) (Ne.symm (mt (mse_eq_zero a b).1 h))
    have hs : 0 < rmse a b := Real.sqrt_pos.2 hpos
    congr 1
    rw [Real.logb_div hR.ne' hs.ne']
    have : mse a b = rmse a b ^ 2 := (Real.sq_sqrt (mse_nonneg a b)).symm
    rw [this, Real.logb_pow]
    push_cast
    ring

/-- **C83, symmetry and scale.** Exchanging the arrays changes nothing, nor does scaling both arrays and the data range. -/
theorem C83_invariant [Nonempty ι] (a b : ι → ℝ) (R : ℝ) (hR : 0 < R) (c : ℝ) (hc : 0 < c) :
    calcPsnr a b R = calcPsnr b a R ∧ calcPsnr (fun i => c * a i) (fun i => c * b i) (c * R) = calcPsnr a b R := by
  have h1 : mse a b = mse b a := by
    unfold mse
    congr 1
    exact Finset.sum_congr rfl fun i _ => by ring
  refine ⟨by unfold calcPsnr; rw [h1], ?_⟩
  have h2 : mse (fun i => c * a i) (fun i => c * b i) = c ^ 2 * mse a b := by
    unfold mse
    rw [← mul_div_assoc, Finset.mul_sum]
    congr 1
    exact Finset.sum_congr rfl fun i _ => by ring
  unfold calcPsnr decibel
  rw [h2]
  by_cases h : mse a b = 0
  · rw [if_pos (by rw [h, mul_zero]), if_pos h]
  · rw [if_neg (mul_ne_zero (by positivity) h), if_neg h]
    congr 1
    rw [Real.logb_mul hc.ne' hR.ne', Real.logb_mul (by positivity) h, Real.logb_pow]
    push_cast
    ring

/-- **C83, monotone.** A larger mean square error means a smaller value, and conversely. -/
theorem C83_monotone [Nonempty ι] (a b a' b' : ι → ℝ) (R : ℝ) :
    (calcPsnr a b R).le (calcPsnr a' b' R) ↔ mse a' b' ≤ mse a b := by
  unfold calcPsnr decibel
  have h1 := mse_nonneg a b
  have h2 := mse_nonneg a' b'
  by_cases e2 : mse a' b' = 0
  · rw [if_pos e2, e2]
    simp only [Decibel.le, true_iff]
    exact h1
  · have p2 : 0 < mse a' b' := lt_of_le_of_ne h2 (Ne.symm e2)
    rw [if_neg e2]
    by_cases e1 : mse a b = 0
    · rw [if_pos e1, e1]
      simp only [Decibel.le, false_iff, not_le]
      exact p2
    · have p1 : 0 < mse a b := lt_of_le_of_ne h1 (Ne.symm e1)
      rw [if_neg e1]
      simp only [Decibel.le]
      rw [← Real.logb_le_logb (b := 10) (by norm_num) p2 p1]
      constructor <;> intro h <;> linarith

/-- **C83 is violated for 8-bit arrays**, the usual form of numpy images, for which the default data range is made:
images that differ by 16 everywhere have infinite PSNR, like equal images. -/
theorem C83_violated [Nonempty ι] (image : ι → UInt8) (R : ℝ) :
    calcPsnrU8 image (fun i => image i + 16) R = .infinite ∧ calcPsnrU8 image image R = .infinite := by
  have h : ∀ x : UInt8, (x - (x + 16)) * (x - (x + 16)) = 0 := by
    intro x
    have : x - (x + 16) = -16 := by
      apply UInt8.toNat_inj.1
      rw [UInt8.toNat_sub, UInt8.toNat_add]
      have := x.toNat_lt
      have e : (16 : UInt8).toNat = 16 := rfl
      have e' : (-16 : UInt8).toNat = 240 := rfl
      rw [e, e']
      omega
    rw [this]
    decide
  unfold calcPsnrU8 decibel
  constructor
  · rw [if_pos]
    simp [h]
  · rw [if_pos]
    simp

/-- The square of a small difference modulo 256. -/
theorem square_eq {a b : UInt8} (h : a.toNat < b.toNat + 16 ∧ b.toNat < a.toNat + 16) :
    (((a - b) * (a - b)).toNat : ℝ) = ((a.toNat : ℝ) - (b.toNat : ℝ)) ^ 2 := by
  obtain ⟨h1, h2⟩ := h
  have hn : ((a - b) * (a - b)).toNat =
      ((256 - b.toNat + a.toNat) % 256 * ((256 - b.toNat + a.toNat) % 256)) % 256 := by
    rw [UInt8.toNat_mul, UInt8.toNat_sub]
  rw [hn]
  have b1 := a.toNat_lt
  have b2 := b.toNat_lt
  set x := a.toNat
  set y := b.toNat
  rcases le_total y x with hxy | hxy
  · obtain ⟨d, hd⟩ : ∃ d, x = y + d := ⟨x - y, by omega⟩
    have hd16 : d < 16 := by omega
    have : (256 - y + x) % 256 = d := by omega
    rw [this]
    have hlt : d * d < 256 := by nlinarith
    rw [Nat.mod_eq_of_lt hlt, hd]
    push_cast
    ring
  · obtain ⟨d, hd⟩ : ∃ d, y = x + d := ⟨y - x, by omega⟩
    have hd16 : d < 16 := by omega
    have hlt : d * d < 256 := by nlinarith
    have : (256 - y + x) % 256 * ((256 - y + x) % 256) % 256 = d * d := by
      interval_cases d
      · have : (256 - y + x) % 256 = 0 := by omega
        rw [this]
      all_goals
        rw [show 256 - y + x = 256 - (y - x) by omega, hd, Nat.add_sub_cancel_left]
    rw [this, hd]
    push_cast
    ring

/-- **C83, 8-bit arrays: what holds.** If no difference reaches 16 the value is that of the same numbers as floats. -/
theorem C83_u8_partial (image reference : ι → UInt8) (R : ℝ)
    (h : ∀ i, (image i).toNat < (reference i).toNat + 16 ∧ (reference i).toNat < (image i).toNat + 16) :
    calcPsnrU8 image reference R = calcPsnr (fun i => ((image i).toNat : ℝ)) (fun i => ((reference i).toNat : ℝ)) R := by
  have hsum : (∑ i, (((image i - reference i) * (image i - reference i)).toNat : ℝ)) =
      ∑ i, (((image i).toNat : ℝ) - ((reference i).toNat : ℝ)) ^ 2 := by
    refine Finset.sum_congr rfl fun i _ => ?_
    exact square_eq (h i)
  unfold calcPsnrU8 calcPsnr mse
  dsimp only
  rw [hsum]

/-! ### C84 -/

/-- **C84 is violated, KID.** Whatever `subsets`, `subset_size`, `degree`, `gamma` and `coef` are given, the value is that
of the default arguments; and of the documented arguments all are accepted except `reset_real_features`, which is
refused. -/
theorem C84_violated {F R : Type} (args : KidArgs) (kid : KidArgs → List F → List F → R) (real fake : List F) :
    (Kid.mk args).compute kid real fake = kid ⟨100, 1000, 3, none, 1⟩ real fake ∧
      ∀ k ∈ ["feature", "subsets", "subset_size", "degree", "gamma", "coef", "reset_real_features"],
        (kidAccepts k = true ↔ k ≠ "reset_real_features") := by
  exact ⟨rfl, by decide +kernel⟩

/-- So some arguments are not honoured: with a distance that depends on the degree. -/
theorem C84_violated_example : ∃ (args : KidArgs) (kid : KidArgs → List ℕ → List ℕ → ℕ),
    (Kid.mk args).compute kid [] [] ≠ kid args [] [] :=
  ⟨⟨100, 1000, 2, none, 1⟩, fun a _ _ => a.degree, by decide⟩

/-- **C84, what holds.** With the default arguments the value is the one asked for. -/
theorem C84_partial {F R : Type} (kid : KidArgs → List F → List F → R) (real fake : List F) :
    (Kid.mk ⟨100, 1000, 3, none, 1⟩).compute kid real fake = kid ⟨100, 1000, 3, none, 1⟩ real fake := rfl

/-- **C84, `normalize` for floating point images.** A value between 0 and 1 becomes the greatest 8-bit number whose
brightness does not exceed it; multiples of 1/255 are kept. -/
theorem C84_normalize_float (x : ℝ) (h0 : 0 ≤ x) (h1 : x ≤ 1) :
    0 ≤ toByteFloat x ∧ toByteFloat x ≤ 255 ∧ (toByteFloat x : ℝ) / 255 ≤ x ∧ x < ((toByteFloat x : ℝ) + 1) / 255 ∧
      ∀ k : ℕ, x = k / 255 → toByteFloat x = k := by
  have a := Int.floor_le (x * 255)
  have b := Int.lt_floor_add_one (x * 255)
  refine ⟨Int.floor_nonneg.2 (by positivity), ?_, ?_, ?_, ?_⟩
  · have : ((toByteFloat x : ℤ) : ℝ) ≤ 255 := a.trans (by linarith)
    exact_mod_cast this
  · rw [div_le_iff₀ (by norm_num)]; exact a
  · rw [lt_div_iff₀ (by norm_num)]; exact b
  · rintro k rfl
    unfold toByteFloat
    rw [div_mul_cancel₀ _ (by norm_num)]
    exact Int.floor_natCast k

/-- **C84 is violated, `normalize`.** With `normalize=True`, images of 8-bit numbers (which `update_patch_fid` passes to
every metric) are negated: 1 becomes 255, 255 becomes 1. -/
theorem C84_violated_normalize (x : UInt8) :
    toByteU8 true x = -x ∧ toByteU8 false x = x ∧ (x ≠ 0 → x ≠ 128 → toByteU8 true x ≠ x) := by
  have h : toByteU8 true x = -x := by
    show x * 255 = -x
    have : (255 : UInt8) = -1 := by decide
    rw [this, UInt8.mul_neg, UInt8.mul_one]
  refine ⟨h, rfl, fun h0 h128 e => ?_⟩
  rw [h] at e
  have := congrArg UInt8.toNat e
  rw [UInt8.toNat_neg] at this
  simp only [UInt8.size] at this
  have hx := x.toNat_lt
  have h0' : x.toNat ≠ 0 := fun h' => h0 (UInt8.toNat_inj.1 h')
  have h128' : x.toNat ≠ 128 := fun h' => h128 (UInt8.toNat_inj.1 h')
  omega

/-- The ImageNet normalisation, as documented by torchvision: mean 0.485, 0.456, 0.406; deviation 0.229, 0.224, 0.225. -/
noncomputable def imagenetNormalize (c : Fin 3) (x : ℝ) : ℝ :=
  (x / 255 - ![0.485, 0.456, 0.406] c) / ![0.229, 0.224, 0.225] c

/-- **C84 is violated, SwAV.** The normalisation differs from ImageNet's in the red channel, for every pixel value except
the mean; in the other channels it is ImageNet's. -/
theorem C84_violated_swav (x : ℝ) :
    (swavNormalize 0 x = imagenetNormalize 0 x ↔ x = 255 * 0.485) ∧ swavNormalize 1 x = imagenetNormalize 1 x ∧
      swavNormalize 2 x = imagenetNormalize 2 x := by
  refine ⟨?_, rfl, rfl⟩
  unfold swavNormalize imagenetNormalize
  simp only [Matrix.cons_val_zero]
  constructor
  · intro h
    rw [div_eq_div_iff (by norm_num) (by norm_num)] at h
    linarith
  · intro h
    rw [h]
    norm_num

/-- C83 is not vacuous: an error of one everywhere with range 255; and a 16-fold difference in 8 bits. -/
example : calcPsnr (fun _ : Fin 4 => (1 : ℝ)) (fun _ => 0) 10 = .finite 20 := by
  rw [(C83_formula (ι := Fin 4) _ _ 10 (by norm_num)).2 (fun h => by simpa using congrFun h 0)]
  have : rmse (fun _ : Fin 4 => (1 : ℝ)) (fun _ => 0) = 1 := by
    unfold rmse mse
    norm_num
  rw [this, div_one, Real.logb_self_eq_one (by norm_num)]
  norm_num

end Verif.Train.Psnr
