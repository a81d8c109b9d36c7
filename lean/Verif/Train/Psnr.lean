import Mathlib.Analysis.SpecialFunctions.Log.Base
import Mathlib.Data.Fintype.BigOperators

/-!
Model of `/repo/neuralcompression/metrics/_calc_psnr.py` and of the arguments of the feature metrics
(`_kid.py`, `_fid.py`, `_fid_swav.py`).

Simplifications: floats are real numbers; arrays are functions on a finite index type.
-/

namespace Verif.Train.Psnr

open scoped BigOperators

variable {ι : Type} [Fintype ι]

/-- `mean((image - reference) ** 2)`: `_calc_psnr.py:25, 43`. -/
noncomputable def mse (image reference : ι → ℝ) : ℝ := (∑ i, (image i - reference i) ^ 2) / Fintype.card ι

/-- The value of PSNR: a number, or infinity. -/
inductive Decibel where
  | finite (x : ℝ)
  | infinite

/-- `20 log10(data_range) - 10 log10(mse)`: `_calc_psnr.py:26, 44`; `log10(0)` is minus infinity. -/
noncomputable def decibel (dataRange err : ℝ) : Decibel :=
  open Classical in
  if err = 0 then .infinite else .finite (20 * Real.logb 10 dataRange - 10 * Real.logb 10 err)

/-- `calc_psnr` and `calc_psnr_numpy` for floating point arrays: `_calc_psnr.py:13-44`. -/
noncomputable def calcPsnr (image reference : ι → ℝ) (dataRange : ℝ) : Decibel := decibel dataRange (mse image reference)

/-- `calc_psnr_numpy` for arrays of 8-bit numbers: differences and squares are computed modulo 256
(`uint8 ** 2` is `uint8`), the mean in float64: `_calc_psnr.py:43-44`. -/
noncomputable def calcPsnrU8 (image reference : ι → UInt8) (dataRange : ℝ) : Decibel :=
  let square := fun i => (image i - reference i) * (image i - reference i)
  decibel dataRange ((∑ i, ((square i).toNat : ℝ)) / Fintype.card ι)

/-! ### Arguments of the feature metrics -/

/-- The arguments of `KernelInceptionDistance` that concern the distance: `_kid.py:51-57`. -/
structure KidArgs where
  subsets : ℕ
  subsetSize : ℕ
  degree : ℕ
  gamma : Option ℝ
  coef : ℝ

/-- The defaults of `torch_fidelity`'s `kid_features_to_metric`, which are those of `KernelInceptionDistance` too. -/
def KidArgs.default : KidArgs := ⟨100, 1000, 3, none, 1⟩

/-- The constructor stores the arguments: `_kid.py:65-69`. -/
structure Kid where
  args : KidArgs

/-- `compute`: `_kid.py:86-94`; `kid` is the distance of `torch_fidelity`, called with the features only. -/
def Kid.compute {F R : Type} (_self : Kid) (kid : KidArgs → List F → List F → R) (real fake : List F) : R :=
  kid KidArgs.default real fake

/-- The keyword arguments that the constructor of `KernelInceptionDistance` accepts itself: `_kid.py:49-59`; the others
go to `torchmetrics.Metric`, which knows only its own and raises `ValueError` otherwise. -/
def kidKeywords : List String := ["feature", "subsets", "subset_size", "degree", "gamma", "coef", "normalize"]

/-- The keyword arguments of `torchmetrics.Metric`. -/
def metricKeywords : List String :=
  ["compute_on_cpu", "dist_sync_on_step", "process_group", "dist_sync_fn", "distributed_available_fn", "sync_on_compute",
    "compute_with_cache"]

/-- Whether the constructor accepts a keyword. -/
def kidAccepts (keyword : String) : Bool := kidKeywords.contains keyword || metricKeywords.contains keyword

/-- `(imgs * 255).byte() if self.normalize else imgs` for a tensor of 8-bit numbers: `_fid.py:81`, `_kid.py:78`. -/
def toByteU8 (normalize : Bool) (x : UInt8) : UInt8 := if normalize then x * 255 else x

/-- The same for a floating point number: `byte()` truncates (the values here are in `[0, 255]`). -/
noncomputable def toByteFloat (x : ℝ) : ℤ := ⌊x * 255⌋

/-- The normalisation of `FrechetInceptionDistanceSwAV` for channel 0, 1, 2: `_fid_swav.py:86-91, 97`. -/
noncomputable def swavNormalize (c : Fin 3) (x : ℝ) : ℝ :=
  (x / 255 - ![0.485, 0.456, 0.406] c) / ![0.228, 0.224, 0.225] c

end Verif.Train.Psnr
