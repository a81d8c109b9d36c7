import Mathlib.Data.Nat.Digits.Defs
import Mathlib.Logic.Function.Basic

/-!
Model of the preparation of CIFAR-10, `/repo/projects/bits_back_diffusion/datasets/cifar10.py`: the files in the output
directory over any history of runs, each with or without `--overwrite`, and each possibly killed at any point.

The downloaded data are the same in every run (`torchvision` checks their hash); the download itself goes to a temporary
directory and leaves nothing behind.  The assertion on the number of images (`cifar10.py:66`) is left out.  Writing an image has two steps, an incomplete file and the complete one.  The two
splits write to different directories, so that the test of the second one (`cifar10.py:57`) can be made at the start.
-/

namespace Verif.Script.Cifar

/-- `CLASSES`: `cifar10.py:20-31`. -/
def classes : List String := ["plane", "car", "bird", "cat", "deer", "dog", "frog", "horse", "ship", "truck"]

/-- A decimal digit. -/
def digitChar (d : ℕ) : Char := Char.ofNat ('0'.toNat + d)

/-- `f"{i:05d}"`. -/
def pad5 (i : ℕ) : List Char :=
  let ds := (Nat.digits 10 i).reverse.map digitChar
  List.replicate (5 - ds.length) '0' ++ ds

/-- The name of image `i` with its label: `cifar10.py:72`. -/
def fileName (label i : ℕ) : List Char := (classes[label]?.getD "").toList ++ '_' :: (pad5 i ++ ".png".toList)

/-- `f"{split}_32x32"` is a directory: the contents of its files by name, `none` for an incomplete file. -/
abbrev Dir (Img : Type) := List Char → Option (Option Img)

/-- The downloaded data of a split: images and labels. -/
abbrev Data (Img : Type) := List (Img × ℕ)

/-- The output directory: `train_32x32` (`true`) and `valid_32x32` (`false`), if they exist. -/
abbrev Out (Img : Type) := Bool → Option (Dir Img)

/-- What a run does to the file system. -/
inductive Op (Img : Type)
  | mkdir (split : Bool)
  | write (split : Bool) (name : List Char) (content : Option Img)

variable {Img : Type}

/-- One step; `mkdir(exist_ok=True)` leaves an existing directory as it is. -/
def Op.apply (o : Out Img) : Op Img → Out Img
  | .mkdir s => match o s with
    | none => Function.update o s (some fun _ => none)
    | some _ => o
  | .write s name c => match o s with
    | none => o
    | some d => Function.update o s (some (Function.update d name (some c)))

/-- The steps for image `i`: `cifar10.py:71-73`. -/
def imageOps (split : Bool) (x : Img × ℕ) (i : ℕ) : List (Op Img) :=
  [.write split (fileName x.2 i) none, .write split (fileName x.2 i) (some x.1)]

/-- The steps for a split: `cifar10.py:55-73`. -/
def splitOps (split overwrite : Bool) (data : Data Img) (o : Out Img) : List (Op Img) :=
  if (o split).isSome ∧ overwrite = false then []
  else .mkdir split :: (data.zipIdx.flatMap fun x => imageOps split x.1 x.2)

/-- The steps of a run: `cifar10.py:39-73`. -/
def runOps (overwrite : Bool) (data : Bool → Data Img) (o : Out Img) : List (Op Img) :=
  splitOps true overwrite (data true) o ++ splitOps false overwrite (data false) o

/-- A run that is killed after `k` steps. -/
def runKilled (overwrite : Bool) (data : Bool → Data Img) (k : ℕ) (o : Out Img) : Out Img :=
  ((runOps overwrite data o).take k).foldl Op.apply o

/-- A run that ends normally. -/
def runCompleted (overwrite : Bool) (data : Bool → Data Img) (o : Out Img) : Out Img :=
  (runOps overwrite data o).foldl Op.apply o

/-- The class that `load_data` of improved-diffusion takes from a file name: the part before the first underscore. -/
def className (name : List Char) : List Char := name.takeWhile (· ≠ '_')

end Verif.Script.Cifar
