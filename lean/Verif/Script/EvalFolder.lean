import Verif.Train.Patches
import Verif.Train.Accum
import Verif.Train.Psnr
import Verif.Functional.Scalar

/-!
Model of `/repo/projects/illm/eval_folder_example.py`: evaluating a compression model on a folder of images.

Simplifications: floats are real numbers; the compression model is a pair of arbitrary functions and the size of a
pickled stream is an arbitrary number; broadcasting tensors of different shapes is an error; the networks of LPIPS and FID
are arbitrary functions of the images, in evaluation mode.  `torchmetrics` (1.1.0) is modelled as far as used: LPIPS
adds up scores, FID adds up features and their products.
-/

namespace Verif.Script.EvalFolder

open Verif.Train.Patches (Images Metric Metrics updatePatchFid)
open Verif.Train.Psnr (Decibel calcPsnr)

/-- What the script can raise. -/
inductive Err where
  | unreadable
  | zeroDivision
  | value
  | runtime
  deriving DecidableEq, Repr

/-- An RGB image as `Image.open(f).convert("RGB")` gives it: `eval_folder_example.py:62-64`. -/
structure Picture where
  height : ℕ
  width : ℕ
  level : ℕ → ℕ → ℕ → Fin 256

/-- What a name in the folder stands for; a directory or a file that PIL cannot open is unreadable. -/
inductive Content where
  | picture (p : Picture)
  | unreadable

/-- A name in the folder. -/
structure Entry where
  name : List Char
  content : Content

/-- The suffix of `glob("*.png")`: `eval_folder_example.py:61`. -/
def suffix : List Char := ['.', 'p', 'n', 'g']

/-- `clic_path.glob("*.png")`: the names that end in `.png`, in the order of the file system, `eval_folder_example.py:61`. -/
def glob (folder : List Entry) : List Entry := folder.filter fun e => suffix.isSuffixOf e.name

/-- `totensor(image_pil).unsqueeze(0)`: `eval_folder_example.py:66`. -/
noncomputable def toTensor (p : Picture) : Images ℝ :=
  ⟨1, 3, p.height, p.width, fun _ c i j => ((p.level c i j : ℕ) : ℝ) / 255⟩

/-- The compression model with the size of its pickled streams: `eval_folder_example.py:46, 69-72`. -/
structure Codec where
  Stream : Type
  compress : Images ℝ → Stream
  decompress : Stream → Images ℝ
  pickleSize : Stream → ℕ

/-- `.clamp(0.0, 1.0)`: `eval_folder_example.py:70`. -/
noncomputable def clamp (x : Images ℝ) : Images ℝ :=
  { x with el := fun b c i j => min (max (x.el b c i j) 0) 1 }

/-- `rescale_image`: `eval_folder_example.py:27-34`. -/
noncomputable def rescale (x : Images ℝ) : Images ℝ :=
  { x with el := fun b c i j => ((⌊x.el b c i j * 255 + 0.5⌋ : ℤ) : ℝ) }

/-- `num_bytes * 8 / (image.shape[0] * image.shape[-2] * image.shape[-1])`: `eval_folder_example.py:73`. -/
noncomputable def bitsPerPixel (bytes : ℕ) (x : Images ℝ) : Except Err ℝ :=
  if x.batch * x.height * x.width = 0 then .error .zeroDivision
  else .ok ((bytes * 8 : ℕ) / (x.batch * x.height * x.width : ℕ))

/-- `image_to_255_scale` of a value in `[0, 1]`, which `update_patch_fid` uses: `_update_patch_fid.py:67-78`. -/
noncomputable def toByte (x : ℝ) : ℤ := Verif.roundHalfEven (x * 255)

/-- Two tensors have the same shape. -/
def sameShape (x y : Images ℝ) : Prop :=
  x.batch = y.batch ∧ x.chan = y.chan ∧ x.height = y.height ∧ x.width = y.width

instance (x y : Images ℝ) : Decidable (sameShape x y) := by unfold sameShape; infer_instance

/-- The values of a tensor, for a shape. -/
def values (B C H W : ℕ) (x : Images ℝ) : Fin B × Fin C × Fin H × Fin W → ℝ := fun k => x.el k.1 k.2.1 k.2.2.1 k.2.2.2

/-- `calc_psnr(pred_image, orig_image)` with the default range 255: `eval_folder_example.py:85`, `_calc_psnr.py:13-26`. -/
noncomputable def psnr (x y : Images ℝ) : Except Err Decibel :=
  if sameShape x y then
    .ok (calcPsnr (values x.batch x.chan x.height x.width x) (values x.batch x.chan x.height x.width y) 255)
  else .error .runtime

/-- A tensor as an argument of MS-SSIM. -/
def toBatch (x : Images ℝ) : Verif.Functional.MsSsim.Batch := ⟨x.batch, x.chan, x.height, x.width, x.el⟩

/-- `MultiscaleStructuralSimilarity(data_range=255.0)`: `eval_folder_example.py:54`. -/
noncomputable def msssimConfig : Verif.Train.Accum.Config :=
  ⟨{ dataRange := 255 }, Verif.Functional.MsSsim.defaultFactors⟩

/-- `_valid_img` of torchmetrics for `normalize=True`. -/
def valid (x : Images ℝ) : Prop :=
  x.chan = 3 ∧ ∀ b c i j, b < x.batch → c < x.chan → i < x.height → j < x.width →
    0 ≤ x.el b c i j ∧ x.el b c i j ≤ 1

/-- The patch of an image that goes into the network of FID: 3 channels of 256 by 256 bytes. -/
abbrev Block := Fin 3 → Fin 256 → Fin 256 → ℤ

/-- The networks: LPIPS of a pair of tensors with one image each, the features of a patch, and the distance of two
normal distributions given by mean and covariance: `eval_folder_example.py:55-56`. -/
structure Nets (ι : Type) where
  lpips : Images ℝ → Images ℝ → ℝ
  features : Block → ι → ℝ
  distance : (ι → ℝ) → (ι → ι → ℝ) → (ι → ℝ) → (ι → ι → ℝ) → ℝ

/-- What the script accumulates: `eval_folder_example.py:54-59`. -/
structure State where
  bpp : List ℝ
  psnr : List Decibel
  msssim : Verif.Train.Accum.State
  lpipsSum : ℝ
  lpipsTotal : ℕ
  fid : Metrics ℤ

/-- At the start: `eval_folder_example.py:54-59`. -/
def State.init : State := ⟨[], [], Verif.Train.Accum.State.init, 0, 0, ⟨some [], none, none⟩⟩

variable {ι : Type}

/-- One round of the loop: `eval_folder_example.py:62-88`. -/
noncomputable def step (nets : Nets ι) (codec : Codec) (s : State) (e : Entry) : Except Err State :=
  match e.content with
  | .unreadable => .error .unreadable
  | .picture p =>
    let image := toTensor p
    let stream := codec.compress image
    let decompressed := clamp (codec.decompress stream)
    match bitsPerPixel (codec.pickleSize stream) image with
    | .error er => .error er
    | .ok bpp =>
      match updatePatchFid toByte 256 image decompressed s.fid with
      | .error _ => .error .runtime
      | .ok (_, fid) =>
        let orig := rescale image
        let pred := rescale decompressed
        match psnr pred orig with
        | .error er => .error er
        | .ok value =>
          match Verif.Train.Accum.update msssimConfig s.msssim (toBatch pred) (toBatch orig) with
          | .error _ => .error .runtime
          | .ok msssim =>
            open Classical in
            if valid decompressed ∧ valid image then
              .ok ⟨s.bpp ++ [bpp], s.psnr ++ [value], msssim, s.lpipsSum + nets.lpips decompressed image,
                s.lpipsTotal + decompressed.batch, fid⟩
            else .error .value

/-- The loop: `eval_folder_example.py:61-88`. -/
noncomputable def loop (nets : Nets ι) (codec : Codec) : State → List Entry → Except Err State
  | s, [] => .ok s
  | s, e :: es =>
    match step nets codec s e with
    | .error er => .error er
    | .ok s => loop nets codec s es

/-- `sum(bpp_vals) / len(bpp_vals)`: `eval_folder_example.py:90`. -/
noncomputable def mean (xs : List ℝ) : Except Err ℝ :=
  if xs.length = 0 then .error .zeroDivision else .ok (xs.sum / xs.length)

/-- Adding levels in decibel, which may be infinite. -/
noncomputable def addDecibel : Decibel → Decibel → Decibel
  | .finite x, .finite y => .finite (x + y)
  | _, _ => .infinite

/-- `sum(psnr_vals) / len(psnr_vals)`: `eval_folder_example.py:91`. -/
noncomputable def meanDecibel (xs : List Decibel) : Except Err Decibel :=
  if xs.length = 0 then .error .zeroDivision
  else .ok (match xs.foldl addDecibel (.finite 0) with
    | .finite x => .finite (x / xs.length)
    | .infinite => .infinite)

/-- The patches of an update of FID. -/
def blocks (x : Images ℤ) : List Block := (List.range x.batch).map fun n c i j => x.el n c i j

/-- The number of patches, the sum of their features and of the products of their features. -/
structure Moments (ι : Type) where
  num : ℕ
  sum : ι → ℝ
  outer : ι → ι → ℝ

/-- `FrechetInceptionDistance.update` of torchmetrics for one of the two kinds. -/
noncomputable def Moments.update (f : Block → ι → ℝ) (m : Moments ι) (x : Images ℤ) : Moments ι :=
  ⟨m.num + x.batch, fun i => m.sum i + ((blocks x).map fun b => f b i).sum,
    fun i j => m.outer i j + ((blocks x).map fun b => f b i * f b j).sum⟩

/-- The state of FID after its updates, for real or for generated patches. -/
noncomputable def moments (f : Block → ι → ℝ) (us : Metric ℤ) (real : Bool) : Moments ι :=
  us.foldl (fun m u => if u.2 = real then m.update f u.1 else m) ⟨0, fun _ => 0, fun _ _ => 0⟩

/-- The mean in `compute` of torchmetrics. -/
noncomputable def Moments.mean (m : Moments ι) (i : ι) : ℝ := m.sum i / m.num

/-- The covariance in `compute` of torchmetrics. -/
noncomputable def Moments.cov (m : Moments ι) (i j : ι) : ℝ :=
  (m.outer i j - m.num * (m.mean i * m.mean j)) / (m.num - 1)

/-- `fid_metric.compute()`: torchmetrics raises unless it has seen two patches of each kind, `eval_folder_example.py:94`. -/
noncomputable def fidCompute (nets : Nets ι) (us : Option (Metric ℤ)) : Except Err ℝ :=
  let us := us.getD []
  let real := moments nets.features us true
  let fake := moments nets.features us false
  if real.num < 2 ∨ fake.num < 2 then .error .runtime
  else .ok (nets.distance real.mean real.cov fake.mean fake.cov)

/-- What is printed: `eval_folder_example.py:97-101`. -/
structure Report where
  rate : ℝ
  psnr : Decibel
  msssim : Option ℝ
  lpips : ℝ
  fid : ℝ

/-- The end of the script: `eval_folder_example.py:90-101`. -/
noncomputable def finish (nets : Nets ι) (s : State) : Except Err Report := do
  let rate ← mean s.bpp
  let psnr ← meanDecibel s.psnr
  let fid ← fidCompute nets s.fid.fid
  return ⟨rate, psnr, Verif.Train.Accum.compute s.msssim, s.lpipsSum / s.lpipsTotal, fid⟩

/-- The script, for the contents of the folder in the order in which the file system lists them:
`eval_folder_example.py:37-101`. -/
noncomputable def main (nets : Nets ι) (codec : Codec) (folder : List Entry) : Except Err Report :=
  match loop nets codec State.init (glob folder) with
  | .error er => .error er
  | .ok s => finish nets s

end Verif.Script.EvalFolder
