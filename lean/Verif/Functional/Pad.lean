import Mathlib.Data.Nat.Basic
import Mathlib.Tactic.Ring

/-!
# Padding an image to a factor

Models `neuralcompression/functional/_pad_image.py`.
-/

namespace Verif.Functional

/-- An image tensor `[B, C, H, W]` with its spatial sizes; entries are given by index. -/
structure Image (α : Type) where
  height : ℕ
  width : ℕ
  pix : ℕ → ℕ → ℕ → ℕ → α

/-- The modes of `torch.nn.functional.pad`. -/
inductive PadMode
  | constant
  | reflect
  | replicate
  | circular
  deriving DecidableEq

/-- Exceptions. -/
inductive PadErr
  /-- `ZeroDivisionError` -/
  | zeroDiv
  /-- `RuntimeError` of `F.pad` -/
  | runtime
  deriving DecidableEq

/-- What PyTorch demands of padding `p` at the end of an axis of length `n`. -/
def PadMode.allowed : PadMode → (n p : ℕ) → Bool
  | .constant, _, _ => true
  | .reflect, n, p => decide (p < n)
  | .replicate, n, _ => decide (0 < n)
  | .circular, n, p => decide (p ≤ n)

/-- Source position of position `i` on an axis of length `n` padded at the end; `none` is the constant 0. -/
def PadMode.source : PadMode → (n i : ℕ) → Option ℕ
  | mode, n, i =>
    if i < n then some i
    else match mode with
      | .constant => none
      | .reflect => some (2 * (n - 1) - i)
      | .replicate => some (n - 1)
      | .circular => some (i - n)

/-- `F.pad(image, (0, pw, 0, ph), mode)` (called at _pad_image.py:35). -/
def padEnd {α : Type} [Zero α] (mode : PadMode) (x : Image α) (ph pw : ℕ) : Except PadErr (Image α) :=
  if mode.allowed x.height ph && mode.allowed x.width pw then
    .ok ⟨x.height + ph, x.width + pw, fun b c i j =>
      match mode.source x.height i, mode.source x.width j with
      | some i', some j' => x.pix b c i' j'
      | _, _ => 0⟩
  else .error .runtime

/-- _pad_image.py:12-37 `pad_image_to_factor`. -/
def padImageToFactor {α : Type} [Zero α] (x : Image α) (factor : ℕ) (mode : PadMode := .reflect) :
    Except PadErr (Image α × ℕ × ℕ) :=
  if factor = 0 then .error .zeroDiv
  else
    let ph := (factor - x.height % factor) % factor
    let pw := (factor - x.width % factor) % factor
    if ph ≠ 0 ∨ pw ≠ 0 then
      match padEnd mode x ph pw with
      | .ok y => .ok (y, x.height, x.width)
      | .error e => .error e
    else .ok (x, x.height, x.width)

/-- `image[:, :, :h, :w]`, the caller's way back (e.g. _hific_autoencoder.py:372). -/
def Image.crop {α : Type} (x : Image α) (h w : ℕ) : Image α :=
  ⟨min h x.height, min w x.width, x.pix⟩

end Verif.Functional
