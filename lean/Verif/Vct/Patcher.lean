import Verif.Tensor
import Mathlib.Algebra.BigOperators.Group.Finset.Basic
import Mathlib.Algebra.BigOperators.Ring.Finset

/-
Model of /repo/projects/torch_vct/neural/patcher.py.
-/
namespace Verif.Vct

open Verif.Tensor

/-- Exceptions. -/
inductive PatchErr
  /-- `ValueError`: patch size below the stride or odd difference (patcher.py:76-84),
  or a size not divisible by the patch size (patcher.py:123-126). -/
  | value
  /-- `RuntimeError` of `F.pad`: reflection padding needs padding smaller than the size. -/
  | pad
  /-- `RuntimeError` of `reshape`. -/
  | shape
  /-- `AssertionError` (patcher.py:218-220). -/
  | assertion
  deriving DecidableEq, Repr

def orErr {α : Type} (e : PatchErr) : Option α → Except PatchErr α
  | none => .error e
  | some a => .ok a

/-- `math.ceil(n / stride)` for naturals (exact here; the code divides floats). -/
def ceilDiv (n s : Nat) : Nat := (n + s - 1) / s

/-- Source position of position `i` (counted from the first original element, so padding on the left is
negative) under reflection padding of an axis of length `n`. -/
def reflect (n : Nat) (i : Int) : Nat :=
  if i < 0 then (-i).toNat
  else if (n : Int) ≤ i then (2 * ((n : Int) - 1) - i).toNat
  else i.toNat

variable {α : Type}

/-- `F.pad(x, (l, rw, l, rh), mode="reflect")` on `[B, C, H, W]` (patcher.py:95-100).
PyTorch raises unless every padding is smaller than the axis. -/
def padReflect (x : Tensor α) (B C H W m rh rw : Nat) : Except PatchErr (Tensor α) :=
  if m < W ∧ rw < W ∧ m < H ∧ rh < H then
    .ok (ofFn [B, C, m + H + rh, m + W + rw] (fun idx =>
      x.get [idx.getD 0 0, idx.getD 1 0, reflect H ((idx.getD 2 0 : Int) - m),
        reflect W ((idx.getD 3 0 : Int) - m)]))
  else .error .pad

/-- `_pad` (patcher.py:59-100): padded tensor and numbers of patches. -/
def padPatch (stride : Nat) (x : Tensor α) (B C H W patch : Nat) :
    Except PatchErr (Tensor α × Nat × Nat) :=
  if patch < stride then .error .value
  else if (patch - stride) % 2 ≠ 0 then .error .value
  else do
    let m := (patch - stride) / 2
    let hp := ceilDiv H stride * stride
    let wp := ceilDiv W stride * stride
    let p ← padReflect x B C H W m (hp - H + m) (wp - W + m)
    return (p, hp / stride, wp / stride)

/-- `_window_partition` (patcher.py:110-141); `H`, `W` are the sizes of the (padded) input. -/
def windowPartition (x : Tensor α) (B C H W p : Nat) : Except PatchErr (Tensor α) :=
  if H % p ≠ 0 ∨ W % p ≠ 0 then .error .value
  else do
    let y ← orErr .shape (x.reshape [B, C, H / p, p, W / p, p])
    let z := y.permute [0, 2, 4, 3, 5, 1]
    orErr .shape (z.reshape [B * (H / p) * (W / p), p ^ 2, C])

/-- `F.conv2d(x, kernel, stride)` for a kernel of shape `[O, C, p, p]`, without padding. -/
def conv2d {R : Type} [CommSemiring R] (x kernel : Tensor R) (B C H W O p s : Nat) : Tensor R :=
  ofFn [B, O, (H - p) / s + 1, (W - p) / s + 1] (fun idx =>
    ∑ c ∈ Finset.range C, ∑ u ∈ Finset.range p, ∑ v ∈ Finset.range p,
      kernel.get [idx.getD 1 0, c, u, v] *
        x.get [idx.getD 0 0, c, idx.getD 2 0 * s + u, idx.getD 3 0 * s + v])

/-- `torch.diag(ones(n))` (patcher.py:155-157). -/
def diagOnes (R : Type) [CommSemiring R] (n : Nat) : Tensor R :=
  ofFn [n, n] (fun idx => if idx.getD 0 0 = idx.getD 1 0 then 1 else 0)

/-- `_window_partition_conv2d` (patcher.py:143-168). -/
def windowPartitionConv {R : Type} [CommSemiring R] (stride : Nat) (x : Tensor R) (B C H W p : Nat) :
    Except PatchErr (Tensor R) := do
  let kernel ← orErr .shape ((diagOnes R (p ^ 2 * C)).reshape [C * p ^ 2, C, p, p])
  let patches := conv2d x kernel B C H W (C * p ^ 2) p stride
  let nH := (H - p) / stride + 1
  let nW := (W - p) / stride + 1
  let y ← orErr .shape (patches.reshape [B, C, p ^ 2, nH, nW])
  let z := y.permute [0, 3, 4, 2, 1]
  orErr .shape (z.reshape [B * nH * nW, p ^ 2, C])

/-- `forward` (patcher.py:170-190) on an input of shape `[B, C, H, W]`: patches and their numbers. -/
def patch {R : Type} [CommSemiring R] (stride : Nat) (x : Tensor R) (B C H W p : Nat) :
    Except PatchErr (Tensor R × Nat × Nat) := do
  let r ← padPatch stride x B C H W p
  let m := (p - stride) / 2
  let hp := m + H + (ceilDiv H stride * stride - H + m)
  let wp := m + W + (ceilDiv W stride * stride - W + m)
  let t ← if p = stride then windowPartition r.1 B C hp wp p
    else windowPartitionConv stride r.1 B C hp wp p
  return (t, r.2)

/-- `x[..., :h, :w]` on `[B, C, H, W]` (patcher.py:228). -/
def crop (x : Tensor α) (B C H W h w : Nat) : Tensor α :=
  ofFn [B, C, min h H, min w W] (fun idx => x.get idx)

/-- `unpatch` (patcher.py:192-228) with a crop; the input has shape `[n, seq, C]` after the optional
`permute(0, 2, 1)` for `channels_last=False`. -/
def unpatch (stride : Nat) (x : Tensor α) (nH nW : Nat) (cropTo : Option (Nat × Nat))
    (channelsLast : Bool) : Except PatchErr (Tensor α) := do
  let x := if channelsLast then x else x.permute [0, 2, 1]
  let C := x.shape.getD 2 0
  if x.shape.getD 1 0 ≠ stride ^ 2 then .error .assertion
  else
    let y ← orErr .shape (x.reshapeInfer [nH, nW, stride, stride, C])
    let z := y.permute [0, 5, 1, 3, 2, 4]
    let w ← orErr .shape (z.reshapeInfer [C, nH * stride, nW * stride])
    match cropTo with
    | none => return w
    | some (h, w') => return crop w (w.shape.getD 0 0) C (nH * stride) (nW * stride) h w'

end Verif.Vct
