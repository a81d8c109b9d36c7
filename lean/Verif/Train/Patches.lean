import Mathlib.Data.Nat.Basic
import Mathlib.Data.List.Basic

/-!
Model of `/repo/neuralcompression/metrics/_update_patch_fid.py`.

Simplifications: the conversion to 8 bits is an arbitrary elementwise function (its own behaviour is C41); a metric is the
list of batches it was updated with.  `F.unfold` and `reshape` are modelled by their index arithmetic.
-/

namespace Verif.Train.Patches

/-- What PyTorch and the function raise. -/
inductive Err where
  | value
  | runtime
  deriving DecidableEq, Repr

/-- A tensor of shape `[batch, chan, height, width]`. -/
structure Images (α : Type) where
  batch : ℕ
  chan : ℕ
  height : ℕ
  width : ℕ
  el : ℕ → ℕ → ℕ → ℕ → α

/-- A tensor of rank three. -/
structure Rank3 (α : Type) where
  d0 : ℕ
  d1 : ℕ
  d2 : ℕ
  el : ℕ → ℕ → ℕ → α

variable {α β : Type}

/-- `F.unfold(x, kernel_size=p, stride=p)`: column `l` of image `b` is the block `(l / nx, l % nx)`, flattened by
channel, row and column.  It raises if there is no complete block. -/
def unfold (p : ℕ) (x : Images α) : Except Err (Rank3 α) :=
  if p = 0 ∨ x.height < p ∨ x.width < p then .error .runtime
  else
    let ny := (x.height - p) / p + 1
    let nx := (x.width - p) / p + 1
    .ok ⟨x.batch, x.chan * p * p, ny * nx, fun b r l =>
      x.el b (r / (p * p)) (l / nx * p + r / p % p) (l % nx * p + r % p)⟩

/-- `permute(0, 2, 1)`. -/
def permute (x : Rank3 α) : Rank3 α := ⟨x.d0, x.d2, x.d1, fun a b c => x.el a c b⟩

/-- `reshape(-1, 3, p, p)`: the elements in the same row-major order; it raises if their number does not fit. -/
def reshape (p : ℕ) (x : Rank3 α) : Except Err (Images α) :=
  if p = 0 ∨ x.d0 * x.d1 * x.d2 % (3 * p * p) ≠ 0 then .error .runtime
  else .ok ⟨x.d0 * x.d1 * x.d2 / (3 * p * p), 3, p, p, fun n c i j =>
    let k := ((n * 3 + c) * p + i) * p + j
    x.el (k / (x.d1 * x.d2)) (k / x.d2 % x.d1) (k % x.d2)⟩

/-- The patches of a batch of images: `_update_patch_fid.py:67-72, 73-78`. -/
def patches (q : α → β) (p : ℕ) (x : Images α) : Except Err (Images β) := do
  let u ← unfold p x
  let r ← reshape p (permute u)
  return ⟨r.batch, r.chan, r.height, r.width, fun n c i j => q (r.el n c i j)⟩

/-- `x[:, :, s:, s:]`. -/
def crop (s : ℕ) (x : Images α) : Images α :=
  ⟨x.batch, x.chan, x.height - s, x.width - s, fun b c i j => x.el b c (i + s) (j + s)⟩

/-- A metric: the updates it got, with the flag `real`. -/
abbrev Metric (β : Type) := List (Images β × Bool)

/-- `metric.update(real, real=True); metric.update(fake, real=False)`, if there is a metric:
`_update_patch_fid.py:80-88, 113-121`. -/
def updateMetric (real fake : Images β) (m : Option (Metric β)) : Option (Metric β) :=
  match m with
  | none => none
  | some us => some (us ++ [(real, true), (fake, false)])

/-- The three metrics. -/
structure Metrics (β : Type) where
  fid : Option (Metric β)
  fidSwav : Option (Metric β)
  kid : Option (Metric β)

/-- Updates all metrics. -/
def updateAll (real fake : Images β) (m : Metrics β) : Metrics β :=
  ⟨updateMetric real fake m.fid, updateMetric real fake m.fidSwav, updateMetric real fake m.kid⟩

/-- `update_patch_fid`: `_update_patch_fid.py:20-123`.  `num_y >= 1.5 * patch_size` is `2 * num_y >= 3 * patch_size`. -/
def updatePatchFid (q : α → β) (p : ℕ) (input pred : Images α) (m : Metrics β) : Except Err (ℕ × Metrics β) := do
  if m.fid.isNone ∧ m.kid.isNone ∧ m.fidSwav.isNone then .error .value
  else
    let real ← patches q p input
    let fake ← patches q p pred
    let count := real.batch
    let m := updateAll real fake m
    if 2 * input.height ≥ 3 * p ∧ 2 * input.width ≥ 3 * p then
      let real ← patches q p (crop (p / 2) input)
      let fake ← patches q p (crop (p / 2) pred)
      return (count + real.batch, updateAll real fake m)
    else return (count, m)

end Verif.Train.Patches
