import Verif.Layers.Vq
import Verif.Round
import Mathlib.Data.Int.Log

/-!
# Trees of operations on latents

Models `ProjectLatent` (`neuralcompression/layers/_project_latent.py`), `NormalizeLatent` (`_normalize_latent.py`) and
`VQBottleneck` (`_vq_bottleneck.py`, `_q_bottleneck.py`) as they are combined into the bottleneck of a VQ-VAE
(`zoo/_msillm_vqvae.py:65-71`), with the records they pass on as mutable objects.

Simplifications: all three act on each pixel separately, so a latent is a function from a type `P` of pixels (of all images
of the batch) to vectors; the losses, distances and hit counters are left out; the argument `fl` is the rounding of floating
point results in the straight-through estimator, the identity for exact arithmetic, and all other arithmetic is exact.
-/

namespace Verif.Layers.LatentTree

open Verif.Layers.Vq

/-- A latent: the number of channels and a vector for each pixel. -/
structure Lat (P : Type) where
  dim : ℕ
  val : P → Fin dim → ℝ

/-- The fields of `VqVaeAutoencoderOutput` that matter here: `_outputs/_vqvae_autoencoder_output.py:13-23`. -/
structure Record (P : Type) where
  latent : Option (Lat P) := none
  prequantized : Option (Lat P) := none
  numBytes : Option ℕ := none
  indices : Option (P → ℕ) := none

/-- The records that exist, by number. -/
abbrev Heap (P : Type) := List (Record P)

inductive Err where
  | value | type | runtime
  deriving DecidableEq

/-- `nn.Conv2d` with `kernel_size=1`: a weight matrix and a bias. -/
structure Conv where
  inDim : ℕ
  outDim : ℕ
  weight : Fin outDim → Fin inDim → ℝ
  bias : Fin outDim → ℝ

/-- The convolution of one pixel. -/
def Conv.apply (c : Conv) (v : Fin c.inDim → ℝ) : Fin c.outDim → ℝ := fun o => ∑ i, c.weight o i * v i + c.bias o

/-- A call of the convolution: None raises TypeError, a wrong number of channels RuntimeError. -/
def Conv.call {P : Type} (c : Conv) : Option (Lat P) → Except Err (Lat P)
  | none => .error .type
  | some l => if h : l.dim = c.inDim then .ok ⟨c.outDim, fun p => c.apply (fun i => l.val p (Fin.cast h.symm i))⟩
    else .error .runtime

/-- The modules.  `normalize`/`project` with a child, `normalizeOnly`/`projectOnly` without. -/
inductive Tree where
  /-- `VQBottleneck` with `K + 1` entries of length `d` -/
  | quantize (K d : ℕ) (codebook : Fin (K + 1) → Fin d → ℝ)
  | normalizeOnly
  | normalize (child : Tree)
  | projectOnly (input output : Conv)
  | project (input output : Conv) (child : Tree)

/-- `output.latent = x`: _project_latent.py:43, 45, 48 and _normalize_latent.py:36, 39. -/
def setLatent {P : Type} (h : Heap P) (r : ℕ) (l : Lat P) : Heap P := h.modify r fun rec => { rec with latent := some l }

/-- The latent of a record. -/
def getLatent {P : Type} (h : Heap P) (r : ℕ) : Option (Lat P) := (h[r]?).bind (·.latent)

/-- `F.normalize(latent, dim=1)`: _normalize_latent.py:36, 39. -/
noncomputable def normLat {P : Type} (l : Lat P) : Lat P := ⟨l.dim, fun p => Vq.normalize (l.val p)⟩

/-- The index of one pixel's vector: _q_bottleneck.py:123-129, 146. -/
noncomputable def index {K d : ℕ} (codebook : Fin (K + 1) → Fin d → ℝ) (v : Fin d → ℝ) : Fin (K + 1) :=
  argmin (distances (effective true codebook) v)

/-- _q_bottleneck.py:159: `preq + (latents - preq).detach()`, each operation rounded. -/
noncomputable def straightThrough (fl : ℝ → ℝ) (preq latent : ℝ) : ℝ := fl (preq + fl (latent - preq))

/-- The calls.  The heap is changed also by a call that raises.  `size` is the number of pixels.
`quantize`: _vq_bottleneck.py:45-76 with _q_bottleneck.py:112-165; a wrong number of channels raises RuntimeError there
(lines 127 or 150); `replace` makes a new record.  `normalize`: _normalize_latent.py:32-40.
`project`: _project_latent.py:41-49. -/
noncomputable def forward {P : Type} (fl : ℝ → ℝ) (size : ℕ) : Tree → Heap P → ℕ → Except Err ℕ × Heap P
  | .quantize K d codebook, h, r =>
    match getLatent h r with
    | none => (.error .value, h)
    | some l =>
      if e : l.dim = d then
        let v := fun p i => l.val p (Fin.cast e.symm i)
        let ix := fun p => index codebook (v p)
        let new : Record P := { (h[r]?).getD {} with
          latent := some ⟨d, fun p c => straightThrough fl (v p c) (effective true codebook (ix p) c)⟩
          prequantized := some l
          numBytes := some (numBytes size 1 1 (K + 1))
          indices := some fun p => (ix p : ℕ) }
        (.ok h.length, h ++ [new])
      else (.error .runtime, h)
  | .normalizeOnly, h, r =>
    match getLatent h r with
    | none => (.error .value, h)
    | some l => (.ok r, setLatent h r (normLat l))
  | .normalize child, h, r =>
    match getLatent h r with
    | none => (.error .value, h)
    | some l => forward fl size child (setLatent h r (normLat l)) r
  | .projectOnly input output, h, r =>
    match input.call (getLatent h r) with
    | .error e => (.error e, h)
    | .ok l =>
      match output.call (some l) with
      | .error e => (.error e, h)
      | .ok l' => (.ok r, setLatent h r l')
  | .project input output child, h, r =>
    match input.call (getLatent h r) with
    | .error e => (.error e, h)
    | .ok l =>
      match forward fl size child (setLatent h r l) r with
      | (.error e, h') => (.error e, h')
      | (.ok r', h') =>
        match output.call (getLatent h' r') with
        | .error e => (.error e, h')
        | .ok l' => (.ok r', setLatent h' r' l')

/-- _project_latent.py:29-39: the two convolutions of `ProjectLatent(input_dim, output_dim)` have matching sizes. -/
def Built : Tree → Prop
  | .quantize .. => True
  | .normalizeOnly => True
  | .normalize child => Built child
  | .projectOnly i o => i.inDim = o.outDim ∧ i.outDim = o.inDim
  | .project i o child => i.inDim = o.outDim ∧ i.outDim = o.inDim ∧ Built child

/-- Rounding to a floating point number with a significand of 24 bits (float32 without subnormal numbers and overflow). -/
noncomputable def float32 (x : ℝ) : ℝ :=
  if x = 0 then 0 else roundHalfEven (x / 2 ^ (Int.log 2 |x| - 23)) * 2 ^ (Int.log 2 |x| - 23)

end Verif.Layers.LatentTree
