import Verif.Vct.Pipeline
import Mathlib.Data.Rat.Defs
import Mathlib.Algebra.Order.Ring.Rat

/-!
# The settings of the video entropy model

`VCTEntropyModel` (`/repo/projects/torch_vct/neural/entropy_model.py`) with the transformer parts it is built from
(`entropy_model_layers.py`, `layers_utils.py`): which settings the constructor accepts, and the shapes that pass through
`process_previous_latent_q` and `forward`, with every check on the way.  A tensor is its shape; numbers are natural (so
the check for a negative number of channels, entropy_model.py:124-125, never fires).
-/

namespace Verif.Vct.Settings

open Verif.Vct

/-- Exceptions. -/
inductive Err
  /-- `ValueError` -/
  | value
  /-- `ZeroDivisionError` -/
  | zeroDiv
  /-- `AssertionError` -/
  | assertion
  /-- `IndexError` -/
  | index
  /-- `RuntimeError`: reflection padding is not smaller than the side -/
  | pad
  /-- `RuntimeError`: the sizes do not fit a matrix product, a sum, a concatenation or a reshape -/
  | runtime
  deriving DecidableEq, Repr

/-- The arguments of `VCTEntropyModel.__init__` (entropy_model.py:70-84). -/
structure Config where
  numChannels : ℕ
  contextLen : ℕ
  windowEnc : ℕ
  windowDec : ℕ
  layersSep : ℕ
  layersJoint : ℕ
  layersDec : ℕ
  dModel : ℕ
  numHead : ℕ
  mlpExpansion : ℕ
  dropEnc : ℚ
  dropDec : ℚ
  deriving DecidableEq

/-- The default arguments (entropy_model.py:72-83). -/
def defaults : Config := ⟨192, 2, 8, 4, 3, 2, 5, 768, 16, 4, 0, 0⟩

/-! ### Construction -/

/-- `nn.Dropout(p)` checks its probability. -/
def buildDropout (p : ℚ) : Except Err Unit := if p < 0 ∨ 1 < p then .error .value else .ok ()

/-- `WindowMultiHeadAttention.__init__` (layers_utils.py:143-172): the heads must divide the width; the scale is a negative
power of the width of a head. -/
def buildAttention (d h : ℕ) (p : ℚ) : Except Err Unit :=
  if h = 0 then .error .zeroDiv
  else if d % h ≠ 0 then .error .value
  else if d / h = 0 then .error .zeroDiv
  else buildDropout p

/-- `TransformerBlock.__init__` (entropy_model_layers.py:131-181): two attentions and two MLPs. -/
def buildBlock (d h : ℕ) (p : ℚ) : Except Err Unit := do
  buildAttention d h p
  buildDropout p
  buildAttention d h p
  buildDropout p

/-- The loop of `Transformer.__init__` (entropy_model_layers.py:247-261). -/
def buildBlocks (d h : ℕ) (p : ℚ) : ℕ → Except Err Unit
  | 0 => .ok ()
  | n + 1 => do
    buildBlock d h p
    buildBlocks d h p n

/-- `Transformer.__init__` (entropy_model_layers.py:232-261), also of `EncoderSection` (300-318). -/
def buildTransformer (layers d h : ℕ) (p : ℚ) : Except Err Unit := do
  buildDropout p
  buildBlocks d h p layers

/-- `make_embedding` (layers_utils.py:44-60): `1 / input_dim**0.5`. -/
def buildEmbedding (i : ℕ) : Except Err Unit := if i = 0 then .error .zeroDiv else .ok ()

/-- `VCTEntropyModel.__init__` (entropy_model.py:117-195), in the order of the statements that can raise. -/
def construct (s : Config) : Except Err Unit := do
  if s.windowEnc < s.windowDec then .error .value
  else
    buildTransformer s.layersSep s.dModel s.numHead s.dropEnc
    buildTransformer s.layersJoint s.dModel s.numHead s.dropEnc
    buildEmbedding s.numChannels
    buildEmbedding s.numChannels
    buildTransformer s.layersDec s.dModel s.numHead s.dropDec

/-! ### Shapes -/

/-- A latent of shape `[B, C, H, W]`. -/
structure Latent where
  B : ℕ
  C : ℕ
  H : ℕ
  W : ℕ
  deriving DecidableEq, Repr

/-- A sequence of tokens of shape `[b, n, c]`. -/
structure Seq where
  b : ℕ
  n : ℕ
  c : ℕ
  deriving DecidableEq, Repr

/-- `Patcher.forward` (patcher.py:170-190 with 59-168) on shapes: the patches, and their numbers. -/
def patchShape (stride : ℕ) (x : Latent) (p : ℕ) : Except Err (Seq × ℕ × ℕ) :=
  if p < stride then .error .value
  else if (p - stride) % 2 ≠ 0 then .error .value
  else if stride = 0 then .error .zeroDiv
  else
    let m := (p - stride) / 2
    let hp := ceilDiv x.H stride * stride
    let wp := ceilDiv x.W stride * stride
    if m < x.W ∧ wp - x.W + m < x.W ∧ m < x.H ∧ hp - x.H + m < x.H then
      let nH := if p = stride then hp / p else (m + x.H + (hp - x.H + m) - p) / stride + 1
      let nW := if p = stride then wp / p else (m + x.W + (wp - x.W + m) - p) / stride + 1
      .ok (⟨x.B * nH * nW, p ^ 2, x.C⟩, hp / stride, wp / stride)
    else .error .pad

/-- `Patcher.unpatch` with a crop and channels last (patcher.py:192-228) on shapes. -/
def unpatchShape (stride : ℕ) (x : Seq) (nH nW H W : ℕ) : Except Err Latent :=
  if x.n ≠ stride ^ 2 then .error .assertion
  else if nH * nW = 0 ∨ (x.b % (nH * nW) ≠ 0) then .error .runtime
  else .ok ⟨x.b / (nH * nW), x.c, min H (nH * stride), min W (nW * stride)⟩

/-- A dense layer `nn.Linear(i, o)` on the last dimension. -/
def linear (i o : ℕ) (x : Seq) : Except Err Seq := if x.c = i then .ok ⟨x.b, x.n, o⟩ else .error .runtime

/-- `nn.LayerNorm(d)` on the last dimension. -/
def layerNorm (d : ℕ) (x : Seq) : Except Err Seq := if x.c = d then .ok x else .error .runtime

/-- `LearnedPosition(n, d)` (entropy_model_layers.py:50-63). -/
def position (n d : ℕ) (x : Seq) : Except Err Seq := if x.n = n ∧ x.c = d then .ok x else .error .assertion

/-- `MLP` (layers_utils.py:110-123). -/
def mlp (d e : ℕ) (x : Seq) : Except Err Seq := do
  let y ← linear d (e * d) x
  linear (e * d) d y

/-- `WindowMultiHeadAttention.forward` (layers_utils.py:174-278); `mask` is the side of the mask.  The sequence of the
query has at least one token here. -/
def attention (d : ℕ) (q kv : Seq) (mask : Option ℕ) : Except Err Seq :=
  if q.c ≠ d then .error .assertion
  else if kv.n % q.n ≠ 0 then .error .assertion
  else if kv.c ≠ d then .error .runtime
  else if kv.b ≠ q.b then .error .runtime
  else match mask with
    | none => linear d d q
    | some k => if k = q.n then linear d d q else .error .value

/-- `TransformerBlock.forward` (entropy_model_layers.py:183-224); `mask` is set in the decoder only. -/
def block (d e : ℕ) (mask : Option ℕ) (enc : Option Seq) (x : Seq) : Except Err Seq := do
  if mask.isSome && enc.isNone then .error .value
  else
    let y ← layerNorm d x
    let y ← attention d y y mask
    let y ← layerNorm d y
    let x ← mlp d e y
    let y ← layerNorm d x
    let y ← attention d y (enc.getD y) none
    let y ← layerNorm d y
    mlp d e y

/-- The loop of `Transformer.forward` (entropy_model_layers.py:287-289). -/
def blocks (d e : ℕ) (mask : Option ℕ) (enc : Option Seq) : ℕ → Seq → Except Err Seq
  | 0, x => .ok x
  | n + 1, x => do
    let y ← block d e mask enc x
    blocks d e mask enc n y

/-- `Transformer.forward` (entropy_model_layers.py:263-289), of an `EncoderSection` with neither mask nor encoder output
(320-321). -/
def transformer (layers d e : ℕ) (mask : Option ℕ) (enc : Option Seq) (x : Seq) : Except Err Seq :=
  match enc with
  | none => blocks d e mask none layers x
  | some y => if x.c ≠ y.c then .error .value else blocks d e mask (some y) layers x

/-- `process_previous_latent_q` (entropy_model.py:204-235). -/
def processPrevious (s : Config) (x : Latent) : Except Err Seq := do
  let r ← patchShape s.windowDec x s.windowEnc
  let y ← linear s.numChannels s.dModel r.1
  let y ← layerNorm s.dModel y
  let y ← position (s.windowEnc ^ 2) s.dModel y
  transformer s.layersSep s.dModel s.mlpExpansion none none y

/-- `StartSym.forward` (entropy_model_layers.py:86-123): the product of the symbol with ones broadcasts. -/
def startSym (c : ℕ) (x : Seq) : Except Err Seq :=
  if x.c = c ∨ c = 1 then .ok x else if x.c = 1 then .error .assertion else .error .runtime

/-- `mean_head` and `scale_head` (entropy_model.py:184-195): three dense layers. -/
def head (d o : ℕ) (x : Seq) : Except Err Seq := do
  let y ← linear d d x
  let y ← linear d d y
  linear d o y

/-- `_get_transformer_output` (entropy_model.py:257-298): shapes of mean, scale and decoder output. -/
def transformerOutput (s : Config) (encoded latentQ : Seq) : Except Err (Seq × Seq × Seq) := do
  if encoded.c ≠ s.dModel then .error .value
  else
    let y ← startSym s.numChannels latentQ
    let y ← linear s.numChannels s.dModel y
    let y ← layerNorm s.dModel y
    let y ← position (s.windowDec ^ 2) s.dModel y
    let e ← position (s.windowEnc ^ 2 * s.contextLen) s.dModel encoded
    let e ← transformer s.layersJoint s.dModel s.mlpExpansion none none e
    let o ← transformer s.layersDec s.dModel s.mlpExpansion (some (s.windowDec ^ 2)) (some e) y
    let mean ← head s.dModel s.numChannels o
    let scale ← head s.dModel s.numChannels o
    return (mean, scale, o)

/-- `torch.cat(seqs, dim=-2)`: the other two sizes must agree. -/
def catSeqs : List Seq → Except Err Seq
  | [] => .error .runtime
  | x :: xs =>
    if xs.all (fun y => y.b == x.b && y.c == x.c) then .ok ⟨x.b, x.n + (xs.map (·.n)).sum, x.c⟩
    else .error .runtime

/-- `forward` (entropy_model.py:333-403) for a latent and the processed previous latents: shapes of the perturbed latent,
of the likelihoods and of the features.  The bottleneck works element by element. -/
def forward (s : Config) (prev : List Seq) (x : Latent) : Except Err (Latent × Seq × Latent) := do
  let seqs := Pipe.encodedSeqs s.contextLen prev
  match seqs with
  | [] => .error .index
  | first :: _ =>
    if first.c ≠ s.dModel then .error .value
    else
      let (q, nH, nW) ← patchShape s.windowDec x s.windowDec
      if q.c ≠ s.numChannels then .error .value
      else if q.b ≠ first.b then .error .value
      else if q.n ≠ s.windowDec ^ 2 then .error .assertion
      else
        let encoded ← catSeqs seqs
        let (mean, scale, o) ← transformerOutput s encoded q
        if mean ≠ q then .error .assertion
        else
          let features ← unpatchShape s.windowDec o nH nW x.H x.W
          let (u, _) ← patchShape s.windowDec x s.windowDec
          if u ≠ scale then .error .assertion
          else
            let out ← unpatchShape s.windowDec u nH nW x.H x.W
            if out ≠ x then .error .assertion else return (out, u, features)

/-- Processing all previous latents, then the forward pass: what a user does to code a latent (as in
model_pipeline.py:212-220 and 300-318). -/
def processAll (s : Config) : List Latent → Except Err (List Seq)
  | [] => .ok []
  | x :: xs => do
    let y ← processPrevious s x
    let ys ← processAll s xs
    return y :: ys

/-- See `processAll`. -/
def code (s : Config) (prev : List Latent) (x : Latent) : Except Err (Latent × Seq × Latent) := do
  let p ← processAll s prev
  forward s p x

end Verif.Vct.Settings
