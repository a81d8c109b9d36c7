import Mathlib.Analysis.SpecialFunctions.Exp
import Mathlib.Analysis.SpecialFunctions.Sqrt
import Mathlib.Data.Fintype.BigOperators
import Mathlib.GroupTheory.Perm.Basic

/-!
Model of the normalisation layers `/repo/neuralcompression/layers/_simplified_gdn.py`, `_channel_norm.py` and of the
cross-covariance attention `_xca.py`.

Simplifications: floats are real numbers. The normalisation layers act on every pixel separately (1 × 1
convolutions and reductions over the channels), so a pixel's vector of channels stands for the image. Dropout is
off.
-/

namespace Verif.Layers.Norm

open scoped BigOperators

/-! ### Divisive normalisation -/

/-- The parameters of a GDN layer: `_simplified_gdn.py:57-61`, `104-108`. -/
structure Gdn (C : ℕ) where
  gamma : Fin C → Fin C → ℝ
  beta : Fin C → ℝ
  betaMin : ℝ

/-- The constructor: `_simplified_gdn.py:55-61`, `102-108`. -/
noncomputable def Gdn.init (C : ℕ) (gammaInit : ℝ := 0.1) (betaMin : ℝ := 1e-6) : Gdn C where
  gamma := fun i j => (if i = j then 1 else 0) * gammaInit
  beta := fun _ => 1
  betaMin := betaMin

/-- The clamping at the start of `forward`: `_simplified_gdn.py:74-75`, `121-122` (with `12-19`). -/
noncomputable def Gdn.clamp {C : ℕ} (g : Gdn C) : Gdn C where
  gamma := fun i j => max (g.gamma i j) 0
  beta := fun i => max (g.beta i) g.betaMin
  betaMin := g.betaMin

/-- `F.conv2d(torch.abs(image), self.gamma, self.beta)` at a pixel: `_simplified_gdn.py:77`, `124`. -/
noncomputable def Gdn.norm {C : ℕ} (g : Gdn C) (x : Fin C → ℝ) (i : Fin C) : ℝ := ∑ j, g.gamma i j * |x j| + g.beta i

/-- `SimplifiedGDN.forward`: `_simplified_gdn.py:63-77`. The clamped parameters stay in the layer. -/
noncomputable def Gdn.forward {C : ℕ} (g : Gdn C) (x : Fin C → ℝ) : Gdn C × (Fin C → ℝ) :=
  let g' := g.clamp
  (g', fun i => x i / g'.norm x i)

/-- `SimplifiedInverseGDN.forward`: `_simplified_gdn.py:110-124`. -/
noncomputable def Gdn.inverse {C : ℕ} (g : Gdn C) (x : Fin C → ℝ) : Gdn C × (Fin C → ℝ) :=
  let g' := g.clamp
  (g', fun i => x i * g'.norm x i)

/-- What happens to a layer: an image goes through it, or the optimiser changes its parameters. -/
inductive GdnOp (C : ℕ) where
  | forward (x : Fin C → ℝ)
  | step (gamma : Fin C → Fin C → ℝ) (beta : Fin C → ℝ)

/-- One operation. -/
noncomputable def Gdn.apply {C : ℕ} (g : Gdn C) : GdnOp C → Gdn C
  | .forward x => (g.forward x).1
  | .step gamma beta => { g with
      gamma := gamma
      beta := beta }

/-! ### Channel normalisation -/

/-- `ChannelNorm2D.__init__`: `_channel_norm.py:30-43`: `none` is `ValueError`. The result is the affine part. -/
def channelNormInit (channels : ℕ) (affine : Bool) : Option (Option ((Fin channels → ℝ) × (Fin channels → ℝ))) :=
  if channels ≤ 1 then none
  else if affine then some (some (fun _ => 1, fun _ => 0))
  else some none

/-- `torch.mean` over the channels: `_channel_norm.py:46`. -/
noncomputable def mean {C : ℕ} (x : Fin C → ℝ) : ℝ := (∑ i, x i) / C

/-- `torch.var` over the channels, with Bessel's correction: `_channel_norm.py:47`. -/
noncomputable def variance {C : ℕ} (x : Fin C → ℝ) : ℝ := (∑ i, (x i - mean x) ^ 2) / ((C : ℝ) - 1)

/-- `x_normed`: `_channel_norm.py:49`. -/
noncomputable def normed {C : ℕ} (epsilon : ℝ) (x : Fin C → ℝ) : Fin C → ℝ :=
  fun i => (x i - mean x) * (1 / √(variance x + epsilon))

/-- `ChannelNorm2D.forward`: `_channel_norm.py:45-54`. -/
noncomputable def channelNorm {C : ℕ} (epsilon : ℝ) (affine : Option ((Fin C → ℝ) × (Fin C → ℝ))) (x : Fin C → ℝ) :
    Fin C → ℝ :=
  match affine with
  | some (gamma, beta) => fun i => gamma i * normed epsilon x i + beta i
  | none => normed epsilon x

/-! ### Cross-covariance attention -/

/-- The parameters of an XCA layer with `h` heads of `c` channels (`dim = h * c`): `_xca.py:53-67`. The output of
`qkv` is indexed by which of the three it is, head and channel, which is the `reshape` at `_xca.py:72-76` and the one at `_xca.py:87`. -/
structure Xca (h c : ℕ) where
  temperature : Fin h → ℝ
  qkv : Fin 3 → Fin h → Fin c → Fin h → Fin c → ℝ
  qkvBias : Fin 3 → Fin h → Fin c → ℝ
  proj : Fin h → Fin c → Fin h → Fin c → ℝ
  projBias : Fin h → Fin c → ℝ

/-- The input and output of a sample: tokens by channels. -/
abbrev Tokens (N h c : ℕ) := Fin N → Fin h → Fin c → ℝ

variable {N h c : ℕ}

/-- `self.qkv(x)` reshaped and permuted: `_xca.py:72-77`. -/
noncomputable def Xca.part (m : Xca h c) (x : Tokens N h c) (s : Fin 3) (a : Fin h) (i : Fin c) : Fin N → ℝ :=
  fun n => ∑ b, ∑ j, m.qkv s a i b j * x n b j + m.qkvBias s a i

/-- `F.normalize(dim=-1)` over the tokens: `_xca.py:80-81`. -/
noncomputable def normalizeTokens (v : Fin N → ℝ) : Fin N → ℝ := fun n => v n / max √(∑ n, v n ^ 2) 1e-12

/-- The attention before the softmax: `_xca.py:82`. -/
noncomputable def Xca.logits (m : Xca h c) (x : Tokens N h c) (a : Fin h) (i j : Fin c) : ℝ :=
  (∑ n, normalizeTokens (m.part x 0 a i) n * normalizeTokens (m.part x 1 a j) n) * m.temperature a

/-- The attention weights: `_xca.py:83`. -/
noncomputable def Xca.attn (m : Xca h c) (x : Tokens N h c) (a : Fin h) (i j : Fin c) : ℝ :=
  Real.exp (m.logits x a i j) / ∑ k, Real.exp (m.logits x a i k)

/-- `(attn @ v)`: `_xca.py:87`. -/
noncomputable def Xca.mix (m : Xca h c) (x : Tokens N h c) (n : Fin N) (a : Fin h) (i : Fin c) : ℝ :=
  ∑ j, m.attn x a i j * m.part x 2 a j n

/-- `XCA.forward` of one sample: `_xca.py:69-91`. -/
noncomputable def Xca.forward (m : Xca h c) (x : Tokens N h c) : Tokens N h c :=
  fun n a i => ∑ b, ∑ j, m.proj a i b j * m.mix x n b j + m.projBias a i

end Verif.Layers.Norm
