import Verif.Layers.Vq

/-!
Model of training through the vector quantisation bottleneck: the two losses of `QBottleneck.quantize_vectors`
(`/repo/neuralcompression/layers/_q_bottleneck.py:112-165`) and the backward pass through everything it returns,
operation by operation in reverse, over the reals. The indices carry no gradient; the returned distances are not
part of any loss here. Simplification: the nearest entry is chosen, as with `probabilistic=False`.
-/

namespace Verif.Layers.Vq

/-- An image of the batch, a row and a column. -/
abbrev Pos (B H W : ℕ) := Fin B × Fin H × Fin W

/-- `codebook[indices]` in the layout of the latents: `_q_bottleneck.py:146-152`. -/
noncomputable def entries {d K : ℕ} (H W : ℕ) (normalizeCodebook : Bool) (draws : ℕ → ℝ) (preq : Latent d)
    (codebook : Fin (K + 1) → Fin d → ℝ) : Latent d :=
  gather H W (effective normalizeCodebook codebook)
    (quantizeVectors H W normalizeCodebook false draws preq codebook).indices

/-- `F.mse_loss(a, b)`: the mean over all elements (`_q_bottleneck.py:155-156`). -/
noncomputable def mseLoss {d : ℕ} (B H W : ℕ) (a b : Latent d) : ℝ :=
  (∑ p : Pos B H W, ∑ c, (a p.1 c p.2.1 p.2.2 - b p.1 c p.2.1 p.2.2) ^ 2) / (B * d * H * W : ℕ)

/-- `commitment_loss`: `_q_bottleneck.py:155`. -/
noncomputable def commitmentLoss {d K : ℕ} (B H W : ℕ) (normalizeCodebook : Bool) (draws : ℕ → ℝ) (preq : Latent d)
    (codebook : Fin (K + 1) → Fin d → ℝ) : ℝ :=
  mseLoss B H W (entries H W normalizeCodebook draws preq codebook) preq

/-- `embedding_loss`: `_q_bottleneck.py:156`. -/
noncomputable def embeddingLoss {d K : ℕ} (B H W : ℕ) (normalizeCodebook : Bool) (draws : ℕ → ℝ) (preq : Latent d)
    (codebook : Fin (K + 1) → Fin d → ℝ) : ℝ :=
  mseLoss B H W (entries H W normalizeCodebook draws preq codebook) preq

/-- `F.normalize` of one vector (`_q_bottleneck.py:124`) backwards: the division, `clamp_min` (which passes the gradient
where the norm is not below the bound) and the norm (whose gradient is zero at zero). -/
noncomputable def normalizeBack {d : ℕ} (v g : Fin d → ℝ) : Fin d → ℝ :=
  let den := max (norm2 v) 1e-12
  let gDen := -∑ c, g c * v c / den ^ 2
  let gNorm := if 1e-12 ≤ norm2 v then gDen else 0
  fun c => g c / den + (if norm2 v = 0 then 0 else gNorm * (v c / norm2 v))

/-- `F.mse_loss` backwards: the gradient of an element of the first argument (`_q_bottleneck.py:155-156`). -/
noncomputable def mseBack {d : ℕ} (B H W : ℕ) (a b : Latent d) (g : ℝ) : Latent d :=
  fun i c y x => g * (2 * (a i c y x - b i c y x)) / (B * d * H * W : ℕ)

/-- The gradients of the latents before quantisation and of the codebook. -/
structure Grads (d K : ℕ) where
  preq : Latent d
  codebook : Fin (K + 1) → Fin d → ℝ

/-- `quantize_vectors` backwards (`_q_bottleneck.py:112-165`), given the gradients of the returned latent, of the commitment
loss and of the embedding loss. The straight-through estimator (159) passes the first on unchanged; each loss detaches
one of its arguments (155, 156); indexing adds the gradients of all positions with the same index (147-148). -/
noncomputable def quantizeBack {d K : ℕ} (B H W : ℕ) (normalizeCodebook : Bool) (draws : ℕ → ℝ) (preq : Latent d)
    (codebook : Fin (K + 1) → Fin d → ℝ) (gLatent : Latent d) (gCommitment gEmbedding : ℝ) : Grads d K :=
  let out := quantizeVectors H W normalizeCodebook false draws preq codebook
  let latents := entries H W normalizeCodebook draws preq codebook
  let gLatents := mseBack B H W latents preq gEmbedding
  let gEntry := fun k c => ∑ p : Pos B H W,
    if out.indices ((p.1 * H + p.2.1) * W + p.2.2) = k then gLatents p.1 c p.2.1 p.2.2 else 0
  { preq := fun i c y x => gLatent i c y x + mseBack B H W preq latents gCommitment i c y x
    codebook := fun k => if normalizeCodebook then normalizeBack (codebook k) (gEntry k) else gEntry k }

end Verif.Layers.Vq
