import Mathlib.Analysis.SpecialFunctions.Log.Base
import Mathlib.Analysis.SpecialFunctions.Pow.Real
import Mathlib.Data.Fintype.BigOperators
import Mathlib.Data.List.FinRange
import Mathlib.Algebra.Order.Floor.Ring

/-!
Model of the vector quantisation bottleneck: `/repo/neuralcompression/layers/_q_bottleneck.py`,
`_vq_bottleneck.py` and `_normalize_latent.py`.

Simplifications: floats are real numbers; latents are functions of (batch, channel, row, column) with the shape
kept separately; gradients are not modelled, so the straight-through estimator is its value.
-/

namespace Verif.Layers.Vq

open scoped BigOperators

/-- The Euclidean norm over the last axis that `torch.nn.functional.normalize` uses. -/
noncomputable def norm2 {d : ℕ} (v : Fin d → ℝ) : ℝ := √(∑ c, v c ^ 2)

/-- `torch.nn.functional.normalize` of one vector: division by the norm, at least `eps = 1e-12`. Used at
`_q_bottleneck.py:124` on the rows of the codebook and at `_normalize_latent.py:36,39` on the latents. -/
noncomputable def normalize {d : ℕ} (v : Fin d → ℝ) : Fin d → ℝ := fun c => v c / max (norm2 v) 1e-12

/-- `torch.argmin` over a row of `K + 1` values: the first index of a smallest value. -/
noncomputable def argmin {K : ℕ} (f : Fin (K + 1) → ℝ) : Fin (K + 1) :=
  (List.finRange (K + 1)).foldl (fun best k => if f k < f best then k else best) 0

/-- The latents before quantisation: `(batch, channel, row, column)`. -/
abbrev Latent (d : ℕ) := ℕ → Fin d → ℕ → ℕ → ℝ

/-- `preq_latents.permute(0, 2, 3, 1).reshape(-1, hidden_dim)`: `_q_bottleneck.py:119`. Row `v` of the reshaped
tensor. -/
def row {d : ℕ} (H W : ℕ) (t : Latent d) (v : ℕ) : Fin d → ℝ := fun c => t (v / W / H) c (v / W % H) (v % W)

/-- The squared distances: `_q_bottleneck.py:126-129`. -/
noncomputable def distances {d K : ℕ} (codebook : Fin (K + 1) → Fin d → ℝ) (v : Fin d → ℝ) : Fin (K + 1) → ℝ :=
  fun k => ∑ c, (codebook k c - v c) ^ 2

/-- The codebook that `quantize_vectors` uses: `_q_bottleneck.py:123-124`. -/
noncomputable def effective {d K : ℕ} (normalizeCodebook : Bool) (codebook : Fin (K + 1) → Fin d → ℝ) :
    Fin (K + 1) → Fin d → ℝ :=
  fun k => if normalizeCodebook then normalize (codebook k) else codebook k

/-- The cumulative weights of the probabilistic choice: `_q_bottleneck.py:133-136`. -/
noncomputable def cumulative {K : ℕ} (dist : Fin (K + 1) → ℝ) (k : Fin (K + 1)) : ℝ :=
  ∑ j ∈ Finset.univ.filter (· ≤ k), (1 / (dist j + 1e-7)) / ∑ i, 1 / (dist i + 1e-7)

/-- The index of one vector. With `probabilistic` the draw `u` of `torch.rand` decides:
`_q_bottleneck.py:131-144`. -/
noncomputable def choose {K : ℕ} (probabilistic : Bool) (u : ℝ) (dist : Fin (K + 1) → ℝ) : Fin (K + 1) :=
  if probabilistic then
    argmin fun k => if cumulative dist k - u < 0 then 1 else cumulative dist k - u
  else argmin dist

/-- What `quantize_vectors` returns: `_q_bottleneck.py:29-36`, `158-165`. The two losses are left out. -/
structure Output (d K : ℕ) where
  latent : Latent d
  prequantized : Latent d
  indices : ℕ → Fin (K + 1)
  distances : ℕ → Fin (K + 1) → ℝ

/-- `codebook[indices].view(batch_size, num_y, num_x, hidden_dim).permute(0, 3, 1, 2)`:
`_q_bottleneck.py:147-152`. -/
def gather {d K : ℕ} (H W : ℕ) (codebook : Fin (K + 1) → Fin d → ℝ) (indices : ℕ → Fin (K + 1)) : Latent d :=
  fun b c y x => codebook (indices ((b * H + y) * W + x)) c

/-- `QBottleneck.quantize_vectors`: `_q_bottleneck.py:112-165`. `draws v` is the random number of row `v`. -/
noncomputable def quantizeVectors {d K : ℕ} (H W : ℕ) (normalizeCodebook probabilistic : Bool) (draws : ℕ → ℝ)
    (preq : Latent d) (codebook : Fin (K + 1) → Fin d → ℝ) : Output d K :=
  let cb := effective normalizeCodebook codebook
  let dist := fun v => distances cb (row H W preq v)
  let indices := fun v => choose probabilistic (draws v) (dist v)
  let latents := gather H W cb indices
  { latent := fun b c y x => preq b c y x + (latents b c y x - preq b c y x)
    prequantized := preq
    indices := indices
    distances := dist }

/-- The state of `VQBottleneck` that is not a metric: its codebook and its counters
(`_q_bottleneck.py:69-91`). -/
structure State (d K : ℕ) where
  codebook : Fin (K + 1) → Fin d → ℝ
  hits : Fin (K + 1) → ℕ

/-- `hits.index_add_(0, indices, ones)`: `_vq_bottleneck.py:63-65`, for `n` rows. -/
def indexAdd {K : ℕ} (hits : Fin (K + 1) → ℕ) (n : ℕ) (indices : ℕ → Fin (K + 1)) : Fin (K + 1) → ℕ :=
  fun k => hits k + ((List.range n).filter fun v => indices v = k).length

/-- `num_bytes`: `_vq_bottleneck.py:49-55`. The product is not negative, so `int` rounds it down. -/
noncomputable def numBytes (B H W codebookSize : ℕ) : ℕ :=
  ⌊(B : ℝ) * H * W * Real.logb 2 codebookSize / 8⌋₊

/-- `VQBottleneck.forward` on a latent of shape `(B, d, H, W)`: `_vq_bottleneck.py:45-76`. -/
noncomputable def forward {d K : ℕ} (s : State d K) (B H W : ℕ) (latent : Latent d) :
    State d K × Output d K × ℕ :=
  let out := quantizeVectors H W true false (fun _ => 0) latent s.codebook
  ({ s with
     hits := indexAdd s.hits (B * H * W) out.indices }, out, numBytes B H W (K + 1))

/-- `QBottleneck.reset_hits`: `_q_bottleneck.py:93-95`. The loop variable is a pair of a name and a buffer;
`*= 0` on the pair makes the empty tuple and binds it to the loop variable, so no buffer changes. -/
def resetHits {d K : ℕ} (s : State d K) : State d K := s

/-- What can happen to a bottleneck during training: a batch goes through it, the optimiser changes the codebook,
or the counters are reset. -/
inductive Op (d K : ℕ) where
  | batch (B H W : ℕ) (latent : Latent d)
  | step (codebook : Fin (K + 1) → Fin d → ℝ)
  | reset

/-- One operation. -/
noncomputable def apply {d K : ℕ} (s : State d K) : Op d K → State d K
  | .batch B H W latent => (forward s B H W latent).1
  | .step codebook => { s with
      codebook := codebook }
  | .reset => resetHits s

/-- A training history. -/
noncomputable def run {d K : ℕ} (s : State d K) (ops : List (Op d K)) : State d K := ops.foldl apply s

/-- A new bottleneck: `_q_bottleneck.py:84-88`. -/
def fresh {d K : ℕ} (codebook : Fin (K + 1) → Fin d → ℝ) : State d K := ⟨codebook, fun _ => 0⟩

/-! ### Metrics -/

/-- `percentage_hits`: `_q_bottleneck.py:103-105`. -/
noncomputable def percentageHits {K : ℕ} (hits : Fin (K + 1) → ℕ) : ℝ :=
  ((Finset.univ.filter fun k => hits k ≠ 0).card : ℝ) / ((K + 1 : ℕ) : ℝ)

/-- `max_hits`: `_q_bottleneck.py:106`. -/
def maxHits {K : ℕ} (hits : Fin (K + 1) → ℕ) : ℕ := Finset.univ.sup hits

/-- `perplexities`: `_q_bottleneck.py:107-110`, `none` for not-a-number (the sum of the hits is zero). -/
noncomputable def perplexity {K : ℕ} (hits : Fin (K + 1) → ℕ) : Option ℝ :=
  if ∑ k, hits k = 0 then none
  else
    let probs := fun k => (hits k : ℝ) / ((∑ j, hits j : ℕ) : ℝ)
    some ((2 : ℝ) ^ (-∑ k, probs k * Real.logb 2 (probs k + 1e-7)))

/-- `NormalizeLatent.forward` without a child: `_normalize_latent.py:32-40`. -/
noncomputable def normalizeLatent {d : ℕ} (t : Latent d) : Latent d :=
  fun b c y x => normalize (fun c => t b c y x) c

end Verif.Layers.Vq
