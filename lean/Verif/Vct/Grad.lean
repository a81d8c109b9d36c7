import Verif.Train.Autograd
import Verif.Vct.Pipeline

/-!
# Gradients of the video model

Models what autograd knows after the forward pass of `/repo/projects/torch_vct/model_pipeline.py` in training mode:
straight-through rounding, the noise of the bottleneck and the detached latent of the first frame.  Tensors are those of
`Verif.Train.Autograd`.

Simplifications: networks are arbitrary operations with a derivative; all parameters are one tensor; patching copies
elements (`src`) and unpatching picks them again (`dst`), see C23; the noise is an input; the two passes over the
encoder's outputs share their tensors through the cache (C31, C123), so decoding is done once per frame.
-/

namespace Verif.Vct.Grad

open Verif.Train.Autograd

/-- The networks.  `κ` are the elements of the patched latent.  The transformer gets the processed previous latents, `k` of
them, and the patched rounded latent (entropy_model.py:252-298). -/
structure Nets (W D F S P ι κ : Type) [NormedAddCommGroup W] [NormedSpace ℝ W] [NormedAddCommGroup D] [NormedSpace ℝ D]
    [NormedAddCommGroup F] [NormedSpace ℝ F] [NormedAddCommGroup S] [NormedSpace ℝ S]
    [NormedAddCommGroup P] [NormedSpace ℝ P] [Fintype ι] [Fintype κ] where
  /-- The learned fake previous latent: model_pipeline.py:212. -/
  fake : Op W (ι → ℝ)
  /-- entropy_model.py:204-235. -/
  process : Op (W × (ι → ℝ)) D
  mean : (k : ℕ) → Op (W × (Fin k → D) × (κ → ℝ)) (κ → ℝ)
  scale : (k : ℕ) → Op (W × (Fin k → D) × (κ → ℝ)) (κ → ℝ)
  features : (k : ℕ) → Op (W × (Fin k → D) × (κ → ℝ)) F
  src : κ → ι
  dst : ι → κ
  /-- `to_scale_idx` of `verysoftplus`: bottlenecks.py:35-53, 355-359, 367-369. -/
  scaleIndex : Op (κ → ℝ) (κ → ℝ)
  /-- bottlenecks.py:269-272 with 222-250: of the noised input, the index of the mean and the index of the scale. -/
  likelihood : Op ((κ → ℝ) × (κ → ℝ) × (κ → ℝ)) P
  numMeans : ℝ
  /-- model_pipeline.py:134-152. -/
  dequantize : Op (W × (ι → ℝ) × F) S

variable {V W D F S P ι κ : Type} [NormedAddCommGroup V] [NormedSpace ℝ V] [NormedAddCommGroup W] [NormedSpace ℝ W]
  [NormedAddCommGroup D] [NormedSpace ℝ D] [NormedAddCommGroup F] [NormedSpace ℝ F] [NormedAddCommGroup S]
  [NormedSpace ℝ S] [NormedAddCommGroup P] [NormedSpace ℝ P] [Fintype ι] [Fintype κ]

/-- Copying elements, as `Patcher.__call__` and `unpatch` do: patcher.py (C23). -/
noncomputable def gather {A B : Type} [Fintype A] [Fintype B] (f : B → A) (x : Node V (A → ℝ)) : Node V (B → ℝ) :=
  ⟨fun b => x.val (f b), ContinuousLinearMap.pi fun b => (ContinuousLinearMap.proj (f b)).comp x.der⟩

/-- `GsnConditionalLocScaleShift.forward` in training mode: bottlenecks.py:361-403: the latent and its likelihood. -/
noncomputable def bottleneck (n : Nets W D F S P ι κ) (noise : κ → ℝ) (inputs scales means : Node V (κ → ℝ)) :
    Node V (κ → ℝ) × Node V P :=
  let scalesI := scales.apply n.scaleIndex
  let meansI := ((means.sub (roundSt means)).add (Node.const fun _ => 1 / 2)).scale n.numMeans
  let roundMean := roundSt means
  let inputs := inputs.sub roundMean
  let outputs := inputs.add (Node.const noise)
  let lik := (outputs.pair (meansI.pair scalesI)).apply n.likelihood
  ((roundSt inputs).add roundMean, lik)

/-- `Bottleneck` of model_pipeline.py, and what decoding makes of it. -/
structure Out (V F S P ι : Type) [NormedAddCommGroup V] [NormedSpace ℝ V] [NormedAddCommGroup F] [NormedSpace ℝ F]
    [NormedAddCommGroup S] [NormedSpace ℝ S] [NormedAddCommGroup P] [NormedSpace ℝ P] [Fintype ι] where
  latentQ : Node V (ι → ℝ)
  likelihood : Node V P
  features : Node V F
  synthesisIn : Node V S

/-- `VCTEntropyModel.forward` (entropy_model.py:357-403) and the dequantizer (model_pipeline.py:289-292, 309-312) for one
latent, given the sequences `encoded` of its context. -/
noncomputable def codeWith (n : Nets W D F S P ι κ) (w : Node V W) (noise : κ → ℝ) (latent : Node V (ι → ℝ))
    (encoded : List (Node V D)) : Out V F S P ι :=
  let latentQ := gather n.src (roundSt latent)
  let input := w.pair ((Node.pi fun i : Fin encoded.length => encoded[i]).pair latentQ)
  let mean := input.apply (n.mean encoded.length)
  let scale := input.apply (n.scale encoded.length)
  let features := input.apply (n.features encoded.length)
  let out := bottleneck n noise (gather n.src latent) scale mean
  let output := gather n.dst out.1
  ⟨output, out.2, features, (w.pair (output.pair features)).apply n.dequantize⟩

/-- `VCTEntropyModel.forward` (entropy_model.py:352 and `codeWith`), given the processed previous latents. -/
noncomputable def codeLatent (n : Nets W D F S P ι κ) (w : Node V W) (noise : κ → ℝ) (latent : Node V (ι → ℝ))
    (previous : List (Node V D)) : Out V F S P ι :=
  codeWith n w noise latent (Pipe.encodedSeqs Pipe.entropyContextLen previous)

/-- The state after the first frame: model_pipeline.py:294-298 (`decode_Iscene`), with the detached latent. -/
noncomputable def stateI (n : Nets W D F S P ι κ) (w : Node V W) (o : Out V F S P ι) : List (Node V D) :=
  [(w.pair o.latentQ.detach).apply n.process]

/-- The state after another frame: model_pipeline.py:315-318 (`decode_Pscene`). -/
noncomputable def stateP (n : Nets W D F S P ι κ) (w : Node V W) (ctxLen : ℕ) (o : Out V F S P ι)
    (state : List (Node V D)) : List (Node V D) :=
  Pipe.sliceLast ctxLen (state ++ [(w.pair o.latentQ).apply n.process])

/-- The loop of model_pipeline.py:268-283 (and 324-339) from frame number `index` on, with the functions
`encode_Iscene`, `encode_Pscene` (197-266). -/
noncomputable def codeFrom (n : Nets W D F S P ι κ) (w : Node V W) (ctxLen : ℕ) (noise : ℕ → κ → ℝ) :
    ℕ → List (Node V D) → List (Node V (ι → ℝ)) → List (Out V F S P ι)
  | _, _, [] => []
  | index, state, y :: rest =>
    if index = 0 then
      let o := codeLatent n w (noise 0) y [(w.pair (w.apply n.fake)).apply n.process]
      o :: codeFrom n w ctxLen noise 1 (stateI n w o) rest
    else
      let o := codeLatent n w (noise index) y state
      o :: codeFrom n w ctxLen noise (index + 1) (stateP n w ctxLen o state) rest

/-- `encode_and_decode_scenes` in training mode: model_pipeline.py:341-370. -/
noncomputable def code (n : Nets W D F S P ι κ) (w : Node V W) (ctxLen : ℕ) (noise : ℕ → κ → ℝ)
    (scenes : List (Node V (ι → ℝ))) : List (Out V F S P ι) := codeFrom n w ctxLen noise 0 [] scenes

/-- The loss of one frame: `combined_loss_frame`, model_lightning.py:55-59; `dist i` is the distance of the synthesised frame to
frame `i` of the video times the weight of the distortion, `rate` the bits per pixel. -/
noncomputable def frameLoss (dist : ℕ → Op (W × S) ℝ) (rate : Op P ℝ) (w : Node V W) (i : ℕ) (o : Out V F S P ι) : Node V ℝ :=
  ((w.pair o.synthesisIn).apply (dist i)).add (o.likelihood.apply rate)

/-- The weights of the frames: model_lightning.py:53-54. -/
def weight (i : ℕ) : ℝ := if i = 0 then 1 else 10

/-- The sum over the frames from number `i` on, weighted. -/
noncomputable def lossFrom (dist : ℕ → Op (W × S) ℝ) (rate : Op P ℝ) (w : Node V W) : ℕ → List (Out V F S P ι) → Node V ℝ
  | _, [] => Node.const 0
  | i, o :: rest => ((frameLoss dist rate w i o).scale (weight i)).add (lossFrom dist rate w (i + 1) rest)

/-- `combined_loss_weighted`, what `training_step` returns: model_lightning.py:60. -/
noncomputable def trainingLoss (dist : ℕ → Op (W × S) ℝ) (rate : Op P ℝ) (w : Node V W) (outs : List (Out V F S P ι)) :
    Node V ℝ := (lossFrom dist rate w 0 outs).scale (1 / outs.length)

end Verif.Vct.Grad
