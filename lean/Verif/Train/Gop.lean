import Mathlib.Data.Real.Basic

/-!
Model of the group-of-pictures bookkeeping in `/repo/projects/deep_video_compression/dvc_module.py:137-312` and the
training stages of `/repo/projects/deep_video_compression/_utils.py`.

Simplifications: the networks are arbitrary functions; training one frame may change the weights arbitrarily; the PSNR
metric and the quantile step are left out.
-/

namespace Verif.Train.Gop

/-- What the steps raise. -/
inductive Err where
  | index
  | type
  | unbound
  | runtime
  deriving DecidableEq, Repr

/-- `DvcLossValues` of one frame: `_utils.py`; the stages leave out the entropies they do not train. -/
structure LossValues where
  distortion : ℝ
  flow : Option ℝ
  residual : Option ℝ

/-- `LoggingMetrics`: `dvc_module.py:35-40`. -/
structure Metrics where
  totalLoss : ℝ
  distortion : ℝ
  bpp : ℝ
  flow : Option ℝ
  residual : Option ℝ

/-- A sum of an accumulator that may be `None` with a value: `None + tensor` raises `TypeError`. -/
def addTo (acc : Option ℝ) (x : ℝ) : Except Err (Option ℝ) :=
  match acc with
  | none => .error .type
  | some a => .ok (some (a + x))

/-- One optional entropy of a frame: the new accumulator, the loss and the combined rate. -/
def addEntropy (entropy acc : Option ℝ) (loss combined : ℝ) : Except Err (Option ℝ × ℝ × ℝ) :=
  match entropy with
  | some e => do
    let acc ← addTo acc e
    return (acc, loss + e, combined + e)
  | none => .ok (none, loss, combined)

/-- `compute_loss_and_metrics`: `dvc_module.py:153-189`. -/
def computeLossAndMetrics (l : LossValues) (m : Metrics) : Except Err (ℝ × Metrics) := do
  let (flow, loss, combined) ← addEntropy l.flow m.flow l.distortion 0
  let (residual, loss, combined) ← addEntropy l.residual m.residual loss combined
  return (loss, ⟨m.totalLoss + loss, m.distortion + l.distortion, m.bpp + combined, flow, residual⟩)

/-- The networks: the I-frame model (reconstruction and the information content of each likelihood tensor), and one
P-frame: its loss values, the estimate of the frame and the weights after it (unchanged in validation). -/
structure Net (W Img : Type) where
  iframe : Img → Img × List ℝ
  pframe : W → Img → Img → LossValues × Img
  update : W → Img → Img → W

variable {W Img : Type}

/-- `compress_iframe`: `dvc_module.py:137-151`; `numPixels` is the size of the batch of frames.  The first frame of the
batch is overwritten in place. -/
noncomputable def compressIframe (n : Net W Img) (numPixels : ℕ) (batch : List Img) : Except Err (List Img × ℝ) :=
  match batch with
  | [] => .error .index
  | image :: rest =>
    let output := n.iframe image
    .ok (output.1 :: rest, (output.2.map (· / (numPixels : ℝ))).sum)

/-- The loop over the P-frames: `dvc_module.py:237-257` in training, `:293-305` in validation (`train = false`, the
weights stay).  The result has the metrics, the weights and the loss of the last frame, if there was one. -/
def pframes (n : Net W Img) (train : Bool) : List ℕ → List Img → W → Img → Metrics → Option ℝ →
    Except Err (Metrics × W × Option ℝ)
  | [], _, w, _, m, loss => .ok (m, w, loss)
  | i :: is, batch, w, image1, m, _ =>
    match batch[i + 1]? with
    | none => .error .index
    | some image2 => do
      let (l, est) := n.pframe w image1 image2
      let (loss, m) ← computeLossAndMetrics l m
      pframes n train is batch (if train then n.update w image1 image2 else w) est m (some loss)

/-- What is logged: `log_all_metrics`, `dvc_module.py:191-210`; with no P-frame `torch.cat` of an empty list raises. -/
noncomputable def logAll (reduction : ℕ) (m : Metrics) : Metrics :=
  ⟨m.totalLoss / reduction, m.distortion / reduction, m.bpp / reduction, m.flow.map (· / (reduction : ℝ)),
    m.residual.map (· / (reduction : ℝ))⟩

/-- `training_step`: `dvc_module.py:212-276`; logged metrics, the weights, and the caller's batch afterwards. -/
noncomputable def trainingStep (n : Net W Img) (numPframes numPixels : ℕ) (batch : List Img) (w : W) :
    Except Err (Metrics × W × List Img) := do
  let (batch, iframeBpp) ← compressIframe n numPixels batch
  match batch[0]? with
  | none => .error .index
  | some image1 =>
    let (m, w, _) ← pframes n true (List.range numPframes) batch w image1 ⟨0, 0, iframeBpp, some 0, some 0⟩ none
    if numPframes = 0 then .error .runtime
    else return (logAll (numPframes + 1) m, w, batch)

/-- `validation_step`: `dvc_module.py:278-312`; logged metrics and `val_loss`. -/
noncomputable def validationStep (n : Net W Img) (numPframes numPixels : ℕ) (batch : List Img) (w : W) :
    Except Err (Metrics × ℝ) := do
  let (batch, _gopBpp) ← compressIframe n numPixels batch
  match batch[0]? with
  | none => .error .index
  | some image1 =>
    let (m, _, loss) ← pframes n false (List.range numPframes) batch w image1 ⟨0, 0, 0, some 0, some 0⟩ none
    match loss with
    | none => .error .unbound
    | some loss => return (logAll (numPframes + 1) m, loss)

end Verif.Train.Gop
