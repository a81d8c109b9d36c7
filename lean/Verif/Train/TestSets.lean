import Mathlib.Data.Real.Basic
import Mathlib.Algebra.BigOperators.Group.List.Basic
import Mathlib.Data.List.Infix

/-!
Model of the validation and test metrics of the image project: `/repo/projects/illm/image_module.py`, the loop over the
test sets in `/repo/projects/illm/train.py:343-379`, `test_step` of `/repo/projects/illm/target_compression_module.py` and
the shipped test sets `/repo/projects/illm/conf/test_dataloaders/test.yaml`.

Numbers are real numbers.  What the metrics measure of an image (squared errors, LPIPS, DISTS, MS-SSIM, features) and the
distances between features are inputs; how they accumulate is modelled (see `Accum.lean` for the metrics themselves).  The
training metrics are left out: they are logged per step.  Of Lightning the following is assumed: a test calls
`on_test_epoch_start`, the steps and `on_test_epoch_end`; numbers that are logged per step are averaged with the batch
sizes as weights; metrics that are logged are computed at the end and reset; a test without batches does nothing.
-/

namespace Verif.Train.TestSets

/-- What is raised. -/
inductive Err | value | assertion | index | runtime | instantiation
deriving DecidableEq, Repr

/-- The three distances between sets of features. -/
inductive Dist | fid | swav | kid
deriving DecidableEq, Repr

/-- What the metrics measure of an image and its reconstruction: sum of squared errors on the scale of 255, LPIPS, DISTS,
MS-SSIM, the features of the whole image and those of its patches (the argument says whether of the original). -/
structure Image (F : Type) where
  sse : ℝ
  lpips : ℝ
  dists : ℝ
  msssim : ℝ
  whole : Dist → Bool → F
  patches : Dist → Bool → List F

/-- A batch: images of the same number of values, what `calc_psnr` gives for it, its bits per pixel. -/
structure Batch (F : Type) where
  numel : ℕ
  images : List (Image F)
  psnr : ℝ
  bpp : ℝ

variable {F : Type}

/-- A sum and a count, as in all averaging metrics. -/
structure Acc where
  sum : ℝ := 0
  count : ℕ := 0

/-- `update`. -/
noncomputable def Acc.add (a : Acc) (x : ℝ) (n : ℕ) : Acc := ⟨a.sum + x, a.count + n⟩

/-- `compute`. -/
noncomputable def Acc.mean (a : Acc) : ℝ := a.sum / a.count

/-- The test metrics: `image_module.py:43-49, 56-67`. -/
structure TestMetrics (F : Type) where
  mse : Acc := {}
  msssim : Acc := {}
  lpips : Acc := {}
  dists : Acc := {}
  feats : Dist → Bool → List F := fun _ _ => []

/-- The validation metrics: `image_module.py:35-39`. -/
structure EvalMetrics (F : Type) where
  psnr : Acc := {}
  mse : Acc := {}
  msssim : Acc := {}
  lpips : Acc := {}
  fid : Bool → List F := fun _ => []

/-- The module: `test` is set once `test_metrics_set` is. -/
structure State (F : Type) where
  eval : EvalMetrics F := {}
  test : Option (TestMetrics F) := none
  name : Option String := none

/-- `update_test_dataset_name`: `image_module.py:69-73`. -/
def updateName (s : State F) (name : String) : State F :=
  { s with name := some name, test := some (s.test.getD {}) }

/-- `reset_all_metrics`: `image_module.py:75-91`. -/
def resetAll (s : State F) : State F := { s with eval := {}, test := s.test.map fun _ => {} }

/-- `hific_mse_param` and `hific_lpips_param`: `image_module.py:51-52`. -/
noncomputable def hific (mse lpips : ℝ) : ℝ := 0.075 * 2 ^ (-5 : ℤ) * mse + 1 * lpips

/-- The sum of a measure over the images of a batch. -/
noncomputable def Batch.total (b : Batch F) (f : Image F → ℝ) : ℝ := (b.images.map f).sum

/-- The value of `test_mse(...)` or `eval_mse(...)` for one batch. -/
noncomputable def Batch.mse (b : Batch F) : ℝ := b.total Image.sse / (b.images.length * b.numel : ℕ)

/-- The value of `test_lpips(...)` or `eval_lpips(...)` for one batch. -/
noncomputable def Batch.lpips (b : Batch F) : ℝ := b.total Image.lpips / b.images.length

/-- `needle in haystack` for strings: `image_module.py:204`. -/
def contains (needle haystack : String) : Bool := haystack.toList.tails.any fun l => needle.toList.isPrefixOf l

/-- `clic_eval`: `image_module.py:204`. -/
def clicEval (name : String) : Bool := contains "clic" name || contains "div2k" name

/-- The features of a batch: `image_module.py:99-127`. -/
def Batch.features (b : Batch F) (clic : Bool) (d : Dist) (real : Bool) : List F :=
  if clic then b.images.flatMap fun i => i.patches d real else b.images.map fun i => i.whole d real

/-- The updates of a test step: `image_module.py:193-207`. -/
noncomputable def testUpdate (name : String) (b : Batch F) (t : TestMetrics F) : TestMetrics F where
  msssim := t.msssim.add (b.total Image.msssim) b.images.length
  mse := t.mse.add (b.total Image.sse) (b.images.length * b.numel)
  lpips := t.lpips.add (b.total Image.lpips) b.images.length
  dists := t.dists.add (b.total Image.dists) b.images.length
  feats := fun d real => t.feats d real ++ b.features (clicEval name) d real

/-- Numbers logged per step: value and batch size, in Lightning's sum. -/
structure Logged where
  psnr : Acc := {}
  hific : Acc := {}
  bpp : Acc := {}

/-- `log_dict` in a test step: `image_module.py:208-217`, `target_compression_module.py:264-269`. -/
noncomputable def Logged.add (l : Logged) (b : Batch F) : Logged where
  psnr := l.psnr.add (b.images.length * b.psnr) b.images.length
  hific := l.hific.add (b.images.length * Verif.Train.TestSets.hific b.mse b.lpips) b.images.length
  bpp := l.bpp.add (b.images.length * b.bpp) b.images.length

/-- `test_step`: `target_compression_module.py:241-274`, `image_module.py:185-217`. -/
noncomputable def testStep (s : State F) (l : Logged) (b : Batch F) : Except Err (State F × Logged) :=
  match s.name with
  | none => .error .value
  | some name => match s.test with
    | none => .error .assertion
    | some t => .ok ({ s with test := some (testUpdate name b t) }, l.add b)

/-- The steps of a test. -/
noncomputable def testSteps : State F → Logged → List (Batch F) → Except Err (State F × Logged)
  | s, l, [] => .ok (s, l)
  | s, l, b :: bs => match testStep s l b with
    | .error e => .error e
    | .ok (s, l) => testSteps s l bs

/-- What a test reports. -/
structure Report where
  psnr : ℝ
  mse : ℝ
  msssim : ℝ
  lpips : ℝ
  dists : ℝ
  hific : ℝ
  bpp : ℝ
  dist : Dist → ℝ

/-- `on_test_epoch_end` and the logged values: `image_module.py:241-253`. -/
noncomputable def testEnd (distance : Dist → List F → List F → ℝ) (s : State F) (l : Logged) :
    Except Err (Report × State F) :=
  match s.test with
  | none => .error .assertion
  | some t => .ok (
      { psnr := l.psnr.mean, mse := t.mse.mean, msssim := t.msssim.mean, lpips := t.lpips.mean, dists := t.dists.mean
        hific := l.hific.mean, bpp := l.bpp.mean
        dist := fun d => if s.name = some "kodak" then 0 else distance d (t.feats d true) (t.feats d false) },
      { s with test := some { t with mse := {}, msssim := {}, lpips := {}, dists := {} } })

/-- `trainer.test`; `none` if there are no batches. -/
noncomputable def trainerTest (distance : Dist → List F → List F → ℝ) (s : State F) (bs : List (Batch F)) :
    Except Err (Option Report × State F) :=
  if bs.isEmpty then .ok (none, s)
  else match testSteps (resetAll s) {} bs with
    | .error e => .error e
    | .ok (s, l) => match testEnd distance s l with
      | .error e => .error e
      | .ok (r, s) => .ok (some r, s)

/-- The state after a test that is interrupted after the batches `bs`. -/
noncomputable def abortedTest (s : State F) (bs : List (Batch F)) : State F :=
  match testSteps (resetAll s) {} bs with
  | .error _ => resetAll s
  | .ok (s, _) => s

/-- The updates of a validation step: `image_module.py:159-174`. -/
noncomputable def evalUpdate (b : Batch F) (e : EvalMetrics F) : EvalMetrics F where
  psnr := e.psnr.add (b.total Image.sse) (b.images.length * b.numel)
  msssim := e.msssim.add (b.total Image.msssim) b.images.length
  mse := e.mse.add (b.total Image.sse) (b.images.length * b.numel)
  lpips := e.lpips.add (b.total Image.lpips) b.images.length
  fid := fun real => e.fid real ++ b.images.map fun i => i.whole .fid real

/-- What a validation reports: `val/fid` may be missing.  `psnr` is the mean squared error that the PSNR is computed
from. -/
structure ValReport where
  psnr : ℝ
  mse : ℝ
  msssim : ℝ
  lpips : ℝ
  hific : ℝ
  fid : Option ℝ

/-- The hooks and steps of a validation: `image_module.py:158-184, 221-223, 229-239`; `fid` is `compute` of the FID of
torchmetrics. -/
noncomputable def validate (fid : List F → List F → Except Err ℝ) (s : State F) (bs : List (Batch F)) :
    Except Err ValReport × State F :=
  let s := resetAll s
  let e := bs.foldl (fun e b => evalUpdate b e) s.eval
  let h := bs.foldl (fun (a : Acc) b => a.add (b.images.length * hific b.mse b.lpips) b.images.length) {}
  let report := fun v => ({ psnr := e.psnr.mean, mse := e.mse.mean, msssim := e.msssim.mean, lpips := e.lpips.mean
                            hific := h.mean, fid := v } : ValReport)
  match fid (e.fid true) (e.fid false) with
  | .ok v => (.ok (report (some v)), { s with eval := {} })
  | .error .index => (.ok (report none), { s with eval := {} })
  | .error .value => (.ok (report none), { s with eval := {} })
  | .error err => (.error err, { s with eval := e })

/-- What happens to a module before a test: names, tests of any kind, validations. -/
inductive Event (F : Type)
  | name (name : String)
  | test (bs : List (Batch F))
  | abort (bs : List (Batch F))
  | validate (bs : List (Batch F))

/-- An event; a test that raises leaves the metrics reset. -/
noncomputable def Event.apply (distance : Dist → List F → List F → ℝ) (fid : List F → List F → Except Err ℝ)
    (s : State F) : Event F → State F
  | .name n => updateName s n
  | .test bs => match trainerTest distance s bs with
    | .error _ => resetAll s
    | .ok (_, s) => s
  | .abort bs => abortedTest s bs
  | .validate bs => (Verif.Train.TestSets.validate fid s bs).2

/-! ### The loop over the test sets -/

/-- A test set of the configuration: name, class and split. -/
structure Entry where
  name : String
  target : String
  split : Option String

/-- What `neuralcompression.data` exports: `/repo/neuralcompression/data/__init__.py:6-11`. -/
def exports : List String :=
  ["CLIC2020Image", "CLIC2020Video", "DIV2KDataset", "Kodak", "OpenImagesV6", "Vimeo90kSeptuplet"]

/-- The splits that a class accepts: `/repo/neuralcompression/data/_clic_2020_image.py:84-86`,
`/repo/neuralcompression/data/_div2k_dataset.py:44-45`; `Kodak` has none. -/
def splits : String → List (Option String)
  | "CLIC2020Image" => [none, some "train", some "val", some "test"]
  | "DIV2KDataset" => [none, some "val"]
  | "Kodak" => [none]
  | _ => []

/-- `hydra.utils.instantiate` of a data set, if the root directory is right; only image sets are modelled. -/
def instantiate (e : Entry) : Except Err Unit :=
  if e.target ∉ exports then .error .instantiation
  else if e.split ∉ splits e.target then .error .instantiation
  else .ok ()

/-- `build_test_dataloaders`: `train.py:343-351`. -/
def buildAll : List Entry → Except Err Unit
  | [] => .ok ()
  | e :: es => match instantiate e with
    | .error x => .error x
    | .ok () => buildAll es

/-- The tests: `train.py:373-379`.  The reports come in the order of the sets; an exception ends the run. -/
noncomputable def runTests (distance : Dist → List F → List F → ℝ) (data : Entry → List (Batch F)) :
    State F → List Entry → List (String × Option Report) × Option Err
  | _, [] => ([], none)
  | s, e :: es => match trainerTest distance (updateName s e.name) (data e) with
    | .error x => ([], some x)
    | .ok (r, s) =>
      let rest := runTests distance data s es
      ((e.name, r) :: rest.1, rest.2)

/-- `main` in test mode: `train.py:372-379`. -/
noncomputable def mainTest (distance : Dist → List F → List F → ℝ) (data : Entry → List (Batch F)) (s : State F)
    (es : List Entry) : List (String × Option Report) × Option Err :=
  match buildAll es with
  | .error x => ([], some x)
  | .ok () => runTests distance data s es

/-- The shipped configuration: `conf/test_dataloaders/test.yaml`. -/
def shipped : List Entry :=
  [⟨"kodak", "Kodak", none⟩, ⟨"clic2020_test", "CLIC2020Image", some "test_fid"⟩,
    ⟨"div2k_val", "DiV2KDataset", some "val"⟩]

/-- The metrics of a test set: `image_module.py:208-217, 246-253`, `target_compression_module.py:264-269`. -/
def metricNames : List String :=
  ["psnr", "mse", "ms_ssim", "lpips", "dists", "hific_distortion", "fid", "fid_swav", "kid", "bpp", "test_distortion"]

/-- The key of a logged value: `f"test/{dataset_name}_{metric}"`. -/
def key (name metric : String) : List Char := "test/".toList ++ name.toList ++ '_' :: metric.toList

end Verif.Train.TestSets
