import Verif.Diffusion.Model
import Verif.Script.Respace
import Mathlib.Analysis.SpecialFunctions.Log.Basic
import Mathlib.Analysis.SpecialFunctions.Sqrt
import Mathlib.Analysis.SpecialFunctions.Trigonometric.Basic

/-!
Model of `DiffusionModel` (`/repo/projects/bits_back_diffusion/bits_back_diffusion/codec.py:93-192`) and of
`create_gaussian_diffusion` (`/repo/projects/bits_back_diffusion/bits_back_diffusion/script_util.py:337-379`).

The package `improved_diffusion` is not part of the repository; the functions called from the repository
(`get_named_beta_schedule`, `SpacedDiffusion`, `q_mean_variance`, `q_posterior_mean_variance`, `p_mean_variance`) are
written down here from their documentation and are trusted.  Simplifications: real numbers instead of floats; an array
with the shape of a batch is a function on its index set `ι`; the entries of a batch have the same step, as in all calls.
-/

namespace Verif.Diffusion.Gauss

open Verif.Script.Respace (Counts spaceTimesteps)

/-! ### Creating the diffusion -/

/-- `gd.ModelMeanType`: the two values used in `script_util.py:365-367`. -/
inductive MeanType | epsilon | startX
  deriving DecidableEq

/-- `gd.ModelVarType`: the three values used in `script_util.py:368-376`. -/
inductive VarType | fixedLarge | fixedSmall | learnedRange
  deriving DecidableEq

/-- `gd.LossType`: the three values used in `script_util.py:354-359`. -/
inductive LossType | mse | rescaledMse | rescaledKl
  deriving DecidableEq

/-- The names of `gd.get_named_beta_schedule` (`script_util.py:353`). -/
inductive Schedule | linear | cosine | other
  deriving DecidableEq

/-- What `create_gaussian_diffusion` can raise: `NotImplementedError` for an unknown schedule, the exceptions of
`space_timesteps`, and from the constructor of the diffusion `AssertionError` (a beta outside of `(0, 1]`) and `IndexError`
(fewer than two steps). -/
inductive Err
  | notImplemented
  | respace (e : Verif.Script.Respace.Err)
  | assertion
  | index

/-- `alpha_bar` of the cosine schedule (external, called in `script_util.py:353`). -/
noncomputable def cosBar (t : ℝ) : ℝ := Real.cos ((t + 0.008) / 1.008 * Real.pi / 2) ^ 2

/-- `gd.get_named_beta_schedule(noise_schedule, steps)` (external, called in `script_util.py:353`): `np.linspace` from
`0.1 / steps` to `20 / steps`, or the betas of the cosine schedule. -/
noncomputable def namedBetas (s : Schedule) (n : ℕ) : Except Err (List ℝ) :=
  match s with
  | .linear => .ok ((List.range n).map fun i : ℕ =>
      1000 / n * 0.0001 + i * ((1000 / n * 0.02 - 1000 / n * 0.0001) / (n - 1)))
  | .cosine => .ok ((List.range n).map fun i : ℕ => min (1 - cosBar ((i + 1) / n) / cosBar (i / n)) 0.999)
  | .other => .error .notImplemented

/-- `alphas_cumprod[t]` (external): `np.cumprod(1 - betas)`. -/
noncomputable def abar (betas : List ℝ) (t : ℕ) : ℝ := ((betas.take (t + 1)).map fun b => 1 - b).prod

/-- The checks of the constructor of `GaussianDiffusion` (external): the betas are in `(0, 1]`, and `posterior_variance[1]`
exists. -/
noncomputable def checkBetas (betas : List ℝ) : Except Err Unit :=
  open Classical in
  if ∃ b ∈ betas, ¬(0 < b ∧ b ≤ 1) then .error .assertion
  else if betas.length < 2 then .error .index
  else .ok ()

/-- The loop in the constructor of `SpacedDiffusion` (external) over the steps of the base diffusion: betas and
`timestep_map` of the kept steps. -/
noncomputable def spacedLoop (betas : List ℝ) (use : Finset ℕ) : List ℕ → ℝ → List ℝ → List ℕ → List ℝ × List ℕ
  | [], _, new, tmap => (new, tmap)
  | i :: is, last, new, tmap =>
    if i ∈ use then spacedLoop betas use is (abar betas i) (new ++ [1 - abar betas i / last]) (tmap ++ [i])
    else spacedLoop betas use is last new tmap

/-- A `respace.SpacedDiffusion`. -/
structure Diff where
  betas : List ℝ
  /-- `timestep_map` -/
  tmap : List ℕ
  /-- `original_num_steps` -/
  original : ℕ
  meanType : MeanType
  varType : VarType
  lossType : LossType
  rescale : Bool

/-- The arguments of `create_gaussian_diffusion` (`script_util.py:337-347`).  `respacing` is `none` if the argument is empty
(`None`, `""` or `[]`). -/
structure Args where
  steps : ℕ
  learnSigma : Bool
  sigmaSmall : Bool
  schedule : Schedule
  useKl : Bool
  predictXstart : Bool
  rescaleTimesteps : Bool
  rescaleLearnedSigmas : Bool
  respacing : Option Counts

/-- `loss_type`: `script_util.py:354-359`. -/
def Args.loss (a : Args) : LossType :=
  if a.useKl then .rescaledKl else if a.rescaleLearnedSigmas then .rescaledMse else .mse

/-- `model_var_type`: `script_util.py:368-376`. -/
def Args.var (a : Args) : VarType :=
  if !a.learnSigma then (if !a.sigmaSmall then .fixedLarge else .fixedSmall) else .learnedRange

/-- `model_mean_type`: `script_util.py:365-367`. -/
def Args.mean (a : Args) : MeanType := if !a.predictXstart then .epsilon else .startX

/-- `create_gaussian_diffusion` (`script_util.py:337-379`); `err` are the errors of floating point sums in
`space_timesteps`. -/
noncomputable def create (err : ℕ → ℕ → ℝ) (a : Args) : Except Err Diff :=
  match namedBetas a.schedule a.steps with
  | .error e => .error e
  | .ok betas =>
    match spaceTimesteps err a.steps (a.respacing.getD (.list [a.steps])) with
    | .error e => .error (.respace e)
    | .ok use =>
      match checkBetas betas with
      | .error e => .error e
      | .ok _ =>
        let r := spacedLoop betas use (List.range betas.length) 1 [] []
        match checkBetas r.1 with
        | .error e => .error e
        | .ok _ => .ok ⟨r.1, r.2, betas.length, a.mean, a.var, a.loss, a.rescaleTimesteps⟩

/-! ### Means and variances -/

/-- `alphas_cumprod_prev[t]` (external). -/
noncomputable def abarPrev (betas : List ℝ) (t : ℕ) : ℝ := if t = 0 then 1 else abar betas (t - 1)

/-- `betas[t]` (external). -/
def beta (betas : List ℝ) (t : ℕ) : ℝ := betas.getD t 0

/-- `posterior_variance[t]` (external). -/
noncomputable def postVar (betas : List ℝ) (t : ℕ) : ℝ :=
  beta betas t * (1 - abarPrev betas t) / (1 - abar betas t)

/-- `posterior_log_variance_clipped[t]` (external). -/
noncomputable def postLogVar (betas : List ℝ) (t : ℕ) : ℝ :=
  if t = 0 then Real.log (postVar betas 1) else Real.log (postVar betas t)

/-- Mean of `q_posterior_mean_variance` (external). -/
noncomputable def postMean (betas : List ℝ) (t : ℕ) (x z : ℝ) : ℝ :=
  beta betas t * √(abarPrev betas t) / (1 - abar betas t) * x +
    (1 - abarPrev betas t) * √(1 - beta betas t) / (1 - abar betas t) * z

/-- Variance and log variance of the fixed types, `FIXED_LARGE` and `FIXED_SMALL`, and of `LEARNED_RANGE` for the output `v` of
the network: `p_mean_variance` (external). -/
noncomputable def modelVar (d : Diff) (t : ℕ) (v : ℝ) : ℝ × ℝ :=
  match d.varType with
  | .fixedLarge =>
    let w := if t = 0 then postVar d.betas 1 else beta d.betas t
    (w, Real.log w)
  | .fixedSmall => (postVar d.betas t, postLogVar d.betas t)
  | .learnedRange =>
    let frac := (v + 1) / 2
    let l := frac * Real.log (beta d.betas t) + (1 - frac) * postLogVar d.betas t
    (Real.exp l, l)

/-- `process_xstart` of `p_mean_variance` (external): clipping to `[-1, 1]` with `clip_denoised`. -/
noncomputable def processXstart (clip : Bool) (x : ℝ) : ℝ := if clip then max (-1) (min 1 x) else x

/-- `pred_xstart` of `p_mean_variance` (external) from a latent and the output of the network. -/
noncomputable def predXstart (d : Diff) (clip : Bool) (t : ℕ) (z out : ℝ) : ℝ :=
  match d.meanType with
  | .startX => processXstart clip out
  | .epsilon => processXstart clip (√(1 / abar d.betas t) * z - √(1 / abar d.betas t - 1) * out)

/-! ### `DiffusionModel` -/

/-- `GaussianParams`: `codec.py:17-19`. -/
structure Params (ι : Type) where
  mean : ι → ℝ
  stdd : ι → ℝ

/-- The attributes of a `DiffusionModel` (`codec.py:106-121`; the device is left out).  The network gets the latents and the
time of the step, and returns its output and, for `LEARNED_RANGE`, the values for the variance. -/
structure DiffModel (ι : Type) where
  net : (ι → ℝ) → ℝ → (ι → ℝ) × (ι → ℝ)
  diff : Diff
  useLogVariance : Bool
  clipDenoised : Bool

variable {ι : Type}

/-- `self.steps`: `codec.py:121` (`num_timesteps`). -/
def DiffModel.steps (m : DiffModel ι) : ℕ := m.diff.betas.length

/-- `_gaussian_params`: `codec.py:123-133`. -/
noncomputable def DiffModel.gaussianParams (m : DiffModel ι) (mean variance logVariance : ι → ℝ) : Params ι :=
  ⟨mean, if m.useLogVariance then fun i => Real.exp (0.5 * logVariance i) else fun i => √(variance i)⟩

/-- `infer_fn`: `codec.py:135-152`, with `q_mean_variance` (external). -/
noncomputable def DiffModel.infer (m : DiffModel ι) (data : ι → ℝ) : Params ι :=
  let t := m.steps - 1
  m.gaussianParams (fun i => √(abar m.diff.betas t) * data i) (fun _ => 1 - abar m.diff.betas t)
    (fun _ => Real.log (1 - abar m.diff.betas t))

/-- The time that the network is called with: `SpacedDiffusion` (external) looks the step up in `timestep_map` and, with
`rescale_timesteps`, multiplies by `1000 / original_num_steps`. -/
noncomputable def DiffModel.time (m : DiffModel ι) (t : ℕ) : ℝ :=
  if m.diff.rescale then (m.diff.tmap.getD t 0 : ℝ) * (1000 / m.diff.original) else m.diff.tmap.getD t 0

/-- `generate_fn`: `codec.py:154-192`, with `p_mean_variance` and `q_posterior_mean_variance` (external). -/
noncomputable def DiffModel.generate (m : DiffModel ι) (latent : ι → ℝ) (step : ℕ) (data : Option (ι → ℝ)) :
    Params ι :=
  match data with
  | none =>
    let out := m.net latent (m.time step)
    m.gaussianParams
      (fun i => postMean m.diff.betas step (predXstart m.diff m.clipDenoised step (latent i) (out.1 i)) (latent i))
      (fun i => (modelVar m.diff step (out.2 i)).1) (fun i => (modelVar m.diff step (out.2 i)).2)
  | some x =>
    m.gaussianParams (fun i => postMean m.diff.betas step (x i) (latent i)) (fun _ => postVar m.diff.betas step)
      (fun _ => postLogVar m.diff.betas step)

/-- The codec with a `DiffusionModel` (`codec.py:217-270`).  `toLatent` is `_to_latent` (`codec.py:317-332`) with the centres
of `cs.std_gaussian_centres`; the observation codec gets the clipped standard deviations (`codec.py:515-517`). -/
noncomputable def DiffModel.setup {M D : Type} (m : DiffModel ι) (toData : D → ι → ℝ) (centres : ℕ → ℝ)
    (prior : PCodec M (ι → ℕ)) (post : Params ι → Params ι → PCodec M (ι → ℕ)) (obs : Params ι → PCodec M D)
    (clipStdd : ℝ) (nbytes : M → ℕ) (track : Bool) : Setup M D (ι → ℝ) (ι → ℝ) (Params ι) (ι → ℕ) where
  steps := m.steps
  infer := m.infer
  generate := m.generate
  toData := toData
  std := ⟨fun _ => 0, fun _ => 1⟩
  toLatent := fun d i => d.params.mean i + centres (d.inds i) * d.params.stdd i
  prior := prior
  post := post
  obs := fun p => obs ⟨p.mean, fun i => max (p.stdd i) clipStdd⟩
  nbytes := nbytes
  track := track

end Verif.Diffusion.Gauss
