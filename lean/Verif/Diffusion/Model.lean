import Mathlib.Algebra.BigOperators.Group.Finset.Basic
import Mathlib.Algebra.BigOperators.Intervals
import Mathlib.Data.Int.Basic

/-
Model of the diffusion bits-back codec
(/repo/projects/bits_back_diffusion/bits_back_diffusion/codec.py).

The entropy coder (`craystack`, not part of the repository) and the neural network
are parameters: a primitive codec has a `push` and a `pop` that fails when the
message is exhausted, the network is an arbitrary deterministic function.
-/
namespace Verif.Diffusion

/-- A `craystack.Codec` on messages `M`.  `pop` raises on an exhausted message. -/
structure PCodec (M α : Type) where
  push : M → α → M
  pop : M → Option (M × α)

/-- `DiscrLatent` (codec.py:22-24): bin indices and parameters of the prior. -/
structure DiscrLatent (I P : Type) where
  inds : I
  params : P
  deriving DecidableEq

/-- Everything `BitsBackCodec.__init__` (codec.py:217-270) stores and does not change later,
with the parts that are not modelled as functions:
`infer`, `generate` are the methods of `BaseHLVModel` (codec.py:63-90) with `R` the type of
real-valued data; `toData` is the dequantisation in `posterior` (codec.py:417-419);
`std` the parameters of the standard normal (codec.py:392-394); `toLatent` is `_to_latent`
(codec.py:317-332); `prior` is `cs.Uniform(prior_prec)` (codec.py:248); `post` is
`_post_codec` (codec.py:334-356); `obs` is `diag_gaussian_unif_bins` with clipped standard
deviation (codec.py:515-522); `nbytes` is `cs.flatten(message).nbytes`. -/
structure Setup (M D R Λ P I : Type) where
  steps : Nat
  infer : R → P
  generate : Λ → Nat → Option R → P
  toData : D → R
  std : P
  toLatent : DiscrLatent I P → Λ
  prior : PCodec M I
  post : P → P → PCodec M I
  obs : P → PCodec M D
  nbytes : M → Nat
  track : Bool

/-- `push_bytes` and `pop_bytes` (codec.py:253-254), indexed by the step.  The code uses
`uint64`; here they are integers. -/
structure Counters where
  push : Nat → Int
  pop : Nat → Int

/-- `self.push_bytes[step] += n` (codec.py:543). -/
def Counters.addPush (c : Counters) (step : Nat) (n : Int) : Counters :=
  { c with push := fun k => if k = step then c.push k + n else c.push k }

/-- `self.pop_bytes[step] += n` (codec.py:549). -/
def Counters.addPop (c : Counters) (step : Nat) (n : Int) : Counters :=
  { c with pop := fun k => if k = step then c.pop k + n else c.pop k }

variable {M D R Λ P I : Type}

/-- `_track_codec(codec, step).push` (codec.py:525-544).  (The `RuntimeError` for a step out of
bounds is not modelled: all calls use steps from 0 to `steps`.) -/
def trackPush (S : Setup M D R Λ P I) {α : Type} (c : PCodec M α) (step : Nat) (k : Counters) (m : M)
    (x : α) : Counters × M :=
  let m' := c.push m x
  (if S.track then k.addPush step ((S.nbytes m' : Int) - S.nbytes m) else k, m')

/-- `_track_codec(codec, step).pop` (codec.py:547-551).  When `pop` raises nothing is counted. -/
def trackPop (S : Setup M D R Λ P I) {α : Type} (c : PCodec M α) (step : Nat) (k : Counters) (m : M) :
    Counters × Option (M × α) :=
  match c.pop m with
  | none => (k, none)
  | some (m', x) => (if S.track then k.addPop step ((S.nbytes m : Int) - S.nbytes m') else k, some (m', x))

/-- The loop of `prior_push` (codec.py:371-374), at step `step`. -/
def priorPush (S : Setup M D R Λ P I) : Nat → List (DiscrLatent I P) → Counters → M → Counters × M
  | _, [], k, m => (k, m)
  | step, d :: ds, k, m =>
    let r := trackPush S S.prior step k m d.inds
    priorPush S (step + 1) ds r.1 r.2

/-- Parameters of the prior of a latent, from the latents above it, the nearest first
(codec.py:391-398, 466-474). -/
def priorParams (S : Setup M D R Λ P I) (step : Nat) : List (DiscrLatent I P) → P
  | [] => S.std
  | d :: _ => S.generate (S.toLatent d) step none

/-- Parameters of the posterior (codec.py:442-448, 470, 474), with the data `x`. -/
def postParams (S : Setup M D R Λ P I) (x : R) (step : Nat) : List (DiscrLatent I P) → P
  | [] => S.infer x
  | d :: _ => S.generate (S.toLatent d) step (some x)

/-- The loop of `prior_pop` (codec.py:389-404), steps `step, step - 1, ..., 1`.  The accumulator
holds the latents popped so far, the last one first; this is the returned, reversed list.
The code's test `step == self.model.steps` is true exactly when nothing was popped yet. -/
def priorPop (S : Setup M D R Λ P I) : Nat → List (DiscrLatent I P) → Counters → M →
    Counters × Option (M × List (DiscrLatent I P))
  | 0, acc, k, m => (k, some (m, acc))
  | step + 1, acc, k, m =>
    let params := priorParams S (step + 1) acc
    match trackPop S S.prior (step + 1) k m with
    | (k, none) => (k, none)
    | (k, some (m, i)) => priorPop S step (⟨i, params⟩ :: acc) k m

/-- The loop of `posterior_push` (codec.py:440-455). -/
def posteriorPush (S : Setup M D R Λ P I) (x : R) : Nat → List (DiscrLatent I P) → Counters → M →
    Counters × M
  | _, [], k, m => (k, m)
  | step, d :: ds, k, m =>
    let r := trackPush S (S.post (postParams S x step ds) d.params) step k m d.inds
    posteriorPush S x (step + 1) ds r.1 r.2

/-- The loop of `posterior_pop` (codec.py:465-478). -/
def posteriorPop (S : Setup M D R Λ P I) (x : R) : Nat → List (DiscrLatent I P) → Counters → M →
    Counters × Option (M × List (DiscrLatent I P))
  | 0, acc, k, m => (k, some (m, acc))
  | step + 1, acc, k, m =>
    let params := priorParams S (step + 1) acc
    match trackPop S (S.post (postParams S x (step + 1) acc) params) (step + 1) k m with
    | (k, none) => (k, none)
    | (k, some (m, i)) => posteriorPop S x step (⟨i, params⟩ :: acc) k m

/-- The codec of `likelihood` (codec.py:493-523); the list is not empty when `steps ≥ 1`. -/
def likelihood (S : Setup M D R Λ P I) : List (DiscrLatent I P) → PCodec M D
  | [] => S.obs S.std
  | d :: _ => S.obs (S.generate (S.toLatent d) 0 none)

/-- The mutable attributes (codec.py:251-270). -/
structure State (M : Type) where
  message : M
  dataCount : Int
  extraBytes : Int
  counters : Counters
  initialBytes : Int

/-- What a caller can see raised. -/
inductive Err
  /-- `ValueError` for values out of range or a wrong shape (codec.py:584-594). -/
  | value
  /-- The message is exhausted: raised by the entropy coder inside `pop`. -/
  | exhausted
  deriving DecidableEq, Repr

/-- `encode` (codec.py:572-599) after the checks; `craystack.BBANS` pops the posterior, pushes
the likelihood and the prior.  `extra_bytes` is set by `posterior_pop` (codec.py:485-487). -/
def encodeCore (S : Setup M D R Λ P I) (s : State M) (d : D) : State M × Except Err M :=
  match posteriorPop S (S.toData d) S.steps [] s.counters s.message with
  | (k, none) => ({ s with counters := k }, .error .exhausted)
  | (k, some (m, ls)) =>
    let extra := if s.dataCount = 0 then s.initialBytes - S.nbytes m else s.extraBytes
    let r := trackPush S (likelihood S ls) 0 k m d
    let r := priorPush S 1 ls r.1 r.2
    ({ s with message := r.2, dataCount := s.dataCount + 1, extraBytes := extra, counters := r.1 }, .ok r.2)

/-- `encode` (codec.py:572-599): the checks come first. -/
def encode (S : Setup M D R Λ P I) (inRange shapeOk : D → Bool) (s : State M) (d : D) :
    State M × Except Err M :=
  if !inRange d then (s, .error .value)
  else if !shapeOk d then (s, .error .value)
  else encodeCore S s d

/-- `decode` (codec.py:601-614). -/
def decode (S : Setup M D R Λ P I) (s : State M) : State M × Except Err (M × D) :=
  match priorPop S S.steps [] s.counters s.message with
  | (k, none) => ({ s with counters := k }, .error .exhausted)
  | (k, some (m, ls)) =>
    match trackPop S (likelihood S ls) 0 k m with
    | (k, none) => ({ s with counters := k }, .error .exhausted)
    | (k, some (m, d)) =>
      let r := posteriorPush S (S.toData d) 1 ls k m
      ({ s with message := r.2, dataCount := s.dataCount - 1, counters := r.1 }, .ok (r.2, d))

/-- A numpy array of integers: its shape and its values. -/
structure Arr where
  shape : List Nat
  vals : List Int
  deriving DecidableEq, Repr

/-- The test `discr_data.min() < 0 or discr_data.max() > (1 << data_prec) - 1` fails
(codec.py:584).  (`min` of an empty array raises the same `ValueError`.) -/
def arrInRange (prec : Nat) (d : Arr) : Bool :=
  !d.vals.isEmpty && d.vals.all (fun v => decide (0 ≤ v) && decide (v ≤ 2 ^ prec - 1))

/-- The test `discr_data.shape == self.data_shape` (codec.py:590). -/
def arrShapeOk (shape : List Nat) (d : Arr) : Bool := decide (d.shape = shape)

/-- Encode a sequence of data points; stops at the first exception. -/
def encodeAll (S : Setup M D R Λ P I) (inRange shapeOk : D → Bool) :
    List D → State M → State M × Except Err Unit
  | [], s => (s, .ok ())
  | d :: ds, s =>
    match encode S inRange shapeOk s d with
    | (s, .error e) => (s, .error e)
    | (s, .ok _) => encodeAll S inRange shapeOk ds s

/-- Decode `n` data points; stops at the first exception. -/
def decodeN (S : Setup M D R Λ P I) : Nat → State M → State M × Except Err (List D)
  | 0, s => (s, .ok [])
  | n + 1, s =>
    match decode S s with
    | (s, .error e) => (s, .error e)
    | (s, .ok (_, d)) =>
      match decodeN S n s with
      | (s, .error e) => (s, .error e)
      | (s, .ok ds) => (s, .ok (d :: ds))

/-- Sum of a counter over all steps, `push_bytes.sum()`. -/
def total (steps : Nat) (f : Nat → Int) : Int := ∑ k ∈ Finset.range (steps + 1), f k

/-! ### Checkpoints (codec.py:646-676) -/

/-- Values stored in a state dict. -/
inductive Value (F : Type)
  | flat (f : F)
  | int (n : Int)
  | arr (f : Nat → Int)

/-- The attributes of the instance, by name; attributes that the class does not use are kept in
`other`. -/
structure Attrs (M : Type) where
  st : State M
  other : List (String × Int)

/-- `state_dict` (codec.py:646-661), with `flatten` for `cs.flatten`. -/
def stateDict {F : Type} (flatten : M → F) (a : Attrs M) : List (String × Value F) :=
  [("flat_message", .flat (flatten a.st.message)), ("data_count", .int a.st.dataCount),
   ("extr_bytes", .int a.st.extraBytes), ("push_bytes", .arr a.st.counters.push),
   ("pop_bytes", .arr a.st.counters.pop), ("initial_bytes", .int a.st.initialBytes)]

/-- `setattr(self, key, value)` (codec.py:676); values of an unexpected type are ignored here. -/
def setAttr {F : Type} (a : Attrs M) (key : String) (v : Value F) : Attrs M :=
  match v with
  | .flat _ => a
  | .int n =>
    if key = "data_count" then { a with st := { a.st with dataCount := n } }
    else if key = "extra_bytes" then { a with st := { a.st with extraBytes := n } }
    else if key = "initial_bytes" then { a with st := { a.st with initialBytes := n } }
    else { a with other := (key, n) :: a.other }
  | .arr f =>
    if key = "push_bytes" then { a with st := { a.st with counters := { a.st.counters with push := f } } }
    else if key = "pop_bytes" then { a with st := { a.st with counters := { a.st.counters with pop := f } } }
    else a

/-- One turn of the loop of `load_state_dict` (codec.py:672-676). -/
def loadKey {F : Type} (unflatten : F → M) (a : Attrs M) (key : String) (v : Value F) : Attrs M :=
  if key = "flat_message" then
    match v with
    | .flat f => { a with st := { a.st with message := unflatten f } }
    | _ => a
  else setAttr a key v

/-- `load_state_dict` (codec.py:663-676), with `unflatten` for `cs.unflatten(., data_shape)`. -/
def loadStateDict {F : Type} (unflatten : F → M) : List (String × Value F) → Attrs M → Attrs M
  | [], a => a
  | (key, v) :: rest, a => loadStateDict unflatten rest (loadKey unflatten a key v)

/-- `statistics` (codec.py:616-644): `samples` and the byte counts that are divided by
`data_count * data_size`: total, used, effective. -/
def statistics (nbytes : M → Nat) (batch : Int) (s : State M) : Int × Int × Int × Int :=
  (s.dataCount * batch, nbytes s.message, nbytes s.message - s.initialBytes + s.extraBytes,
   nbytes s.message - s.initialBytes)

end Verif.Diffusion
