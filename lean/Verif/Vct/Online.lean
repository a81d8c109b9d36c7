import Verif.Vct.Pipeline
import Verif.Vct.Memoize

/-!
# One pass of the video pipeline with its generators, its cache and its memory

Models `projects/torch_vct/model_pipeline.py:196-366`: encoder and decoder are generators that run interleaved over a duplicated
iterator, and both call `decode_Iscene` and `decode_Pscene` through a cache whose keys contain the identities of tensors.  An
identity may be given to a new tensor as soon as nothing refers to the old one any more.

Simplifications: networks are functions of values and tensors are not modified in place; temporary tensors of the networks are
left out.  What keeps a tensor alive is taken as little as possible: the results in the cache, the arguments of the running call
and what it has allocated so far (in the code more is alive, for example everything that has been yielded).
-/

namespace Verif.Vct.Online

open Verif.Vct.Memo

/-- A reference to a tensor object: its identity and its value. -/
structure Ref (α : Type) where
  id : ℕ
  val : α

/-- The networks, with the likelihoods that the entropy model returns beside the latent (entropy_model.py:401-403, 529-533). -/
structure Nets (Scene Lat Feat Proc Rec Lik : Type) extends Pipe.Nets Scene Lat Feat Proc Rec where
  bits : ℕ → Scene → List Proc → Lik

/-- `Bottleneck` (model_pipeline.py:36-50). -/
structure BRef (Lat Feat Lik : Type) where
  lat : Ref Lat
  lik : Ref Lik
  feat : Ref Feat

/-- `PreviousLatent(quantized, processed)` (entropy_model.py:41-50). -/
abbrev Entry (Lat Proc : Type) := Ref Lat × Ref Proc

/-- What `decode_Iscene` and `decode_Pscene` return. -/
structure Result (Lat Proc Rec : Type) where
  recon : Ref Rec
  state : List (Entry Lat Proc)

/-- The memoised functions. -/
inductive Fn
  | decodeI
  | decodeP
  deriving DecidableEq

variable {Scene Lat Feat Proc Rec Lik : Type}

def BRef.ids (b : BRef Lat Feat Lik) : List ℕ := [b.lat.id, b.lik.id, b.feat.id]

def stateIds (s : List (Entry Lat Proc)) : List ℕ := s.flatMap fun e => [e.1.id, e.2.id]

def Result.ids (r : Result Lat Proc Rec) : List ℕ := r.recon.id :: stateIds r.state

/-- The cache of the pass (model_pipeline.py:420) and the number of allocations so far. -/
structure World (Lat Proc Rec : Type) where
  cache : Cache Fn (Result Lat Proc Rec)
  count : ℕ

/-- Identities of the tensors that the results in the cache refer to. -/
def World.held (w : World Lat Proc Rec) : List ℕ :=
  (w.cache.results .decodeI ++ w.cache.results .decodeP).flatMap fun e => e.2.ids

/-- The memory allocator: the identity of the `n`-th new tensor, given the identities that are in use. -/
abbrev Pick := ℕ → List ℕ → ℕ

/-- A new tensor. -/
def new {α : Type} (pick : Pick) (w : World Lat Proc Rec) (live : List ℕ) (v : α) : Ref α × World Lat Proc Rec :=
  (⟨pick w.count (live ++ w.held), v⟩, { w with count := w.count + 1 })

/-- The body of `decode_Iscene` (model_pipeline.py:288-303); `detach` makes a new tensor object. -/
def evalI (pick : Pick) (n : Nets Scene Lat Feat Proc Rec Lik) (b : BRef Lat Feat Lik) (w : World Lat Proc Rec) :
    Result Lat Proc Rec × World Lat Proc Rec :=
  let r := new pick w b.ids (n.dequantize b.lat.val b.feat.val)
  let d := new pick r.2 (r.1.id :: b.ids) b.lat.val
  let p := new pick d.2 (d.1.id :: r.1.id :: b.ids) (n.process d.1.val)
  (⟨r.1, [(d.1, p.1)]⟩, p.2)

/-- The body of `decode_Pscene` (model_pipeline.py:309-321); `process_previous_latent_q` keeps the latent it is given
(entropy_model.py:204-235). -/
def evalP (pick : Pick) (n : Nets Scene Lat Feat Proc Rec Lik) (ctxLen : ℕ) (b : BRef Lat Feat Lik)
    (state : List (Entry Lat Proc)) (w : World Lat Proc Rec) : Result Lat Proc Rec × World Lat Proc Rec :=
  let live := b.ids ++ stateIds state
  let r := new pick w live (n.dequantize b.lat.val b.feat.val)
  let p := new pick r.2 (r.1.id :: live) (n.process b.lat.val)
  (⟨r.1, Pipe.sliceLast ctxLen (state ++ [(b.lat, p.1)])⟩, p.2)

/-- The bottleneck as an argument of a memoised function. -/
def BRef.arg (b : BRef Lat Feat Lik) : PyVal := .tuple [.tensor b.lat.id 0, .tensor b.lik.id 0, .tensor b.feat.id 0]

/-- The state as an argument. -/
def stateArg (s : List (Entry Lat Proc)) : PyVal :=
  .tuple (s.map fun e => .tuple [.tensor e.1.id 0, .tensor e.2.id 0])

/-- The pipeline object itself, the first argument of both functions; it exists all the time. -/
def self : PyVal := .str "pipeline"

/-- `decode_Iscene(bottleneck)` (model_pipeline.py:227, 333). -/
def callI (b : BRef Lat Feat Lik) : Call Fn := ⟨.decodeI, [self, b.arg], [], none⟩

/-- `decode_Pscene(bottleneck=bottleneck, state=state, cache=cache)` (model_pipeline.py:264), the call of the encoder. -/
def callPenc (b : BRef Lat Feat Lik) (s : List (Entry Lat Proc)) : Call Fn :=
  ⟨.decodeP, [self], [("bottleneck", b.arg), ("state", stateArg s), ("cache", .cache)], none⟩

/-- `decode_Pscene(bottleneck, state=state, cache=cache)` (model_pipeline.py:336-338), the call of the decoder. -/
def callPdec (b : BRef Lat Feat Lik) (s : List (Entry Lat Proc)) : Call Fn :=
  ⟨.decodeP, [self, b.arg], [("state", stateArg s), ("cache", .cache)], none⟩

/-- A memoised call (memoize.py:108-145); `body` runs only if the key is not in the cache. -/
def callMemo (w : World Lat Proc Rec) (call : Call Fn)
    (body : World Lat Proc Rec → Result Lat Proc Rec × World Lat Proc Rec) :
    Option (Result Lat Proc Rec × World Lat Proc Rec) :=
  match callCached (fun _ _ _ => (body w).1) w.cache call with
  | none => none
  | some (r, c) =>
    some (r, ⟨c, if ((w.cache.results call.fn).lookup (keyOf call.args call.kwargs)).isSome then w.count
      else (body w).2.count⟩)

/-- The suspended generators: the encoder with the scenes it has not asked for yet, the two ends of `itertools.tee`, the
decoder. -/
structure St (Scene Lat Feat Proc Rec Lik : Type) where
  world : World Lat Proc Rec
  todo : List Scene
  encIndex : ℕ
  encState : List (Entry Lat Proc)
  outs : List (BRef Lat Feat Lik)
  outsTee : List (BRef Lat Feat Lik)
  decIndex : ℕ
  decState : List (Entry Lat Proc)

/-- The output of the entropy model, three new tensors (model_pipeline.py:217-225 and 246-260). -/
def newBottleneck (pick : Pick) (n : Nets Scene Lat Feat Proc Rec Lik) (w : World Lat Proc Rec) (live : List ℕ) (i : ℕ)
    (s : Scene) (ctx : List Proc) : BRef Lat Feat Lik × World Lat Proc Rec :=
  let o := n.entropy i s ctx
  let a := new pick w live o.latentQ
  let b := new pick a.2 (a.1.id :: live) (n.bits i s ctx)
  let c := new pick b.2 (b.1.id :: a.1.id :: live) o.features
  (⟨a.1, b.1, c.1⟩, c.2)

/-- `next` on `encode_scenes` (model_pipeline.py:268-283 with 197-266). -/
def encNext (pick : Pick) (n : Nets Scene Lat Feat Proc Rec Lik) (ctxLen : ℕ) (st : St Scene Lat Feat Proc Rec Lik) :
    Option (Option (BRef Lat Feat Lik) × St Scene Lat Feat Proc Rec Lik) :=
  match st.todo with
  | [] => some (none, st)
  | s :: rest =>
    if st.encIndex = 0 then
      let f := n.fake s
      let b := newBottleneck pick n st.world [] 0 s (Pipe.context [(f, n.process f)])
      match callMemo b.2 (callI b.1) (evalI pick n b.1) with
      | none => none
      | some r => some (some b.1, { st with world := r.2, todo := rest, encIndex := st.encIndex + 1, encState := r.1.state })
    else
      let b := newBottleneck pick n st.world (stateIds st.encState) st.encIndex s
        (Pipe.context (st.encState.map fun e => (e.1.val, e.2.val)))
      match callMemo b.2 (callPenc b.1 st.encState) (evalP pick n ctxLen b.1 st.encState) with
      | none => none
      | some r => some (some b.1, { st with world := r.2, todo := rest, encIndex := st.encIndex + 1, encState := r.1.state })

/-- `next` on `encode_outs` after `itertools.tee` (model_pipeline.py:356). -/
def outsNext (pick : Pick) (n : Nets Scene Lat Feat Proc Rec Lik) (ctxLen : ℕ) (st : St Scene Lat Feat Proc Rec Lik) :
    Option (Option (BRef Lat Feat Lik) × St Scene Lat Feat Proc Rec Lik) :=
  match st.outs with
  | b :: rest => some (some b, { st with outs := rest })
  | [] =>
    match encNext pick n ctxLen st with
    | none => none
    | some (none, st) => some (none, st)
    | some (some b, st) => some (some b, { st with outsTee := st.outsTee ++ [b] })

/-- `next` on `encode_outs_tee` (model_pipeline.py:356). -/
def teeNext (pick : Pick) (n : Nets Scene Lat Feat Proc Rec Lik) (ctxLen : ℕ) (st : St Scene Lat Feat Proc Rec Lik) :
    Option (Option (BRef Lat Feat Lik) × St Scene Lat Feat Proc Rec Lik) :=
  match st.outsTee with
  | b :: rest => some (some b, { st with outsTee := rest })
  | [] =>
    match encNext pick n ctxLen st with
    | none => none
    | some (none, st) => some (none, st)
    | some (some b, st) => some (some b, { st with outs := st.outs ++ [b] })

/-- `next` on `decode_scenes` (model_pipeline.py:324-339). -/
def decNext (pick : Pick) (n : Nets Scene Lat Feat Proc Rec Lik) (ctxLen : ℕ) (st : St Scene Lat Feat Proc Rec Lik) :
    Option (Option (Ref Rec) × St Scene Lat Feat Proc Rec Lik) :=
  match teeNext pick n ctxLen st with
  | none => none
  | some (none, st) => some (none, st)
  | some (some b, st) =>
    if st.decIndex = 0 then
      match callMemo st.world (callI b) (evalI pick n b) with
      | none => none
      | some r => some (some r.1.recon, { st with world := r.2, decIndex := st.decIndex + 1, decState := r.1.state })
    else
      match callMemo st.world (callPdec b st.decState) (evalP pick n ctxLen b st.decState) with
      | none => none
      | some r => some (some r.1.recon, { st with world := r.2, decIndex := st.decIndex + 1, decState := r.1.state })

/-- `next` on `encode_and_decode_scenes` (model_pipeline.py:342-366): `zip` asks the decoder first. -/
def passNext (pick : Pick) (n : Nets Scene Lat Feat Proc Rec Lik) (ctxLen : ℕ) (st : St Scene Lat Feat Proc Rec Lik) :
    Option (Option (Rec × Lik) × St Scene Lat Feat Proc Rec Lik) :=
  match decNext pick n ctxLen st with
  | none => none
  | some (none, st) => some (none, st)
  | some (some r, st) =>
    match outsNext pick n ctxLen st with
    | none => none
    | some (none, st) => some (none, st)
    | some (some b, st) => some (some (r.val, b.lik.val), st)

/-- The generators of a new pass with a new cache (model_pipeline.py:352-361, 420). -/
def start (scenes : List Scene) : St Scene Lat Feat Proc Rec Lik :=
  ⟨⟨createCache Fn _, 0⟩, scenes, 0, [], [], [], 0, []⟩

/-- Up to `k` times `next` on a generator; the whole loop of `forward` (model_pipeline.py:423-428) is this with any `k` above
the number of scenes. -/
def take (pick : Pick) (n : Nets Scene Lat Feat Proc Rec Lik) (ctxLen : ℕ) :
    ℕ → St Scene Lat Feat Proc Rec Lik → Option (List (Rec × Lik) × St Scene Lat Feat Proc Rec Lik)
  | 0, st => some ([], st)
  | k + 1, st =>
    match passNext pick n ctxLen st with
    | none => none
    | some (none, st) => some ([], st)
    | some (some o, st) =>
      match take pick n ctxLen k st with
      | none => none
      | some (os, st) => some (o :: os, st)

end Verif.Vct.Online
