import Verif.Vct.Patcher

/-!
# The video pipeline

Models `projects/torch_vct/model_pipeline.py` (coding of the scenes, padding, sizes) together with the size
behaviour of `projects/torch_vct/neural/transforms.py`.  Networks are arbitrary functions.
-/

namespace Verif.Vct.Pipe

/-! ### Temporal context -/

/-- model_pipeline.py: `Bottleneck` (likelihood left out; it does not influence the state). -/
structure Bottleneck (Lat Feat : Type) where
  latentQ : Lat
  features : Feat

/-- entropy_model.py `PreviousLatent(quantized, processed)`. -/
abbrev Prev (Lat Proc : Type) := Lat × Proc

/-- The networks of the pipeline: the fake previous latent (model_pipeline.py:212), processing of a previous
latent (entropy_model.py:204-235), the entropy model's output for scene number `i` given the context it
extracts from the state (entropy_model.py:333-455 and 457-530; deterministic as in evaluation mode, and the
compressed path returns the same latent, see C25), and the dequantizer (model_pipeline.py:134-152). -/
structure Nets (Scene Lat Feat Proc Rec : Type) where
  fake : Scene → Lat
  process : Lat → Proc
  entropy : ℕ → Scene → List Proc → Bottleneck Lat Feat
  dequantize : Lat → Feat → Rec

/-- Python's `l[0 - k:]` for `k ≥ 0` (model_pipeline.py:318): for `k = 0` this is `l[0:]`, the whole tuple. -/
def sliceLast {α : Type} (k : ℕ) (l : List α) : List α := if k = 0 then l else l.drop (l.length - k)

/-- entropy_model.py:300-331 `_get_encoded_seqs` of an entropy model with context length `k`; the
`ValueError` at line 330 is constructed but not raised. -/
def encodedSeqs {Proc : Type} (k : ℕ) (seqs : List Proc) : List Proc :=
  if seqs.length < k then
    if k = 2 then seqs ++ seqs
    else if k = 3 then
      if seqs.length = 1 then seqs ++ seqs ++ seqs
      else seqs.take 1 ++ seqs.take 1 ++ (seqs.drop 1).take 1
    else seqs
  else seqs

/-- The context length of the pipeline's entropy model: model_pipeline.py:184 does not pass the pipeline's
own value on, so it is the default of entropy_model.py:73. -/
def entropyContextLen : ℕ := 2

variable {Scene Lat Feat Proc Rec : Type}

/-- model_pipeline.py:287-303 `decode_Iscene`. -/
def decodeI (n : Nets Scene Lat Feat Proc Rec) (b : Bottleneck Lat Feat) : Rec × List (Prev Lat Proc) :=
  (n.dequantize b.latentQ b.features, [(b.latentQ, n.process b.latentQ)])

/-- model_pipeline.py:306-321 `decode_Pscene`. -/
def decodeP (n : Nets Scene Lat Feat Proc Rec) (ctxLen : ℕ) (b : Bottleneck Lat Feat)
    (state : List (Prev Lat Proc)) : Rec × List (Prev Lat Proc) :=
  (n.dequantize b.latentQ b.features, sliceLast ctxLen (state ++ [(b.latentQ, n.process b.latentQ)]))

/-- What the entropy model extracts from the state (entropy_model.py:352, 484). -/
def context (state : List (Prev Lat Proc)) : List Proc := encodedSeqs entropyContextLen (state.map (·.2))

/-- model_pipeline.py:197-229 `encode_Iscene`: new state and bottleneck. -/
def encodeI (n : Nets Scene Lat Feat Proc Rec) (scene : Scene) :
    List (Prev Lat Proc) × Bottleneck Lat Feat :=
  let f := n.fake scene
  let b := n.entropy 0 scene (context [(f, n.process f)])
  ((decodeI n b).2, b)

/-- model_pipeline.py:232-266 `encode_Pscene`. -/
def encodeP (n : Nets Scene Lat Feat Proc Rec) (ctxLen : ℕ) (scene : Scene) (index : ℕ)
    (state : List (Prev Lat Proc)) : List (Prev Lat Proc) × Bottleneck Lat Feat :=
  let b := n.entropy index scene (context state)
  ((decodeP n ctxLen b state).2, b)

/-- The loop of model_pipeline.py:268-283 from scene number `index` on; the state after every scene is kept
beside what the code yields. -/
def encodeFrom (n : Nets Scene Lat Feat Proc Rec) (ctxLen : ℕ) :
    ℕ → List (Prev Lat Proc) → List Scene → List (List (Prev Lat Proc) × Bottleneck Lat Feat)
  | _, _, [] => []
  | index, state, s :: rest =>
    let r := if index = 0 then encodeI n s else encodeP n ctxLen s index state
    r :: encodeFrom n ctxLen (index + 1) r.1 rest

/-- model_pipeline.py:268-283 `encode_scenes`. -/
def encodeScenes (n : Nets Scene Lat Feat Proc Rec) (ctxLen : ℕ) (scenes : List Scene) :
    List (List (Prev Lat Proc) × Bottleneck Lat Feat) := encodeFrom n ctxLen 0 [] scenes

/-- The loop of model_pipeline.py:324-339. -/
def decodeFrom (n : Nets Scene Lat Feat Proc Rec) (ctxLen : ℕ) :
    ℕ → List (Prev Lat Proc) → List (Bottleneck Lat Feat) → List (List (Prev Lat Proc) × Rec)
  | _, _, [] => []
  | index, state, b :: rest =>
    let r := if index = 0 then decodeI n b else decodeP n ctxLen b state
    (r.2, r.1) :: decodeFrom n ctxLen (index + 1) r.2 rest

/-- model_pipeline.py:324-339 `decode_scenes`. -/
def decodeScenes (n : Nets Scene Lat Feat Proc Rec) (ctxLen : ℕ) (bs : List (Bottleneck Lat Feat)) :
    List (List (Prev Lat Proc) × Rec) := decodeFrom n ctxLen 0 [] bs

/-- The contexts the entropy model is given, scene by scene: for the first scene the fake latent, then the
state before the scene. -/
def contexts (n : Nets Scene Lat Feat Proc Rec) (ctxLen : ℕ) (scenes : List Scene) : List (List Proc) :=
  match scenes with
  | [] => []
  | s :: rest =>
    context [(n.fake s, n.process (n.fake s))] ::
      ((encodeScenes n ctxLen (s :: rest)).map fun r => context r.1).take rest.length

/-! ### Sizes -/

/-- Exceptions of the size computation. -/
inductive SizeErr
  /-- `RuntimeError` of reflection padding (padding not smaller than the axis). -/
  | pad
  /-- `AssertionError` "Can't reshape!" (transforms.py:198, 276). -/
  | chunk
  deriving DecidableEq

/-- Output size of `nn.Conv2d(kernel_size=k, stride=s, padding=p)` along one axis (floor formula). -/
def convOut (k s p n : ℕ) : ℕ := (n + 2 * p - k) / s + 1

/-- Output size of `nn.ConvTranspose2d(kernel_size=k, stride=s, padding=p, output_padding=o)`. -/
def deconvOut (k s p o n : ℕ) : ℕ := (n - 1) * s + k + o - 2 * p

/-- layers_utils.py:13-25 `make_conv` on one axis. -/
def makeConv (k s n : ℕ) : ℕ := convOut k s (k / 2) n

/-- layers_utils.py:28-41 `make_deconv` on one axis. -/
def makeDeconv (k s n : ℕ) : ℕ := deconvOut k s (k / 2) (s - 1) n

/-- Sizes through `ResidualUnit` (transforms.py:115-134): kernels 1, 3, 1 with stride 1, added to the input. -/
def residualUnit (n : ℕ) : ℕ := makeConv 1 1 (makeConv 3 1 (makeConv 1 1 n))

/-- The two transform families. -/
inductive Transform
  /-- `ConvGDNAnalysis`/`ConvGDNSynthesis` -/
  | convGDN
  /-- `ELICAnalysis`/`ELICSynthesis` with `num_residual_blocks` residual units per stage and `max_frames` -/
  | elic (blocks : ℕ) (maxFrames : Option ℕ)

/-- `getattr(analysis_transform, "num_downsampling_layers", 0)`: only `ConvGDNAnalysis` has it
(transforms.py:44-46). -/
def Transform.numDown : Transform → ℕ
  | .convGDN => 4
  | .elic _ _ => 0

/-- Sizes through the analysis transform (transforms.py:30-38 and 177-187; GDN and the attention blocks of
compressai keep sizes). -/
def Transform.analysis : Transform → ℕ → ℕ
  | .convGDN, n => makeConv 5 2 (makeConv 5 2 (makeConv 5 2 (makeConv 5 2 n)))
  | .elic r _, n =>
    let u := residualUnit^[r]
    makeConv 5 2 (u (makeConv 5 2 (u (makeConv 5 2 (u (makeConv 5 2 n))))))

/-- Sizes through the synthesis transform before its crop (transforms.py:78-88 and 245-255). -/
def Transform.synthesis : Transform → ℕ → ℕ
  | .convGDN, n => makeDeconv 5 2 (makeDeconv 5 2 (makeDeconv 5 2 (makeDeconv 5 2 n)))
  | .elic r _, n =>
    let u := residualUnit^[r]
    makeDeconv 5 2 (u (makeDeconv 5 2 (u (makeDeconv 5 2 (u (makeDeconv 5 2 n))))))

/-- transforms.py:197-203, 275-281: chunking of the `B*T` frames. -/
def Transform.chunkOk : Transform → ℕ → Bool
  | .convGDN, _ => true
  | .elic _ none, _ => true
  | .elic _ (some m), bt => if m < bt then bt % m = 0 else true

/-- model_pipeline.py:371-395 `_pad`: amount for one axis (the entropy model has no
`num_downsampling_layers`). -/
def padAmount (t : Transform) (n : ℕ) : ℕ :=
  let factor := 2 ^ (t.numDown + 0)
  (factor - n % factor) % factor

/-- One axis of `F.pad(..., "reflect")` with padding only at the end; PyTorch wants it below the size. -/
def padAxis (amount n : ℕ) : Except SizeErr ℕ := if amount < n then .ok (n + amount) else .error .pad

/-- Sizes through the entropy model on one axis: the latent is patched for the encoder (window 8) and the
decoder (window 4) with stride 4 and un-patched to its own size.  The padding inside raises as in
`padReflect`. -/
def entropyAxis (n : ℕ) : Except SizeErr ℕ :=
  let m := (8 - 4) / 2
  let right := ceilDiv n 4 * 4 - n
  if m < n ∧ right + m < n ∧ right < n then .ok n else .error .pad

/-- model_pipeline.py:397-444 `forward`: output size along one axis (height or width) of a `B*T`-frame video;
`training` skips padding and the final crop (the synthesis transform still crops to the video's size). -/
def forwardAxis (t : Transform) (training : Bool) (bt n : ℕ) : Except SizeErr ℕ := do
  let padded ← if training then .ok n else padAxis (padAmount t n) n
  if t.chunkOk bt then
    let latent ← entropyAxis (t.analysis padded)
    let out := min n (t.synthesis latent)
    return if training then out else min n out
  else .error .chunk

/-- transforms.py:193-205 (ELIC analysis) on the list of the `B*T` frames: in chunks if `max_frames` is set
and exceeded.  `net` is the transform of one frame; a chunk is processed frame by frame. -/
def chunked {α β : Type} (maxFrames : Option ℕ) (net : α → β) (frames : List α) : Except SizeErr (List β) :=
  match maxFrames with
  | some m =>
    if m < frames.length then
      if frames.length % m = 0 then
        .ok (((List.range (frames.length / m)).map fun i => ((frames.drop (i * m)).take m).map net).flatten)
      else .error .chunk
    else .ok (frames.map net)
  | none => .ok (frames.map net)

end Verif.Vct.Pipe
