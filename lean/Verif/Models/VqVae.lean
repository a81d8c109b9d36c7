import Verif.Models.Hific

/-!
Model of the shapes of the VQ-VAE autoencoder, `/repo/neuralcompression/models/_vqvae_xcit_autoencoder.py`, and of the
projector, `/repo/neuralcompression/models/_vqvae_projector.py`.

A tensor is its shape.  Layers are built by the constructors with their numbers of channels, and
raise when they get other shapes.  The bottleneck keeps the shape of the latent, as the vector quantiser does.
-/

namespace Verif.Models.VqVae

/-- `ValueError`, `RuntimeError`, `NameError`. -/
inductive Err | value | runtime | name
deriving DecidableEq, Repr

/-- Number of images, channels, height and width. -/
structure Shape where
  n : ℕ
  c : ℕ
  h : ℕ
  w : ℕ
deriving DecidableEq, Repr

/-- The normalisations. -/
inductive Norm | group | channel | channelLast | other
deriving DecidableEq, Repr

/-- The arguments: `_vqvae_xcit_autoencoder.py:456-472`. -/
structure Config where
  ch : ℕ
  outCh : ℕ
  chMult : List ℕ
  resBlocks : ℕ
  attnRes : List ℕ
  withConv : Bool
  inChannels : ℕ
  resolution : ℕ
  embedDim : ℕ
  norm : Norm

/-! ### Layers -/

/-- `Conv2d(cin, cout, k, stride=s, padding=p)`. -/
def conv (cin cout k s p : ℕ) (x : Shape) : Except Err Shape :=
  if x.c ≠ cin ∨ x.h + 2 * p < k ∨ x.w + 2 * p < k then .error .runtime
  else .ok ⟨x.n, cout, (x.h + 2 * p - k) / s + 1, (x.w + 2 * p - k) / s + 1⟩

/-- A normalisation of `c` channels: `Normalize` (`_vqvae_xcit_autoencoder.py:47-49`), `ChannelNorm2D`.  Group normalisation
of torch raises `ValueError` if there is only one value for each group and pixel, whether in training or not. -/
def keep (n : Norm) (c : ℕ) (x : Shape) : Except Err Shape :=
  if n = .group ∧ x.n * x.c / 16 * x.h * x.w = 1 then .error .value
  else if x.c = c then .ok x else .error .runtime

/-- `create_norm` succeeds: `_vqvae_xcit_autoencoder.py:52-58`, `/repo/neuralcompression/layers/_channel_norm.py:33-36`. -/
def createNorm (n : Norm) (c : ℕ) : Except Err Unit :=
  match n with
  | .group => if c % 16 = 0 then .ok () else .error .value
  | .channel => if c ≤ 1 then .error .value else .ok ()
  | _ => .error .value

/-- `_Upsample.forward`: `_vqvae_xcit_autoencoder.py:70-74`. -/
def upsample (withConv : Bool) (c : ℕ) (x : Shape) : Except Err Shape :=
  let y : Shape := ⟨x.n, x.c, 2 * x.h, 2 * x.w⟩
  if withConv then conv c c 3 1 1 y else .ok y

/-- `_Downsample.forward`: `_vqvae_xcit_autoencoder.py:87-94`; pooling of less than two values raises. -/
def downsample (withConv : Bool) (c : ℕ) (x : Shape) : Except Err Shape :=
  if withConv then conv c c 3 2 0 ⟨x.n, x.c, x.h + 1, x.w + 1⟩
  else if x.h < 2 ∨ x.w < 2 then .error .runtime else .ok ⟨x.n, x.c, (x.h - 2) / 2 + 1, (x.w - 2) / 2 + 1⟩

/-- `x + h`. -/
def add (x h : Shape) : Except Err Shape := if x = h then .ok h else .error .runtime

/-- `_ResnetBlock.forward`: `_vqvae_xcit_autoencoder.py:131-148`; the shortcut is the convolution of size 1, as the models
always use. -/
def resBlock (n : Norm) (cin cout : ℕ) (x : Shape) : Except Err Shape := do
  let h ← keep n cin x
  let h ← conv cin cout 3 1 1 h
  let h ← keep n cout h
  let h ← conv cout cout 3 1 1 h
  let x ← if cin ≠ cout then conv cin cout 1 1 0 x else .ok x
  add x h

/-- `_AttnBlock.forward`: `_vqvae_xcit_autoencoder.py:165-171`. -/
def attnBlock (n : Norm) (c : ℕ) (x : Shape) : Except Err Shape := do
  let h ← keep n c x
  add x h

/-! ### Networks -/

/-- `norm_type` of all blocks: `_vqvae_xcit_autoencoder.py:202-203, 311-313`. -/
def blockNorm (cfg : Config) : Norm := if cfg.norm = .channelLast then .group else cfg.norm

/-- `last_norm`: `_vqvae_xcit_autoencoder.py:311-315`. -/
def lastNorm (cfg : Config) : Norm := if cfg.norm = .channelLast then .channel else cfg.norm

/-- A level: residual blocks with their channels, channels of the attention blocks, channels of the resampling. -/
structure Level where
  block : List (ℕ × ℕ)
  attn : List ℕ
  resample : Option ℕ

/-- A constructor in a loop: residual blocks, and attention blocks if the resolution has them; the result is also the
number of channels after them: `_vqvae_xcit_autoencoder.py:218-229, 362-373`. -/
def buildBlocks (norm : Norm) (attention : Bool) (cout : ℕ) : ℕ → ℕ → Except Err (List (ℕ × ℕ) × List ℕ × ℕ)
  | 0, cin => .ok ([], [], cin)
  | n + 1, cin => do
    createNorm norm cin
    createNorm norm cout
    if attention then createNorm norm cout
    let (bs, as, last) ← buildBlocks norm attention cout n cout
    .ok ((cin, cout) :: bs, (if attention then cout :: as else as), last)

/-- The levels of the encoder; the result is also the number of channels and the resolution after them:
`_vqvae_xcit_autoencoder.py:210-236`. -/
def encLevels (cfg : Config) : ℕ → ℕ → ℕ → List ℕ → Except Err (List Level × ℕ × ℕ)
  | res, _, cur, [] => .ok ([], cur, res)
  | res, m0, _, m :: ms => do
    let (bs, as, last) ← buildBlocks (blockNorm cfg) (cfg.attnRes.contains res) (cfg.ch * m) cfg.resBlocks (cfg.ch * m0)
    if ms = [] then .ok ([⟨bs, as, none⟩], last, res)
    else do
      let (ls, c, r) ← encLevels cfg (res / 2) m last ms
      .ok (⟨bs, as, some last⟩ :: ls, c, r)

/-- The middle: `_vqvae_xcit_autoencoder.py:239-253, 340-354`. -/
def mid (n : Norm) (c : ℕ) (x : Shape) : Except Err Shape := do
  let h ← resBlock n c c x
  let h ← attnBlock n c h
  resBlock n c c h

/-- An encoder or decoder: its levels and the number of channels after them. -/
structure Net where
  levels : List Level
  c : ℕ

/-- The constructor of the encoder: `_vqvae_xcit_autoencoder.py:188-263`. -/
def buildEncoder (cfg : Config) : Except Err Net := do
  if cfg.chMult = [] then .error .name
  else do
    let (ls, c, _) ← encLevels cfg cfg.resolution 1 cfg.ch cfg.chMult
    createNorm (blockNorm cfg) c
    .ok ⟨ls, c⟩

/-- The blocks of a level: `_vqvae_xcit_autoencoder.py:269-273, 400-403`; the second list are the
remaining attention blocks. -/
def runBlocks (n : Norm) (hasAttn : Bool) : List (ℕ × ℕ) → List ℕ → Shape → Except Err Shape
  | [], _, x => .ok x
  | b :: bs, as, x => do
    let h ← resBlock n b.1 b.2 x
    let h ← if hasAttn then (match as with | [] => .error .runtime | a :: _ => attnBlock n a h) else .ok h
    runBlocks n hasAttn bs as.tail h

/-- The levels: `_vqvae_xcit_autoencoder.py:268-275, 399-405`. -/
def runLevels (n : Norm) (resample : ℕ → Shape → Except Err Shape) : List Level → Shape → Except Err Shape
  | [], x => .ok x
  | l :: ls, x => do
    let h ← runBlocks n (!l.attn.isEmpty) l.block l.attn x
    let h ← match l.resample with | some c => resample c h | none => .ok h
    runLevels n resample ls h

/-- `_VqVaeXCiTConvEncoder.forward`: `_vqvae_xcit_autoencoder.py:265-286`. -/
def encode (cfg : Config) (n : Net) (x : Shape) : Except Err Shape := do
  let h ← conv cfg.inChannels cfg.ch 3 1 1 x
  let h ← runLevels (blockNorm cfg) (downsample cfg.withConv) n.levels h
  let h ← mid (blockNorm cfg) n.c h
  let h ← keep (blockNorm cfg) n.c h
  conv n.c cfg.embedDim 3 1 1 h

/-- The levels of the decoder, in the order in which they run (the last level first): `_vqvae_xcit_autoencoder.py:358-380`. -/
def decLevels (cfg : Config) : ℕ → ℕ → List ℕ → Except Err (List Level × ℕ)
  | _, cur, [] => .ok ([], cur)
  | res, cur, m :: ms => do
    let (bs, as, last) ← buildBlocks (blockNorm cfg) (cfg.attnRes.contains res) (cfg.ch * m) (cfg.resBlocks + 1) cur
    if ms = [] then .ok ([⟨bs, as, none⟩], last)
    else do
      let (ls, c) ← decLevels cfg (res * 2) last ms
      .ok (⟨bs, as, some last⟩ :: ls, c)

/-- `resolution // 2 ** (num_resolutions - 1)`: `_vqvae_xcit_autoencoder.py:326`. -/
def lowest (cfg : Config) : ℕ := cfg.resolution / 2 ^ (cfg.chMult.length - 1)

/-- The constructor of the decoder: `_vqvae_xcit_autoencoder.py:304-386`; `c` is the number of channels of the output
layers. -/
def buildDecoder (cfg : Config) : Except Err Net := do
  match cfg.chMult.reverse with
  | [] => .error .name
  | m :: ms => do
    createNorm (blockNorm cfg) (cfg.ch * m)
    let (ls, c) ← decLevels cfg (lowest cfg) (cfg.ch * m) (m :: ms)
    createNorm (lastNorm cfg) c
    .ok ⟨ls, c⟩

/-- `_VqvaeXCiTConvDecoder.forward`: `_vqvae_xcit_autoencoder.py:388-411`. -/
def decode (cfg : Config) (n : Net) (z : Shape) : Except Err Shape := do
  let block := cfg.ch * cfg.chMult.reverse.headD 0
  let h ← conv cfg.embedDim block 3 1 1 z
  let h ← mid (blockNorm cfg) block h
  let h ← runLevels (blockNorm cfg) (upsample cfg.withConv) n.levels h
  let h ← keep (lastNorm cfg) n.c h
  conv n.c cfg.outCh 3 1 1 h

/-- The autoencoder. -/
structure Model where
  enc : Net
  dec : Net

/-- The constructor: `_vqvae_xcit_autoencoder.py:473-509`. -/
def build (cfg : Config) : Except Err Model := do
  let e ← buildEncoder cfg
  let d ← buildDecoder cfg
  .ok ⟨e, d⟩

/-- `factor`: `_vqvae_xcit_autoencoder.py:482`. -/
def factor (cfg : Config) : ℕ := 2 ^ (cfg.chMult.length - 1)

/-- Reflection padding raises unless it is less than the size. -/
def reflect (ph pw : ℕ) (x : Shape) : Except Err Shape :=
  if ph < x.h ∧ pw < x.w then .ok ⟨x.n, x.c, x.h + ph, x.w + pw⟩ else .error .runtime

/-- `[:, :, :height, :width]`. -/
def crop (h w : ℕ) (x : Shape) : Shape := ⟨x.n, x.c, min x.h h, min x.w w⟩

/-- The padding in evaluation mode, `_vqvae_xcit_autoencoder.py:540-545`; its amount is that of `Hific.vqvaePad`. -/
def padded (cfg : Config) (training : Bool) (x : Shape) : Except Err Shape :=
  let ph := (Hific.vqvaePad (factor cfg) x.h).toNat
  let pw := (Hific.vqvaePad (factor cfg) x.w).toNat
  if training = false ∧ (ph ≠ 0 ∨ pw ≠ 0) then reflect ph pw x else .ok x

/-- `VqVaeXCiTAutoencoder.forward`: `_vqvae_xcit_autoencoder.py:540-554`: shapes of latent and image. -/
def forward (cfg : Config) (m : Model) (training : Bool) (x : Shape) : Except Err (Shape × Shape) := do
  let y ← padded cfg training x
  let z ← encode cfg m.enc y
  let i ← decode cfg m.dec z
  .ok (z, crop x.h x.w i)

/-- The number of indices that the projector returns: `_vqvae_projector.py:44-50`. -/
def project (cfg : Config) (m : Model) (x : Shape) : Except Err ℕ := do
  let z ← encode cfg m.enc x
  .ok (z.n * (z.h * z.w))

end Verif.Models.VqVae
