import Init.Data.Nat.Power2.Lemmas
import Mathlib.Data.Nat.Notation
import Mathlib.Data.Int.Notation

/-!
Model of `/repo/neuralcompression/models/_unet_discriminator.py`: the construction of the levels and the shapes that
flow through them.

Simplifications: a tensor is its number of channels, height and width. A convolution raises if the number of channels
is not the one it was made for. Normalisation and activation keep the shape.
-/

namespace Verif.Models.Unet

/-- What the code raises. -/
inductive Err where
  /-- `ValueError`. -/
  | value
  /-- `RuntimeError` of torch: wrong number of channels, empty image, sizes that do not match. -/
  | runtime
  deriving DecidableEq, Repr

/-- Channels, height, width. -/
structure Shape where
  chans : ℕ
  height : ℕ
  width : ℕ
  deriving DecidableEq, Repr

/-- What the constructor of a level keeps: `_unet_discriminator.py:72-80`. -/
structure Level where
  inPlanes : ℕ
  downPlanes : ℕ
  outPlanes : ℕ
  clip : Bool
  deriving DecidableEq, Repr

/-- `_UnetLevel.__init__`: `_unet_discriminator.py:62-80`; `out_planes` defaults to `in_planes`. -/
def Level.make (inPlanes downPlanes : ℕ) (outPlanes : Option ℕ) (clip : Bool) : Level :=
  { inPlanes, downPlanes, outPlanes := outPlanes.getD inPlanes, clip }

/-- A convolution of stride one that keeps the size. -/
def conv (cin cout : ℕ) (x : Shape) : Except Err Shape :=
  if x.chans ≠ cin then .error .runtime else .ok { x with chans := cout }

/-- `nn.AvgPool2d(2)`: raises if the result is empty. -/
def pool (x : Shape) : Except Err Shape :=
  if x.height / 2 = 0 ∨ x.width / 2 = 0 then .error .runtime
  else .ok { x with height := x.height / 2, width := x.width / 2 }

/-- `nn.Upsample(scale_factor=2)`. -/
def upsample (x : Shape) : Shape := { x with height := 2 * x.height, width := 2 * x.width }

/-- `left_block(image) + left_shortcut(image)`: `_unet_discriminator.py:89-116`, `153`. -/
def Level.down (l : Level) (x : Shape) : Except Err Shape := do
  let a ← conv l.inPlanes l.downPlanes x
  let a ← conv l.downPlanes l.downPlanes a
  let a ← pool a
  let b ← if l.inPlanes ≠ l.downPlanes then conv l.inPlanes l.downPlanes x else .ok x
  let b ← pool b
  if a ≠ b then .error .runtime else return a

/-- `right_block(image) + right_shortcut(image)`: `_unet_discriminator.py:118-150`, `154`. A clipped level adds the
number zero. -/
def Level.up (l : Level) (x : Shape) : Except Err Shape :=
  if l.clip then .ok x
  else do
    let a ← conv l.downPlanes l.outPlanes (upsample x)
    let a ← conv l.outPlanes l.outPlanes a
    let b ← if l.downPlanes ≠ l.outPlanes then conv l.downPlanes l.outPlanes x else .ok x
    if a ≠ upsample b then .error .runtime else return a

/-- `_UnetLevel.forward`: `_unet_discriminator.py:152-154`. The levels are given from the outermost to the innermost;
the innermost child is `nn.Identity()`. -/
def run : List Level → Shape → Except Err Shape
  | [], x => .ok x
  | l :: ls, x => do
    let x ← l.down x
    let x ← run ls x
    l.up x

/-- The state of the loop that builds the levels: the model so far (outermost level first), `lastchan` and
`clip_upsample`: `_unet_discriminator.py:213-216`. -/
structure Build where
  levels : List Level
  lastchan : ℕ
  clip : Bool

/-- One iteration of the loop: `_unet_discriminator.py:217-229`. -/
def Build.step (numUp : ℤ) (b : Build) (count chan : ℕ) : Build :=
  let clip := if (count : ℤ) = numUp then true else b.clip
  { levels := Level.make chan b.lastchan (if (count : ℤ) = numUp - 1 then some 64 else none) clip :: b.levels
    lastchan := chan
    clip }

/-- The loop: `_unet_discriminator.py:217-229`. -/
def Build.loop (numUp : ℤ) : Build → ℕ → List ℕ → Build
  | b, _, [] => b
  | b, count, chan :: rest => Build.loop numUp (b.step numUp count chan) (count + 1) rest

/-- `self.channels[1:-1]` reversed: `_unet_discriminator.py:217`. -/
def inner (chans : List ℕ) : List ℕ := chans.tail.dropLast.reverse

/-- The default channels: `_unet_discriminator.py:209`. -/
def defaultChans : List ℕ := [3, 128, 128, 256, 256, 512, 512]

/-- `UnetDiscriminator.__init__`: `_unet_discriminator.py:190-241`. The list of channels must not be empty
(`IndexError` otherwise, not modelled). -/
def init (factor : ℕ) (chans : List ℕ) : Except Err (List Level) :=
  if ¬ (factor &&& (factor - 1) = 0 ∧ factor ≠ 0) then .error .value
  else
    let numDown := Nat.log2 factor
    let numUp : ℤ := (chans.length : ℤ) - 1 - numDown
    let b := Build.loop numUp { levels := [], lastchan := chans.getLast?.getD 0, clip := false } 0 (inner chans)
    .ok (Level.make (chans.head?.getD 0) b.lastchan (some 64) b.clip :: b.levels)

/-- `UnetDiscriminator.forward`: `_unet_discriminator.py:241`, `247-248`. -/
def forward (levels : List Level) (outputChannels : ℕ) (image : Shape) : Except Err Shape := do
  let x ← run levels image
  conv 64 outputChannels x

/-- Constructing a discriminator and applying it. -/
def discriminate (outputChannels factor : ℕ) (chans : List ℕ) (image : Shape) : Except Err Shape := do
  let levels ← init factor chans
  forward levels outputChannels image

/-- `ConditionalUnetDiscriminator`: `_unet_discriminator.py:291-338`: the context is convolved (its reflection
padding needs two pixels in each direction), resized to the image and appended to its channels. -/
def discriminateConditional (outputChannels factor contextIn contextOut : ℕ) (chans : Option (List ℕ))
    (image context : Shape) : Except Err Shape := do
  let unetChans := chans.getD [3 + contextOut, 128, 128, 256, 256, 512, 512]
  let levels ← init factor unetChans
  if context.height < 2 ∨ context.width < 2 then .error .runtime
  let c ← conv contextIn contextOut context
  forward levels outputChannels { image with chans := image.chans + c.chans }

end Verif.Models.Unet
