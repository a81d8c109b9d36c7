import Verif.Diffusion.Model
import Mathlib.Data.Rat.Defs
import Mathlib.Algebra.Field.Rat

/-!
Model of the rates that the diffusion codec reports:
`/repo/projects/bits_back_diffusion/bits_back_diffusion/codec.py:251-266`, `306-315`, `616-644`.

Simplification: floating point division is exact division of rational numbers; the counters are integers.
-/

namespace Verif.Diffusion

variable {M D R Λ P I : Type}

/-- A new codec: `codec.py:251-266`, with the random message `m`. -/
def fresh (S : Setup M D R Λ P I) (m : M) : State M := ⟨m, 0, 0, ⟨fun _ => 0, fun _ => 0⟩, S.nbytes m⟩

/-- `_bytes_to_bpd` for an integer: `codec.py:306-315`; `none` is the `ZeroDivisionError`. -/
def bytesToBpd (dataCount dataSize nbytes : Int) : Option ℚ :=
  if dataCount * dataSize = 0 then none else some ((8 * nbytes : Int) / (dataCount * dataSize : Int) : ℚ)

/-- `CodecStats`: `codec.py:27-33`. -/
structure Stats where
  samples : Int
  total : ℚ
  used : ℚ
  effective : ℚ
  push : Option (Nat → ℚ)
  pop : Option (Nat → ℚ)

/-- `statistics`: `codec.py:616-644`, for data of shape `[b, c, h, w]` (`data_size` is their product: `codec.py:238`). -/
def stats (S : Setup M D R Λ P I) (b c h w : Nat) (s : State M) : Option Stats := do
  let size : Int := b * c * h * w
  let r := statistics S.nbytes b s
  let total ← bytesToBpd s.dataCount size r.2.1
  let used ← bytesToBpd s.dataCount size r.2.2.1
  let effective ← bytesToBpd s.dataCount size r.2.2.2
  let each := fun (f : Nat → Int) (k : Nat) => ((8 * f k : Int) / (s.dataCount * size : Int) : ℚ)
  return ⟨r.1, total, used, effective, if S.track then some (each s.counters.push) else none,
    if S.track then some (each s.counters.pop) else none⟩

/-- What a user does. -/
inductive Op (D : Type)
  | encode (d : D)
  | decode

/-- The state after a call, whether it raises or not: `codec.py:572-614`. -/
def applyOp (S : Setup M D R Λ P I) (inRange shapeOk : D → Bool) (s : State M) : Op D → State M
  | .encode d => (encode S inRange shapeOk s d).1
  | .decode => (decode S s).1

end Verif.Diffusion
