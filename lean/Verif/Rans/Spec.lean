import Mathlib.Data.List.Forall2
import Verif.Rans.Model

/-
Specification vocabulary for the rANS properties.
-/
namespace Verif.Rans

/-- `L` non-empty slots `[lo, hi)` inside `[0, 2^p)`. -/
def ValidSlots (p L : Nat) (lo hi : List Nat) : Prop :=
  lo.length = L ∧ List.Forall₂ (fun l h => l < h ∧ h ≤ 2 ^ p) lo hi

/-- Lane by lane, `lo ≤ v < hi`. -/
def Within : List Nat → List Nat → List Nat → Prop
  | v :: vs, l :: ls, h :: hs => l ≤ v ∧ v < h ∧ Within vs ls hs
  | [], [], [] => True
  | _, _, _ => False

instance Within.dec : ∀ v l h, Decidable (Within v l h)
  | v :: vs, l :: ls, h :: hs =>
    have := Within.dec vs ls hs
    decidable_of_iff (l ≤ v ∧ v < h ∧ Within vs ls hs) Iff.rfl
  | [], [], [] => isTrue trivial
  | [], [], _ :: _ => isFalse id
  | [], _ :: _, _ => isFalse id
  | _ :: _, [], _ => isFalse id
  | _ :: _, _ :: _, [] => isFalse id

/-- `cdf_fun` and `inverse_cdf_fun` agree on the symbol vectors in `V`.  `R c t`
says that `t` is a state in which the decoder undoes a push that left the
encoder in state `c`; for a fixed table it is equality, an adaptive model undoes
its update. -/
structure CdfPair {σ : Type} (cdf : CdfFun σ) (icdf : InvCdfFun σ) (p L width : Nat)
    (V : σ → List Nat → Prop) (R : σ → σ → Prop) : Prop where
  slots : ∀ c x, V c x → ValidSlots p L (cdf x c).1 (cdf x c).2.1
  dtype : ∀ c x, V c x → ∀ s ∈ x, s < width
  inverse : ∀ c x v t', V c x → Within v (cdf x c).1 (cdf x c).2.1 → R (cdf x c).2.2 t' →
    ∃ t, icdf v t' = ((cdf x c).1, (cdf x c).2.1, x, t) ∧ R c t

/-- Every slot value decodes, in the state `c`, to a symbol that owns it. -/
structure CdfTotal {σ : Type} (cdf : CdfFun σ) (icdf : InvCdfFun σ) (p L width : Nat)
    (V : List Nat → Prop) (c : σ) : Prop where
  total : ∀ v, v.length = L → (∀ x ∈ v, x < 2 ^ p) →
    V (icdf v c).2.2.1 ∧ (cdf (icdf v c).2.2.1 c).1 = (icdf v c).1 ∧
    (cdf (icdf v c).2.2.1 c).2.1 = (icdf v c).2.1 ∧ Within v (icdf v c).1 (icdf v c).2.1

/-- All rows of a message can be coded one after the other, last row first. -/
def Codable {σ : Type} (cdf : CdfFun σ) (V : σ → List Nat → Prop) : List (List Nat) → σ → σ → Prop
  | [], c, c' => c' = c
  | x :: rest, c, c' => ∃ c1, Codable cdf V rest c c1 ∧ V c1 x ∧ c' = (cdf x c1).2.2

/-- Bytes that can be the state of a coder with `L` lanes: all entries are bytes, the
`L` heads are present and their top bytes (stored first) are not zero. -/
structure ValidBuffer (L : Nat) (buf : List Nat) : Prop where
  bytes : ∀ x ∈ buf, x < 256
  heads : 4 * L ≤ buf.length
  top : ∀ x ∈ buf.take L, 1 ≤ x

/-- A table for one lane: from `0` to `2^p`, non-decreasing. -/
structure ValidTable (p : Nat) (tbl : List Nat) : Prop where
  first : tbl.head? = some 0
  last : tbl.getLast? = some (2 ^ p)
  mono : tbl.Pairwise (· ≤ ·)

/-- A usable coder state: `L` heads in `[2^24, 2^32)`, a tail array of `cap` bytes and a
limit inside it. -/
structure WF (L cap : Nat) (m : Msg) : Prop where
  lanes : m.head.length = L
  range : ∀ h ∈ m.head, 2 ^ 24 ≤ h ∧ h < 2 ^ 32
  len : m.data.length = cap
  bytes : ∀ x ∈ m.data, x < 256
  low : 0 ≤ m.limit
  high : m.limit ≤ cap

/-- Two states that cannot be told apart: same heads, same limit and same bytes from
the limit on.  Bytes below the limit are free space. -/
def SameState (m m' : Msg) : Prop :=
  m.head = m'.head ∧ m.limit = m'.limit ∧ m.data.drop m.limit.toNat = m'.data.drop m'.limit.toNat

/-- What may be passed as a start buffer of `encode`: nothing, or bytes of a coder with
`L` lanes whose tail fits the capacity. -/
def StartOk (L cap : Nat) : Option (List Nat) → Prop
  | none => True
  | some buf => ValidBuffer L buf ∧ buf.length ≤ 4 * L + cap

/-- The bytes of the state a coder starts from without start buffer: all heads `2^24`,
most significant bytes first, and an empty stack. -/
def freshBuffer (L : Nat) : List Nat := List.replicate L 1 ++ List.replicate (3 * L) 0

/-- Bytes on the stack at the start. -/
def startBytes (L : Nat) : Option (List Nat) → Nat
  | none => 0
  | some buf => buf.length - 4 * L

/-- What is required of a component of the bits-back codec, as seen from outside.  From any
state with at least `K` free bytes and `K` bytes on the stack, `push` succeeds and `pop`
(called with an admissible optional argument) then returns the pushed value and restores
the state; `pop` succeeds, and pushing the popped value back restores the state.  Every
operation moves the limit by at most `K`. -/
structure CodecLaws {α σ : Type} (cap L : Nat) (codec : Codec α σ) (V : α → Prop)
    (flags : Option Bool → Prop) (K : Nat) : Prop where
  push : ∀ {m x}, WF L cap m → (K : Int) ≤ m.limit → m.limit + K ≤ cap → V x →
    ∃ m1 c1, codec.push x m codec.state = .ok (m1, c1) ∧ WF L cap m1 ∧
      m.limit - K ≤ m1.limit ∧ m1.limit ≤ m.limit + K ∧
      ∀ m1' flag, WF L cap m1' → SameState m1' m1 → flags flag →
        ∃ m2 t, codec.pop flag m1' codec.state = .ok (m2, x, t) ∧ WF L cap m2 ∧ SameState m2 m
  pop : ∀ {m flag}, WF L cap m → (K : Int) ≤ m.limit → m.limit + K ≤ cap → flags flag →
    ∃ m1 x t, codec.pop flag m codec.state = .ok (m1, x, t) ∧ V x ∧ WF L cap m1 ∧
      m.limit - K ≤ m1.limit ∧ m1.limit ≤ m.limit + K ∧
      ∀ m1', WF L cap m1' → SameState m1' m1 →
        ∃ m2 c1, codec.push x m1' codec.state = .ok (m2, c1) ∧ WF L cap m2 ∧ SameState m2 m

/-- One operation on a coder state, at its own precision. -/
inductive Op
  | push (p : Nat) (lo hi : List Nat)
  | pop (p : Nat) (lo hi : List Nat) (allowEmpty : Bool)

def Op.run (m : Msg) : Op → Msg
  | .push p lo hi => pushSymbols m lo hi p
  | .pop p lo hi ae => popSymbols m (peek m p) lo hi p ae

/-- The operation uses non-empty slots of a precision up to 24; a pop removes the slot
that the state shows. -/
def Op.Ok (L : Nat) (m : Msg) : Op → Prop
  | .push p lo hi => p ≤ 24 ∧ ValidSlots p L lo hi
  | .pop p lo hi _ => p ≤ 24 ∧ ValidSlots p L lo hi ∧ Within (peek m p) lo hi

def runOps : Msg → List Op → Msg
  | m, [] => m
  | m, o :: os => runOps (o.run m) os

def OpsOk (L : Nat) : Msg → List Op → Prop
  | _, [] => True
  | m, o :: os => o.Ok L m ∧ OpsOk L (o.run m) os

end Verif.Rans
