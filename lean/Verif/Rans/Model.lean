/-
Model of the vectorised rANS coder
(/repo/projects/jax_entropy_coders/craystack/_backend.py, codecs.py, coder.py).

Conventions.  `uint32`/`uint8` values are natural numbers; the places where the
code's arithmetic wraps are written with `% 2^32` and `% 2^8`.  The head array is
the flat list of its lanes (the code ravels it); CDF arrays are `uint32` as in the
repository's tests.  A message element is a value of an arbitrary type `α` (the
vector of the lanes' symbols).
-/
namespace Verif.Rans

/-- Errors observable by a caller. -/
inductive Err
  /-- `ValueError("tail_capacity insufficient ...")`, _backend.py:356-357. -/
  | capacity
  /-- `RuntimeError("tail_capacity at batch idx ...")`, coder.py:212-215. -/
  | overflow
  /-- Slice larger than the array, raised by JAX while tracing
  `dynamic_slice`/`dynamic_update_slice`. -/
  | shape
  /-- Python `TypeError`: a function called with too many arguments. -/
  | typeError
  deriving DecidableEq, Repr

/-- `CrayCompressedMessage` with its `CrayTail` (_backend.py:45-88). -/
structure Msg where
  head : List Nat
  limit : Int
  data : List Nat
  deriving DecidableEq, Repr

/-- `HEAD_MIN = 1 << 32 - 8` (_backend.py:40). -/
abbrev HEAD_MIN : Nat := 2 ^ 24

/-- 32-bit and 8-bit wrap-around (`HEAD_DTYPE`, `TAIL_DTYPE`, _backend.py:38-39). -/
def u32 (n : Nat) : Nat := n % 2 ^ 32
def u8 (n : Nat) : Nat := n % 2 ^ 8

/-- Start index of `lax.dynamic_slice`/`dynamic_update_slice` (used at
_backend.py:134-136 and 176-178): a negative index has the array length added
(JAX's `_dynamic_slice_indices`), then XLA clamps it so that the slice fits. -/
def dynStart (idx : Int) (len size : Nat) : Nat :=
  let i := if idx < 0 then idx + len else idx
  (max 0 (min i ((len : Int) - size))).toNat

/-- Insertion of a key/value pair into a sorted list, before equal keys. -/
def insertKV (a : Nat × Nat) : List (Nat × Nat) → List (Nat × Nat)
  | [] => [a]
  | b :: l => if a.1 ≤ b.1 then a :: b :: l else b :: insertKV a l

/-- Stable sort by key. -/
def sortKV : List (Nat × Nat) → List (Nat × Nat)
  | [] => []
  | a :: l => insertKV a (sortKV l)

/-- `lax.sort_key_val(keys, vals)[1]` (_backend.py:135, 162, 174): values reordered
by a stable sort of the keys. -/
def sortKeyVal (keys vals : List Nat) : List Nat :=
  (sortKV (keys.zip vals)).map Prod.snd

/-- Booleans as sort keys: `False < True`. -/
def keyOf (b : Bool) : Nat := if b then 1 else 0

/-- Number of `True` entries: `push_indices.sum()` (_backend.py:133, 166). -/
def countTrue (idx : List Bool) : Nat := idx.countP id

/-- `tail_push` (_backend.py:116-137). -/
def tailPush (limit : Int) (data : List Nat) (idx : List Bool) (vals : List Nat) :
    Int × List Nat :=
  let sorted := sortKeyVal (idx.map keyOf) vals
  let start := dynStart (limit - vals.length) data.length vals.length
  (limit - countTrue idx, data.take start ++ sorted ++ data.drop (start + vals.length))

/-- `tail_pop` (_backend.py:140-181).  With `allowEmpty` the new limit is clipped to
`[0, len(data)]`. -/
def tailPop (limit : Int) (data : List Nat) (idx : List Bool) (allowEmpty : Bool) :
    Int × List Nat :=
  let unsorted := sortKeyVal (idx.map keyOf) (List.range idx.length)
  let lim := limit + countTrue idx
  let lim := if allowEmpty then max 0 (min lim data.length) else lim
  let start := dynStart (lim - idx.length) data.length idx.length
  (lim, sortKeyVal unsorted ((data.drop start).take idx.length))

/-- One of the three renormalisation writes of `push_symbols`
(_backend.py:212-214, 216-218, 220-222): lanes with
`head >> shift >= frequency` write their low byte to the tail. -/
def pushStep (shift : Nat) (freqs : List Nat) (m : Msg) : Msg :=
  let idx := List.zipWith (fun h f => decide (f ≤ h / 2 ^ shift)) m.head freqs
  let t := tailPush m.limit m.data idx (m.head.map u8)
  { head := List.zipWith (fun b h => if b then h / 2 ^ 8 else h) idx m.head
    limit := t.1, data := t.2 }

/-- `cdf_high - cdf_low` on `uint32` (_backend.py:203, 252). -/
def freqsOf (low high : List Nat) : List Nat :=
  List.zipWith (fun l h => u32 (h + 2 ^ 32 - l)) low high

/-- Final head update of `push_symbols` (_backend.py:224-228):
`(head // f << precision) + head % f + cdf_low` on `uint32`.
(Division by a zero frequency is 0 here and all-ones in XLA; no theorem uses it.) -/
def pushHead (p h f l : Nat) : Nat := u32 (u32 (h / f * 2 ^ p) + h % f + l)

/-- Three-way zip. -/
def zip3With (g : Nat → Nat → Nat → Nat) : List Nat → List Nat → List Nat → List Nat
  | a :: as, b :: bs, c :: cs => g a b c :: zip3With g as bs cs
  | _, _, _ => []

/-- `push_symbols` (_backend.py:184-228), precision at most 32. -/
def pushSymbols (m : Msg) (low high : List Nat) (p : Nat) : Msg :=
  let f := freqsOf low high
  let m := pushStep (2 * 8 + 32 - p) f m
  let m := pushStep (1 * 8 + 32 - p) f m
  let m := pushStep (32 - p) f m
  { m with head := zip3With (pushHead p) m.head f low }

/-- One of the three renormalisation reads of `pop_symbols` (_backend.py:265-268). -/
def popStep (allowEmpty : Bool) (m : Msg) : Msg :=
  let idx := m.head.map (fun h => decide (h < HEAD_MIN))
  let t := tailPop m.limit m.data idx allowEmpty
  { head := zip3With (fun b h x => if b = 1 then u32 (h * 2 ^ 8) ||| x else h)
      (idx.map keyOf) m.head t.2
    limit := t.1, data := m.data }

/-- Head before renormalisation in `pop_symbols` (_backend.py:252-256):
`frequency * (head >> precision) + cfs - cdf_low` on `uint32`. -/
def popHead (p h f cfs l : Nat) : Nat := u32 (f * (h / 2 ^ p) + cfs + 2 ^ 32 - l)

/-- `pop_symbols` (_backend.py:231-270). -/
def popSymbols (m : Msg) (cfs low high : List Nat) (p : Nat) (allowEmpty : Bool) : Msg :=
  let f := freqsOf low high
  let heads := List.zipWith (fun hf cl => popHead p hf.1 hf.2 cl.1 cl.2)
    (m.head.zip f) (cfs.zip low)
  let m := { m with head := heads }
  popStep allowEmpty (popStep allowEmpty (popStep allowEmpty m))

/-- `peek` (_backend.py:273-285). -/
def peek (m : Msg) (p : Nat) : List Nat := m.head.map (fun h => h &&& (2 ^ p - 1))

/-! ### Codecs (codecs.py) -/

/-- `cdf_fun(symbols, cdf_state)` and `inverse_cdf_fun(cdf_value, cdf_state)`
(codecs.py:107-141). -/
abbrev CdfFun (σ : Type) := List Nat → σ → List Nat × List Nat × σ
abbrev InvCdfFun (σ : Type) := List Nat → σ → List Nat × List Nat × List Nat × σ

/-- `CrayCodec` (codecs.py:15-53).  `pop` takes the optional fifth argument
`allow_empty_pops` of the code (`none`: not passed) and returns the popped symbols;
the code stores them in row `msg_index` of the message array it is given. -/
structure Codec (α σ : Type) where
  push : α → Msg → σ → Except Err (Msg × σ)
  pop : Option Bool → Msg → σ → Except Err (Msg × α × σ)
  state : σ
  allowEmpty : Bool

/-- Both tail operations need the tail to be at least as long as the number of
lanes; JAX raises otherwise. -/
def shapeOk (m : Msg) : Bool := decide (m.head.length ≤ m.data.length)

/-- `default_rans_codec` (codecs.py:107-165).  `width` models
`symbols.astype(message_dtype)`: symbols are stored modulo `width` (`2^8` for
`uint8`). -/
def defaultCodec {σ : Type} (cdf : CdfFun σ) (icdf : InvCdfFun σ) (init : σ) (p : Nat)
    (width : Nat) (allowEmpty : Bool) : Codec (List Nat) σ where
  push symbols m c :=
    if shapeOk m then
      let r := cdf symbols c
      .ok (pushSymbols m r.1 r.2.1 p, r.2.2)
    else .error .shape
  pop ae m c :=
    if shapeOk m then
      let v := peek m p
      let r := icdf v c
      .ok (popSymbols m v r.1 r.2.1 p (ae.getD false), r.2.2.1.map (· % width), r.2.2.2)
    else .error .shape
  state := init
  allowEmpty := allowEmpty

/-- Index of the first `False` of `v >= cdf`, as computed by `jnp.argmin` on a boolean
array: `0` if there is none (codecs.py:94). -/
def argminGe (v : Nat) : List Nat → Nat
  | [] => 0
  | c :: l => if c ≤ v then (if l.all (fun x => decide (x ≤ v)) then 0 else argminGe v l + 1) else 0

/-- Symbol found by `inverse_cdf_fun` of `fixed_array_cdf_codec`: `argmin(...) - 1`
(codecs.py:94). -/
def findSymbol (v : Nat) (cdf : List Nat) : Int := (argminGe v cdf : Int) - 1

/-- `cdf_fun` of `fixed_array_cdf_codec`, one table per lane (codecs.py:85-90);
out-of-range lookups give 0 here. -/
def tableCdf : CdfFun (List (List Nat)) := fun symbols tbls =>
  (List.zipWith (fun t s => t.getD s 0) tbls symbols,
   List.zipWith (fun t s => t.getD (s + 1) 0) tbls symbols, tbls)

/-- `inverse_cdf_fun` of `fixed_array_cdf_codec` (codecs.py:92-95). -/
def tableInv : InvCdfFun (List (List Nat)) := fun values tbls =>
  let symbols := List.zipWith (fun t v => (findSymbol v t).toNat) tbls values
  (List.zipWith (fun t s => t.getD s 0) tbls symbols,
   List.zipWith (fun t s => t.getD (s + 1) 0) tbls symbols, symbols, tbls)

/-- `fixed_array_cdf_codec` (codecs.py:56-104). -/
def fixedArrayCodec (tbls : List (List Nat)) (p width : Nat) (allowEmpty : Bool) :
    Codec (List Nat) (List (List Nat)) :=
  defaultCodec tableCdf tableInv tbls p width allowEmpty

/-- `bitsback_ans_codec` (codecs.py:168-286).  Its `pop` has no `allow_empty_pops`
parameter, so passing one is a `TypeError`. -/
def bitsback {α β ρ θ ω : Type} (prior : Codec β ρ) (posterior : α → Codec β θ)
    (obs : β → Codec α ω) : Codec α Unit where
  push symbols m _ := do
    let q := posterior symbols
    let r ← q.pop (some q.allowEmpty) m q.state
    let o := obs r.2.1
    let m ← o.push symbols r.1 o.state
    let m ← prior.push r.2.1 m.1 prior.state
    return (m.1, ())
  pop ae m _ :=
    match ae with
    | some _ => .error .typeError
    | none => do
      let r ← prior.pop (some prior.allowEmpty) m prior.state
      let o := obs r.2.1
      let s ← o.pop (some o.allowEmpty) r.1 o.state
      let q := posterior s.2.1
      let m ← q.push r.2.1 s.1 q.state
      return (m.1, s.2.1, ())
  state := ()
  allowEmpty := false

/-! ### Serialisation (_backend.py:288-391) -/

/-- `craymessage_to_array` (_backend.py:288-315). -/
def toArray (m : Msg) : List Nat × Int :=
  (m.head.map (fun h => u8 (h / 2 ^ 24)) ++ m.head.map (fun h => u8 (h / 2 ^ 16)) ++
     m.head.map (fun h => u8 (h / 2 ^ 8)) ++ m.head.map u8 ++ m.data,
   (m.head.length : Int) * 4 + m.limit)

/-- Recombination of the four byte planes (_backend.py:336-341). -/
def joinHead (a b c d : Nat) : Nat :=
  u32 (a * 2 ^ 24) ||| u32 (b * 2 ^ 16) ||| u32 (c * 2 ^ 8) ||| d

/-- `array_to_craymessage` (_backend.py:318-344); `size` is the product of `shape`. -/
def ofArray (arr : List Nat) (size : Nat) (limit : Int) : Msg :=
  let a := arr.take size
  let b := (arr.drop size).take size
  let c := (arr.drop (2 * size)).take size
  let d := (arr.drop (3 * size)).take size
  { head := List.zipWith (fun ab cd => joinHead ab.1 ab.2 cd.1 cd.2) (a.zip b) (c.zip d)
    limit := limit
    data := arr.drop (4 * size) }

/-- `insert_zeros` (_backend.py:347-362). -/
def insertZeros (message : List Nat) (size cap : Nat) : Except Err (List Nat × Int) :=
  let tail := message.drop (size * 4)
  if cap < tail.length then .error .capacity
  else .ok (message.take (size * 4) ++ List.replicate (cap - tail.length) 0 ++ tail,
    (cap : Int) - tail.length + 1)

/-- `empty_message` (_backend.py:91-113); the tail is filled with the pseudo-random
bytes `rnd` (of length `tail_capacity`). -/
def emptyMessage (size : Nat) (rnd : List Nat) : Msg :=
  { head := List.replicate size HEAD_MIN, limit := rnd.length, data := rnd }

/-! ### encode and decode (coder.py) -/

/-- The loop of `_jax_encode` (coder.py:53-64): pushes the message backwards. -/
def pushAll {α σ : Type} (codec : Codec α σ) : List α → Msg → σ → Except Err (Msg × σ)
  | [], m, c => .ok (m, c)
  | x :: rest, m, c => do
    let r ← pushAll codec rest m c
    codec.push x r.1 r.2

/-- The loop of `_jax_decode` (coder.py:108-120), popping `n` symbols. -/
def popAll {α σ : Type} (codec : Codec α σ) : Nat → Msg → σ → Except Err (Msg × List α × σ)
  | 0, m, c => .ok (m, [], c)
  | n + 1, m, c => do
    let r ← codec.pop none m c
    let r' ← popAll codec n r.1 r.2.2
    return (r'.1, r.2.1 :: r'.2.1, r'.2.2)

/-- Initial buffer and limit of `encode` for one batch element (coder.py:179-193). -/
def startState (size cap : Nat) (rnd : List Nat) : Option (List Nat) →
    Except Err (List Nat × Int)
  | none => .ok ((toArray (emptyMessage size rnd)).1, cap)
  | some buf => do
    let r ← insertZeros buf size cap
    return (r.1, r.2 - 1)

/-- Trimming of the coded array at the end of `encode` and `decode`
(coder.py:209-218, 303-309): `np.split(arr, [head_size, lim - 1])` keeps the first
and the third part.  A negative split point counts from the end, which cannot
happen here since `lim ≥ head_size`; `lim = 0` is excluded by `size ≥ 1`. -/
def trim (arr : List Nat) (size : Nat) (lim : Int) : List Nat :=
  arr.take (size * 4) ++ arr.drop (lim - 1).toNat

/-- `encode` for one batch element (coder.py:125-220); `size` is the number of lanes,
`cap` the tail capacity, `c` the element's CDF state, `rnd` the initial random
tail.  JAX traces the loop body even for empty messages, hence the shape check. -/
def encodeOne {α σ : Type} (codec : Codec α σ) (c : σ) (size cap : Nat) (rnd : List Nat)
    (start : Option (List Nat)) (msg : List α) : Except Err (List Nat × σ) := do
  let s ← startState size cap rnd start
  if cap < size then .error .shape
  else
    let r ← pushAll codec msg (ofArray s.1 size s.2) c
    let out := toArray r.1
    if out.2 - (size * 4 : Nat) < 0 then .error .overflow
    else return (trim out.1 size out.2, r.2)

/-- `decode` for one batch element (coder.py:223-311): the message, the remaining
bytes and the final CDF state. -/
def decodeOne {α σ : Type} (codec : Codec α σ) (c : σ) (size cap n : Nat) (buf : List Nat) :
    Except Err (List α × List Nat × σ) := do
  let s ← insertZeros buf size cap
  if cap < size then .error .shape
  else
    let r ← popAll codec n (ofArray s.1 size s.2) c
    let out := toArray r.1
    return (r.2.1, trim out.1 size (out.2 + 1), r.2.2)

/-- Default tail capacity `int(1.5 * messages[0].size)` (coder.py:176-177, 279-282). -/
def defaultCap (n size : Nat) : Nat := 3 * (n * size) / 2

/-- Left-to-right evaluation with exceptions over the batch. -/
def mapExcept {α β : Type} (f : α → Except Err β) : List α → Except Err (List β)
  | [] => .ok []
  | a :: l => do
    let b ← f a
    let bs ← mapExcept f l
    return b :: bs

/-- One batch element of `encode`: message, start buffer, CDF state. -/
structure EncJob (α σ : Type) where
  msg : List α
  start : Option (List Nat)
  state : σ

/-- `encode` (coder.py:125-220), the batch.  (The code checks all capacities before
coding; here the first failing element decides which error is reported.) -/
def encode {α σ : Type} (codec : Codec α σ) (size cap : Nat) (rnd : List Nat)
    (batch : List (EncJob α σ)) : Except Err (List (List Nat × σ)) :=
  mapExcept (fun j => encodeOne codec j.state size cap rnd j.start j.msg) batch

/-- `decode` (coder.py:223-311), the batch: bytes and CDF state per element. -/
def decode {α σ : Type} (codec : Codec α σ) (size cap n : Nat) (batch : List (List Nat × σ)) :
    Except Err (List (List α × List Nat × σ)) :=
  mapExcept (fun j => decodeOne codec j.2 size cap n j.1) batch

end Verif.Rans
