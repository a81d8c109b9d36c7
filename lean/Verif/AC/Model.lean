/-
Model of `projects/jax_entropy_coders/jax_arithmetic_coder.py`.

Unsigned 32/64-bit quantities are naturals with the wrap-around written out.
Arrays are lists.  JAX semantics used: `index_update` outside an array is
dropped (`List.set` does the same), gather outside an array is clamped to the
last element.
-/
namespace Verif.AC

/-- Errors a call can end in.  `indexError` is indexing an empty array,
`overrun` is the `RuntimeError` of jax_arithmetic_coder.py:582-583, `diverges` stands for a
`while_loop` that is still running when its iteration budget (the parameter
`fuel` of the functions below) is used up. -/
inductive Err
  | indexError
  | overrun
  | diverges
  deriving DecidableEq, Repr

/-- `MAX_CODE`, jax_arithmetic_coder.py:20. -/
abbrev MAX_CODE : Nat := 4294967295
/-- `ONE_HALF`, jax_arithmetic_coder.py:21. -/
abbrev ONE_HALF : Nat := 2147483648
/-- `ONE_FOURTH`, jax_arithmetic_coder.py:22. -/
abbrev ONE_FOURTH : Nat := 1073741824
/-- `THREE_FOURTHS`, jax_arithmetic_coder.py:23. -/
abbrev THREE_FOURTHS : Nat := 3221225472
/-- `PREC_COUNT`, jax_arithmetic_coder.py:24. -/
abbrev PREC_COUNT : Nat := 65536

/-- Truncation to `uint32`. -/
@[irreducible] def u32 (x : Nat) : Nat := x % 4294967296

/-- Truncation to `uint64`. -/
@[irreducible] def u64 (x : Nat) : Nat := x % 18446744073709551616

/-- `uint32` subtraction with wrap-around (both arguments below `2^32`). -/
@[irreducible] def sub32 (a b : Nat) : Nat := (a + 4294967296 - b) % 4294967296

/-- `uint64` subtraction with wrap-around (both arguments below `2^64`). -/
@[irreducible] def sub64 (a b : Nat) : Nat :=
  (a + 18446744073709551616 - b) % 18446744073709551616

/-- `lax.while_loop` with an iteration budget: `none` means the loop condition
still holds after `fuel` iterations. -/
def whileLoop {α : Type} (cond : α → Bool) (body : α → α) : Nat → α → Option α
  | 0, s => if cond s then none else some s
  | n + 1, s => if cond s then whileLoop cond body n (body s) else some s

/-! ### Bit output -/

/-- The part `(int_array, byte, idx, bit_idx)` of the encoder state. -/
structure Buf where
  arr : List Nat
  byte : Nat
  idx : Nat
  bitIdx : Nat
  deriving DecidableEq, Repr

/-- `_append_bit`, jax_arithmetic_coder.py:27-48.  `byte` is a `uint8`. -/
def appendBit (bit : Bool) (b : Buf) : Buf :=
  let byte := ((b.byte <<< 1) % 256) ||| bit.toNat
  let bitIdx := b.bitIdx + 1
  if bitIdx = 8 then
    { arr := b.arr.set b.idx byte, byte := 0,
      idx := b.idx + bitIdx / 8, bitIdx := bitIdx % 8 }
  else
    { arr := b.arr, byte := byte,
      idx := b.idx + bitIdx / 8, bitIdx := bitIdx % 8 }

/-- The `while_loop` of `_append_bit_and_pending`, jax_arithmetic_coder.py:56-73: the loop counts
`pending_bits` down to zero, so it is a recursion on that count. -/
def appendPending (bit : Bool) : Nat → Buf → Buf
  | 0, b => b
  | n + 1, b => appendPending bit n (appendBit (!bit) b)

/-- `_append_bit_and_pending`, jax_arithmetic_coder.py:51-75. -/
def appendBitAndPending (bit : Bool) (pending : Nat) (b : Buf) : Buf :=
  appendPending bit pending (appendBit bit b)

/-! ### Renormalisation decisions shared by both directions -/

/-- `condition`, jax_arithmetic_coder.py:192-198, 312-318. -/
def loopCond (high low : Nat) : Bool :=
  decide (high < ONE_HALF) || decide (low ≥ ONE_HALF) ||
    (decide (low ≥ ONE_FOURTH) && decide (high < THREE_FOURTHS))

/-- The three branches of the `lax.switch`, jax_arithmetic_coder.py:157, 281. -/
inductive Branch
  | half0
  | half1
  | quarter
  deriving DecidableEq, Repr

/-- `lax.argmax` over the three conditions, jax_arithmetic_coder.py:164-174, 288-298: the
first true one, and index 0 if none is true. -/
def branchOf (high low : Nat) : Branch :=
  if high < ONE_HALF then .half0
  else if low ≥ ONE_HALF then .half1
  else if low ≥ ONE_FOURTH ∧ high < THREE_FOURTHS then .quarter
  else .half0

/-- `high <<= 1; high += 1; high &= MAX_CODE` on a `uint32`, jax_arithmetic_coder.py:184-187. -/
@[irreducible] def shiftHigh (high : Nat) : Nat := u32 (u32 (high <<< 1) + 1)

/-- `low <<= 1; low &= MAX_CODE` on a `uint32`, jax_arithmetic_coder.py:186-188. -/
@[irreducible] def shiftLow (low : Nat) : Nat := u32 (low <<< 1)

/-! ### Encoder -/

/-- The loop state of `_enqueue`, jax_arithmetic_coder.py:130 and following. -/
structure Enc where
  high : Nat
  low : Nat
  pending : Nat
  buf : Buf
  deriving DecidableEq, Repr

/-- `choose_branch_and_execute` of the encoder, jax_arithmetic_coder.py:128-190. -/
def encStep (e : Enc) : Enc :=
  let e :=
    match branchOf e.high e.low with
    | .half0 =>
      { e with buf := appendBitAndPending false e.pending e.buf, pending := 0 }
    | .half1 =>
      { e with buf := appendBitAndPending true e.pending e.buf, pending := 0 }
    | .quarter =>
      { e with pending := e.pending + 1, low := sub32 e.low ONE_FOURTH,
               high := sub32 e.high ONE_FOURTH }
  { e with high := shiftHigh e.high, low := shiftLow e.low }

/-- `span`, jax_arithmetic_coder.py:201, 321 (a `uint64`). -/
@[irreducible] def spanOf (high low : Nat) : Nat := u64 (sub64 high low + 1)

/-- The narrowed `high`, jax_arithmetic_coder.py:207-209, 333-335 (precision 16). -/
@[irreducible] def narrowHigh (low span rangeHigh : Nat) : Nat :=
  sub32 (u32 (low + u32 (u64 (span * rangeHigh) >>> 16))) 1

/-- The narrowed `low`, jax_arithmetic_coder.py:210, 336. -/
@[irreducible] def narrowLow (low span rangeLow : Nat) : Nat :=
  u32 (low + u32 (u64 (span * rangeLow) >>> 16))

/-- A `cdf_fun`: symbol and state to (low, high, new state), jax_arithmetic_coder.py:553-559. -/
abbrev CdfFun (σ : Type) := Nat → σ → Nat × Nat × σ

/-- An `inverse_cdf_fun`: value and state to (low, high, symbol, new state),
jax_arithmetic_coder.py:606-613. -/
abbrev InvCdfFun (τ : Type) := Nat → τ → Nat × Nat × Nat × τ

/-- `_enqueue`, jax_arithmetic_coder.py:88-219. -/
def enqueue {σ : Type} (fuel : Nat) (cdf : CdfFun σ) (symbol : Nat) (e : Enc) (c : σ) :
    Except Err (Enc × σ) :=
  let span := spanOf e.high e.low
  let r := cdf symbol c
  let high := narrowHigh e.low span r.2.1
  let low := narrowLow e.low span r.1
  match whileLoop (fun e : Enc => loopCond e.high e.low) encStep fuel
      { e with high := high, low := low } with
  | none => .error .diverges
  | some e => .ok (e, r.2.2)

/-- The `fori_loop` of `_jax_encode`, jax_arithmetic_coder.py:364-405. -/
def encodeLoop {σ : Type} (fuel : Nat) (cdf : CdfFun σ) :
    List Nat → Enc → σ → Except Err (Enc × σ)
  | [], e, c => .ok (e, c)
  | s :: rest, e, c =>
    match enqueue fuel cdf s e c with
    | .error x => .error x
    | .ok (e, c) => encodeLoop fuel cdf rest e c

/-- The end of `_jax_encode`, jax_arithmetic_coder.py:407-433. -/
def finish (e : Enc) : List Nat × Nat :=
  let pending := e.pending + 1
  let b :=
    if e.low < ONE_FOURTH then appendBitAndPending false pending e.buf
    else appendBitAndPending true pending e.buf
  (b.arr.set b.idx ((b.byte <<< (8 - b.bitIdx)) % 256), b.idx)

/-- Initial encoder state, jax_arithmetic_coder.py:353-361, 395-404; `int_array` is all zero, so
the initial `byte = int_array[0]` is `0`. -/
def encInit (cap : Nat) : Enc :=
  { high := MAX_CODE, low := 0, pending := 0,
    buf := { arr := List.replicate cap 0, byte := 0, idx := 0, bitIdx := 0 } }

/-- `_jax_encode`, jax_arithmetic_coder.py:348-433.  Simplification: the buffer size
`int(buffer_oversize * len(message))` is the parameter `cap` (any natural).
Reading `int_array[0]` of an empty buffer is an error. -/
def jaxEncode {σ : Type} (fuel : Nat) (cdf : CdfFun σ) (c : σ) (cap : Nat) (msg : List Nat) :
    Except Err (List Nat × Nat) :=
  if cap = 0 then .error .indexError
  else
    match encodeLoop fuel cdf msg (encInit cap) c with
    | .error x => .error x
    | .ok (e, _) => .ok (finish e)

/-- `encode` for a batch of one message, jax_arithmetic_coder.py:536-587: the overrun check
`i > len(b)` and the slice `b[: i + 1]`. -/
def encode {σ : Type} (fuel : Nat) (cdf : CdfFun σ) (c : σ) (cap : Nat) (msg : List Nat) :
    Except Err (List Nat) :=
  match jaxEncode fuel cdf c cap msg with
  | .error x => .error x
  | .ok (b, i) => if i > b.length then .error .overrun else .ok (b.take (i + 1))

/-- The number of bytes of the buffer with the default `buffer_oversize` of 1.5: `int(1.5 * len(message))`,
jax_arithmetic_coder.py:356, 540. The product is exact below 2^51 symbols. -/
def defaultBuffer (n : Nat) : Nat := 3 * n / 2

/-! ### Decoder -/

/-- Gather with clamping, `int_array[idx]`. -/
def gather (arr : List Nat) (i : Nat) : Nat := arr.getD (min i (arr.length - 1)) 0

/-- `_retrieve_bit`, jax_arithmetic_coder.py:78-85. -/
def retrieveBit (idx bitIdx : Nat) (arr : List Nat) : Bool × Nat × Nat :=
  let cur := gather arr idx
  let bit := decide (((cur >>> (7 - bitIdx)) &&& 1) > 0)
  (bit, idx + (bitIdx + 1) / 8, (bitIdx + 1) % 8)

/-- Loop state of `_dequeue`, jax_arithmetic_coder.py:285 (the array itself is a parameter). -/
structure Dec where
  value : Nat
  high : Nat
  low : Nat
  idx : Nat
  bitIdx : Nat
  deriving DecidableEq, Repr

/-- `choose_branch_and_execute` of the decoder, jax_arithmetic_coder.py:257-310. -/
def decStep (arr : List Nat) (d : Dec) : Dec :=
  let d :=
    match branchOf d.high d.low with
    | .half0 => d
    | .half1 =>
      { d with value := sub32 d.value ONE_HALF, low := sub32 d.low ONE_HALF,
               high := sub32 d.high ONE_HALF }
    | .quarter =>
      { d with value := sub32 d.value ONE_FOURTH, low := sub32 d.low ONE_FOURTH,
               high := sub32 d.high ONE_FOURTH }
  let r := retrieveBit d.idx d.bitIdx arr
  { value := u32 (u32 (d.value <<< 1) + (r.1 && decide (r.2.1 < arr.length)).toNat),
    high := shiftHigh d.high, low := shiftLow d.low,
    idx := r.2.1, bitIdx := r.2.2 }

/-- Smallest `s ≤ fuel` (searching from `s`) with `2^52 * d ≤ n * 2^s`. -/
def f64Shift (n d : Nat) : Nat → Nat → Nat
  | 0, s => s
  | fuel + 1, s => if 2 ^ 52 * d ≤ n * 2 ^ s then s else f64Shift n d fuel (s + 1)

/-- Round `n / d` to the nearest integer, ties to even. -/
def rne (n d : Nat) : Nat :=
  let q := n / d
  let r := n % d
  if 2 * r < d then q
  else if d < 2 * r then q + 1
  else if q % 2 = 0 then q else q + 1

/-- IEEE float64 quotient `n / d` truncated to an integer, for naturals `n < 2^53`,
`0 < d < 2^53` (both exactly representable) with quotient below `2^52`: the
quotient is scaled by `2^s` to have 53 significant bits, rounded to nearest
even, and the cast to an integer drops the fraction.  Simplification: `s` is
searched up to 1100 (quotients are never subnormal here). -/
def f64DivTrunc (n d : Nat) : Nat :=
  let s := f64Shift n d 1100 0
  rne (n * 2 ^ s) d / 2 ^ s

/-- `scaled_value`, jax_arithmetic_coder.py:323-325: `uint16` of the float64 quotient. -/
def scaledValue (value low span : Nat) : Nat :=
  f64DivTrunc (sub64 (u64 (u64 (sub64 value low + 1) * PREC_COUNT)) 1) span % 65536

/-- `_dequeue`, jax_arithmetic_coder.py:222-345: new state, symbol and CDF state. -/
def dequeue {τ : Type} (fuel : Nat) (icdf : InvCdfFun τ) (arr : List Nat) (d : Dec) (t : τ) :
    Except Err (Dec × Nat × τ) :=
  let span := spanOf d.high d.low
  let r := icdf (scaledValue d.value d.low span) t
  let high := narrowHigh d.low span r.2.1
  let low := narrowLow d.low span r.1
  match whileLoop (fun d : Dec => loopCond d.high d.low) (decStep arr) fuel
      { d with high := high, low := low } with
  | none => .error .diverges
  | some d => .ok (d, r.2.2.1, r.2.2.2)

/-- The `fori_loop` of `_jax_decode`, jax_arithmetic_coder.py:451-505; `message` is a `uint8` array,
so the stored symbol is truncated. -/
def decodeLoop {τ : Type} (fuel : Nat) (icdf : InvCdfFun τ) (arr : List Nat) :
    Nat → Dec → τ → Except Err (List Nat)
  | 0, _, _ => .ok []
  | n + 1, d, t =>
    match dequeue fuel icdf arr d t with
    | .error x => .error x
    | .ok (d, s, t) =>
      match decodeLoop fuel icdf arr n d t with
      | .error x => .error x
      | .ok rest => .ok (s % 256 :: rest)

/-- `append_bit_to_value`, jax_arithmetic_coder.py:472-480. -/
def loadBit (arr : List Nat) (d : Dec) : Dec :=
  let r := retrieveBit d.idx d.bitIdx arr
  { d with value := u32 (u32 (d.value <<< 1) + r.1.toNat), idx := r.2.1, bitIdx := r.2.2 }

/-- The initial `fori_loop` of `_jax_decode`, jax_arithmetic_coder.py:482-487. -/
def loadBits (arr : List Nat) : Nat → Dec → Dec
  | 0, d => d
  | n + 1, d => loadBits arr n (loadBit arr d)

/-- Initial decoder state, jax_arithmetic_coder.py:443-448. -/
def decInit : Dec := { value := 0, high := MAX_CODE, low := 0, idx := 0, bitIdx := 0 }

/-- `_jax_decode`, jax_arithmetic_coder.py:436-507.  Indexing an empty array is an error. -/
def jaxDecode {τ : Type} (fuel : Nat) (icdf : InvCdfFun τ) (t : τ) (len : Nat) (arr : List Nat) :
    Except Err (List Nat) :=
  if arr.length = 0 then .error .indexError
  else decodeLoop fuel icdf arr len (loadBits arr 32 decInit) t

/-- `max(...)` over a list of lengths, jax_arithmetic_coder.py:629, 639. -/
def maxOf : List Nat → Nat
  | [] => 0
  | x :: xs => max x (maxOf xs)

/-- Run one batch entry after the other (what `vmap` computes), failing if one fails. -/
def mapExcept {α β : Type} (f : α → Except Err β) : List α → Except Err (List β)
  | [] => .ok []
  | a :: as =>
    match f a with
    | .error x => .error x
    | .ok b =>
      match mapExcept f as with
      | .error x => .error x
      | .ok bs => .ok (b :: bs)

/-- One entry of a batch to decode. -/
structure Job (τ : Type) where
  data : List Nat
  len : Nat
  state : τ

/-- `decode`, jax_arithmetic_coder.py:590-656.  A batch is a list of entries (code bytes, message
length, CDF state).  An empty batch makes `jnp.max`/`max` raise. -/
def decode {τ : Type} (fuel : Nat) (icdf : InvCdfFun τ) (batch : List (Job τ)) :
    Except Err (List (List Nat)) :=
  if batch.isEmpty then .error .indexError
  else
    let maxMessageLen := maxOf (batch.map (·.len))
    let maxLen := maxOf (batch.map (·.data.length))
    match mapExcept (fun j : Job τ =>
        jaxDecode fuel icdf j.state maxMessageLen
          (j.data ++ List.replicate (maxLen - j.data.length) 0)) batch with
    | .error x => .error x
    | .ok ms =>
      if batch.any (fun j => j.len != maxMessageLen) then
        .ok (List.zipWith (fun m (j : Job τ) => m.take j.len) ms batch)
      else .ok ms

/-- One entry of a batch to encode. -/
structure EncJob (σ : Type) where
  msg : List Nat
  state : σ

/-- `encode`, jax_arithmetic_coder.py:536-587, for a batch: any overrun fails the whole batch. -/
def encodeBatch {σ : Type} (fuel : Nat) (cdf : CdfFun σ) (cap : Nat) (batch : List (EncJob σ)) :
    Except Err (List (List Nat)) :=
  match mapExcept (fun j : EncJob σ => jaxEncode fuel cdf j.state cap j.msg) batch with
  | .error x => .error x
  | .ok rs =>
    if rs.any (fun r => decide (r.2 > r.1.length)) then .error .overrun
    else .ok (rs.map fun r => r.1.take (r.2 + 1))

end Verif.AC
