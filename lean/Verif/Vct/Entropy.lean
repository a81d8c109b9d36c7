import Verif.Vct.Bottleneck
import Verif.Vct.Patcher

/-
Model of `VCTEntropyModel.compress`, `_encode` and `_decode`
(projects/torch_vct/neural/entropy_model.py:454-691).  The transformer is an arbitrary function of the
buffer of already coded tokens; the conditioning on earlier latents is fixed during one call and part
of that function.  A token of the buffer `[b', seq_len, C]` is the flattened `[b', C]` slice.
-/
namespace Verif.Vct

open Verif.Tensor

/-- Buffer of tokens. -/
abbrev Buf := List (List ℝ)

/-- `_get_transformer_output` for fixed `encoded` (entropy_model.py:257-298): means, scales, features. -/
structure Net where
  means : Buf → Buf
  scales : Buf → Buf
  feats : Buf → Buf

/-- Errors: of the patcher, `pop` from an empty list, the two assertions (`B == 1`, `not strings`,
`decoded == dequantized`). -/
inductive EmErr
  | patch (e : PatchErr)
  | indexError
  | assertion
deriving DecidableEq

/-- Python's index `i - 1` into an axis of length `n`: `-1` is the last element. -/
def prevIdx (n i : Nat) : Nat := if i = 0 then n - 1 else i - 1

/-- Local variables of `_encode` (entropy_model.py:555-570). -/
structure EncSt (S : Type) where
  prev : Option (List ℝ × List ℝ)
  quantized : Buf
  means : Buf
  scales : Buf
  feats : Buf
  strings : List S

variable {S : Type}

/-- Lines 589-595: run the network on the buffer and remember the prediction for token `i`. -/
def EncSt.predict (net : Net) (st : EncSt S) (i : Nat) : EncSt S :=
  let mi := (net.means st.quantized).getD i []
  let si := (net.scales st.quantized).getD i []
  { st with
    prev := some (mi, si)
    means := st.means.set i mi
    scales := st.scales.set i si
    feats := st.feats.set i ((net.feats st.quantized).getD i []) }

/-- The loop of `_encode` over the given indices (entropy_model.py:573-595). -/
noncomputable def encLoop (c : BnCfg) (e : Coder S) (net : Net) (latent : Buf) :
    List Nat → EncSt S → EncSt S
  | [], st => st
  | i :: is, st =>
    match st.prev with
    | some (m, s) =>
      let k := prevIdx latent.length i
      let r := bnCompress c e (latent.getD k []) s m
      let st1 := { st with strings := st.strings ++ [r.2], quantized := st.quantized.set k r.1 }
      if i = 0 then st1 else encLoop c e net latent is (st1.predict net i)
    | none => encLoop c e net latent is (st.predict net i)

/-- A buffer with all entries equal (`torch.full`). -/
def full (n K : Nat) (v : ℝ) : Buf := List.replicate n (List.replicate K v)

/-- `_encode` (entropy_model.py:535-606) for tokens with `K` entries; `D` is the number of entries of a
feature token. -/
noncomputable def encodeTokens (c : BnCfg) (e : Coder S) (net : Net) (K D : Nat) (latent : Buf) : EncSt S :=
  encLoop c e net latent (List.range latent.length ++ [0])
    ⟨none, full latent.length K 10, full latent.length K 100, full latent.length K 100,
      full latent.length D 100, []⟩

/-- The loop of `_decode` (entropy_model.py:645-684).  `enc = some (means, scales)` is
`use_output_from_encode=True`. -/
noncomputable def decLoop (c : BnCfg) (e : Coder S) (net : Net) (enc : Option (Buf × Buf)) (n : Nat) :
    List Nat → Option (List ℝ × List ℝ) → Buf → List S → Except EmErr (Buf × List S)
  | [], _, buf, strings => .ok (buf, strings)
  | i :: is, prev, buf, strings =>
    let next := fun (b : Buf) => match enc with
      | some (ms, ss) => some (ms.getD i [], ss.getD i [])
      | none => some ((net.means b).getD i [], (net.scales b).getD i [])
    match prev with
    | some (m, s) =>
      match strings with
      | [] => .error .indexError
      | str :: rest =>
        let buf1 := buf.set (prevIdx n i) (bnDecompress c e str s m)
        if i = 0 then .ok (buf1, rest) else decLoop c e net enc n is (next buf1) buf1 rest
    | none => decLoop c e net enc n is (next buf) buf strings

/-- `_decode` up to the final un-patching (entropy_model.py:641-686). -/
noncomputable def decodeTokens (c : BnCfg) (e : Coder S) (net : Net) (enc : Option (Buf × Buf)) (n K : Nat)
    (strings : List S) : Except EmErr Buf :=
  match decLoop c e net enc n (List.range n ++ [0]) none (full n K 10) strings with
  | .error x => .error x
  | .ok (buf, rest) => if rest.isEmpty then .ok buf else .error .assertion

/-- Slices `[:, i, :]` of a tensor of shape `[P, n, C]`, flattened. -/
def tokensOf (t : Tensor ℝ) (P n C : Nat) : Buf :=
  (List.range n).map fun i => (List.range (P * C)).map fun k => t.get [k / C, i, k % C]

/-- Tensor of shape `[P, n, C]` with the given slices. -/
def ofTokens (P n C : Nat) (b : Buf) : Tensor ℝ :=
  ofFn [P, n, C] fun idx => (b.getD (idx.getD 1 0) []).getD (idx.getD 0 0 * C + idx.getD 2 0) 0

/-- Lift a patcher error. -/
def liftP {α : Type} : Except PatchErr α → Except EmErr α
  | .ok a => .ok a
  | .error e => .error (.patch e)

/-- `torch.round` on a tensor. -/
noncomputable def roundTensor (x : Tensor ℝ) : Tensor ℝ := ⟨x.shape, fun k => (roundHalfEven (x.data k) : ℝ)⟩


/-- `_decode` (entropy_model.py:608-691) for an image of size `H × W` with `C` channels and decoder window
`w`. -/
noncomputable def decode (c : BnCfg) (e : Coder S) (net : Net) (w C H W : Nat) (enc : Option (Buf × Buf))
    (strings : List S) : Except EmErr (Tensor ℝ) :=
  match liftP (patch w (⟨[1, C, H, W], fun _ => 1⟩ : Tensor ℝ) 1 C H W w) with
  | .error x => .error x
  | .ok (fake, nH, nW) =>
    let P := fake.shape.getD 0 0
    match decodeTokens c e net enc (w ^ 2) (P * C) strings with
    | .error x => .error x
    | .ok buf => liftP (unpatch w (ofTokens P (w ^ 2) C buf) nH nW (some (H, W)) true)

/-- Result of `compress`. -/
structure CompressOut (S : Type) where
  latent : Tensor ℝ
  strings : List S
  means : Buf
  scales : Buf

open Classical in
/-- `compress` (entropy_model.py:454-533) for an image of size `H × W` with `C` channels, decoder window `w`
and features of dimension `D`; `validate_causal` is off.  The strings, which the code only measures, are
returned as well.  The assertion on line 527 compares with the un-patched `quantized` buffer. -/
noncomputable def compress (c : BnCfg) (e : Coder S) (net : Net) (w C H W D : Nat) (x : Tensor ℝ)
    (runDecode : Bool) : Except EmErr (CompressOut S) :=
  match liftP (patch w x 1 C H W w) with
  | .error x => .error x
  | .ok (t, nH, nW) =>
    let P := t.shape.getD 0 0
    let st := encodeTokens c e net (P * C) (P * D) (tokensOf t P (w ^ 2) C)
    if runDecode then
      match decode c e net w C H W (some (st.means, st.scales)) st.strings with
      | .error x => .error x
      | .ok dec =>
        match liftP (unpatch w (ofTokens P (w ^ 2) C st.quantized) nH nW (some (H, W)) true) with
        | .error x => .error x
        | .ok deq =>
          if Same dec deq then .ok ⟨dec, st.strings, st.means, st.scales⟩ else .error .assertion
    else .ok ⟨roundTensor x, st.strings, st.means, st.scales⟩

end Verif.Vct
