import Verif.Vct.Report
import Verif.Vct.Entropy
import Verif.Vct.Pipeline

/-!
# Evaluating and compressing a video

`VCTEntropyModel.forward` beside `VCTEntropyModel.compress` (`projects/torch_vct/neural/entropy_model.py`) and the loop over
the scenes of a video with either (`projects/torch_vct/model_pipeline.py`), for a batch of one in evaluation mode.
Networks are arbitrary deterministic functions.
-/

namespace Verif.Vct

open Verif.Tensor

/-- `TemporalEntropyModelOut` without the bits. -/
structure SceneOut where
  latent : Tensor ℝ
  feats : Tensor ℝ

/-- The bottleneck on tokens (entropy_model.py:390-393 with bottlenecks.py:373-406), values only. -/
noncomputable def forwardTokens (c : BnCfg) (bound : ℝ) (tokens scales means : Buf) : Buf :=
  List.zipWith (fun xs (sm : List ℝ × List ℝ) =>
    List.zipWith (fun x (sm : ℝ × ℝ) => (bnForward c bound false 0 x sm.1 sm.2).1) xs (sm.1.zip sm.2)) tokens
    (scales.zip means)

/-- `VCTEntropyModel.forward` (entropy_model.py:333-403): one pass of the network over the rounded latent.  Decoder
window `w`, `C` channels, size `H × W`, features of dimension `D`. -/
noncomputable def forwardScene (c : BnCfg) (bound : ℝ) (net : Net) (w C H W D : Nat) (x : Tensor ℝ) :
    Except EmErr SceneOut :=
  match liftP (patch w (roundTensor x) 1 C H W w) with
  | .error e => .error e
  | .ok (tq, nH, nW) =>
    let P := tq.shape.getD 0 0
    let q := tokensOf tq P (w ^ 2) C
    match liftP (unpatch w (ofTokens P (w ^ 2) D (net.feats q)) nH nW (some (H, W)) true) with
    | .error e => .error e
    | .ok feats =>
      match liftP (patch w x 1 C H W w) with
      | .error e => .error e
      | .ok (t, _, _) =>
        let out := forwardTokens c bound (tokensOf t P (w ^ 2) C) (net.scales q) (net.means q)
        match liftP (unpatch w (ofTokens P (w ^ 2) C out) nH nW (some (H, W)) true) with
        | .error e => .error e
        | .ok latent => .ok ⟨latent, feats⟩

/-- The features that `VCTEntropyModel.compress` returns (entropy_model.py:497-501): those predicted token by token. -/
noncomputable def compressFeatures {S : Type} (c : BnCfg) (e : Coder S) (net : Net) (w C H W D : Nat) (x : Tensor ℝ) :
    Except EmErr (Tensor ℝ) :=
  match liftP (patch w x 1 C H W w) with
  | .error x => .error x
  | .ok (t, nH, nW) =>
    let P := t.shape.getD 0 0
    let st := encodeTokens c e net (P * C) (P * D) (tokensOf t P (w ^ 2) C)
    liftP (unpatch w (ofTokens P (w ^ 2) D st.feats) nH nW (some (H, W)) true)

/-- `VCTEntropyModel.compress` (entropy_model.py:454-533). -/
noncomputable def compressScene {S : Type} (c : BnCfg) (e : Coder S) (net : Net) (w C H W D : Nat) (runDecode : Bool)
    (x : Tensor ℝ) : Except EmErr SceneOut :=
  match compressFeatures c e net w C H W D x with
  | .error e => .error e
  | .ok feats =>
    match compress c e net w C H W D x runDecode with
    | .error e => .error e
    | .ok out => .ok ⟨out.latent, feats⟩

/-- The networks around the entropy model: the fake previous latent made from the shape of a scene and processed
(model_pipeline.py:212-217), processing of a coded latent (entropy_model.py:204-235), the transformer given the
context, and the dequantizer (model_pipeline.py:134-152). -/
structure VideoNets (Proc Rec : Type) where
  fake : List Nat → Proc
  process : Tensor ℝ → Proc
  net : List Proc → Net
  dequantize : Tensor ℝ → Tensor ℝ → Rec

/-- The loop over the scenes from number `i` on (model_pipeline.py:197-283, 341-368): every scene is coded with `code`
and dequantized. -/
def codeFrom {Proc Rec : Type} (code : ℕ → Net → Tensor ℝ → Except EmErr SceneOut) (n : VideoNets Proc Rec)
    (ctxLen : ℕ) : ℕ → List Proc → List (Tensor ℝ) → Except EmErr (List Rec)
  | _, _, [] => .ok []
  | i, state, x :: rest =>
    let ctx := Pipe.encodedSeqs Pipe.entropyContextLen (if i = 0 then [n.fake x.shape] else state)
    match code i (n.net ctx) x with
    | .error e => .error e
    | .ok o =>
      let p := n.process o.latent
      let state' := if i = 0 then [p] else Pipe.sliceLast ctxLen (state ++ [p])
      match codeFrom code n ctxLen (i + 1) state' rest with
      | .error e => .error e
      | .ok rs => .ok (n.dequantize o.latent o.feats :: rs)

/-- `VCTPipeline.forward` between the transforms, in evaluation mode and not coding to strings
(model_pipeline.py:420-430, 251-255). -/
noncomputable def evaluateScenes {Proc Rec : Type} (c : BnCfg) (bound : ℝ) (n : VideoNets Proc Rec) (ctxLen : ℕ)
    (w C H W D : Nat) (scenes : List (Tensor ℝ)) : Except EmErr (List Rec) :=
  codeFrom (fun _ net x => forwardScene c bound net w C H W D x) n ctxLen 0 [] scenes

/-- `VCTPipeline.compress_video` between the transforms (model_pipeline.py:485-500): the first scene through the forward
pass (218), the others through `compress`, with the real decode for scenes 1 and 2 only (241-250). -/
noncomputable def compressScenes {S Proc Rec : Type} (c : BnCfg) (bound : ℝ) (e : Coder S) (n : VideoNets Proc Rec)
    (ctxLen : ℕ) (w C H W D : Nat) (scenes : List (Tensor ℝ)) : Except EmErr (List Rec) :=
  codeFrom (fun i net x => if i = 0 then forwardScene c bound net w C H W D x
    else compressScene c e net w C H W D (decide (i < 3)) x) n ctxLen 0 [] scenes

end Verif.Vct
