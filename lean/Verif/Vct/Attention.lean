import Mathlib.Data.Real.Basic
import Mathlib.Algebra.BigOperators.Fin
import Mathlib.Data.Finset.Lattice.Fold
import Mathlib.Algebra.BigOperators.Ring.Finset

/-
Model of the decoder transformer of the video entropy model in evaluation mode
(projects/torch_vct/neural/layers_utils.py:126-278, entropy_model_layers.py:66-289,
entropy_model.py:237-298), for one element of the batch.  Sequences are functions on positions, vectors
functions on channels, over the reals.  Linear layers, layer norms, MLPs and embeddings act on each
position alone and are arbitrary functions here.  Dropout and stochastic depth are the identity in
evaluation mode.  The exponential of the softmax is a parameter `E`, because in float32 it is exactly
zero for very negative arguments, which the masking relies on.
-/
namespace Verif.Vct.Attn

/-- Vector with `d` channels. -/
abbrev Vec (d : Nat) := Fin d → ℝ

/-- Vectors split into heads: `reshape(*b, seq, num_heads, c // num_heads)` (layers_utils.py:216-230). -/
abbrev Heads (h k : Nat) := Fin h → Fin k → ℝ

/-- `WindowMultiHeadAttention` (layers_utils.py:127-172): the linear layers followed by the split into heads,
and the scaling `attn_scale`. -/
structure MHA (d h k : Nat) where
  q : Vec d → Heads h k
  key : Vec d → Heads h k
  v : Vec d → Heads h k
  proj : Heads h k → Vec d
  scale : ℝ

/-- `look_ahead_mask`: ones strictly above the diagonal (entropy_model_layers.py:143-149). -/
def lookAhead (n : Nat) (i j : Fin n) : ℝ := if i < j then 1 else 0

/-- `torch.tile(mask, [1, blowup])`: the mask repeated along the keys (layers_utils.py:249-251). -/
def tile {n m : Nat} (mask : Fin n → Fin n → ℝ) (i : Fin n) (j : Fin m) : ℝ :=
  mask i ⟨j % n, Nat.mod_lt _ (Nat.lt_of_le_of_lt (Nat.zero_le _) i.isLt)⟩

/-- Scaled scores of query `i` against key `j` (layers_utils.py:233-239). -/
noncomputable def score {d h k n m : Nat} (a : MHA d h k) (query : Fin n → Vec d) (keys : Fin m → Vec d)
    (hd : Fin h) (i : Fin n) (j : Fin m) : ℝ :=
  (∑ c, a.q (query i) hd c * a.key (keys j) hd c) * a.scale

/-- `torch.softmax` with the usual shift by the maximum; empty rows do not occur. -/
noncomputable def softmax (E : ℝ → ℝ) {m : Nat} (row : Fin m → ℝ) (j : Fin m) : ℝ :=
  let top := (Finset.univ : Finset (Fin m)).sup' (Finset.univ_nonempty_iff.2 ⟨j⟩) row
  E (row j - top) / ∑ j', E (row j' - top)

/-- `WindowMultiHeadAttention.forward` (layers_utils.py:174-278) without the shape assertions. -/
noncomputable def attention (E : ℝ → ℝ) {d h k n m : Nat} (a : MHA d h k) (query : Fin n → Vec d)
    (keys : Fin m → Vec d) (mask : Option (Fin n → Fin n → ℝ)) (i : Fin n) : Vec d :=
  let weight := fun (hd : Fin h) (j : Fin m) => match mask with
    | some mk => softmax E (fun j => score a query keys hd i j + tile mk i j * -1000000) j * (1 - tile mk i j)
    | none => softmax E (fun j => score a query keys hd i j) j
  a.proj (fun hd c => ∑ j, weight hd j * a.v (keys j) hd c)

/-- `TransformerBlock` (entropy_model_layers.py:131-181). -/
structure Block (d h k : Nat) where
  ln1a : Vec d → Vec d
  self : MHA d h k
  ln1b : Vec d → Vec d
  mlp1 : Vec d → Vec d
  ln2a : Vec d → Vec d
  cross : MHA d h k
  ln2b : Vec d → Vec d
  mlp2 : Vec d → Vec d

/-- `TransformerBlock.forward` as a decoder block (entropy_model_layers.py:183-224). -/
noncomputable def Block.forward (E : ℝ → ℝ) {d h k n m : Nat} (b : Block d h k) (enc : Fin m → Vec d)
    (input : Fin n → Vec d) : Fin n → Vec d :=
  let x := fun i => b.ln1a (input i)
  let sa := attention E b.self x x (some (lookAhead n))
  let x1 := fun i => input i + sa i
  let x2 := fun i => x1 i + b.mlp1 (b.ln1b (x1 i))
  let y := fun i => b.ln2a (x2 i)
  let ca := attention E b.cross y enc none
  let y1 := fun i => x2 i + ca i
  fun i => y1 i + b.mlp2 (b.ln2b (y1 i))

/-- `Transformer.forward` (entropy_model_layers.py:263-289). -/
noncomputable def transformer (E : ℝ → ℝ) {d h k n m : Nat} (enc : Fin m → Vec d) :
    List (Block d h k) → (Fin n → Vec d) → Fin n → Vec d
  | [], x => x
  | b :: bs, x => transformer E enc bs (b.forward E enc x)

/-- `StartSym.forward` (entropy_model_layers.py:86-123): the learnt symbol, then all but the last token. -/
def startSym {c n : Nat} (sym : Vec c) (x : Fin n → Vec c) (i : Fin n) : Vec c :=
  if h : i.val = 0 then sym else x ⟨i.val - 1, Nat.lt_of_le_of_lt (Nat.sub_le _ _) i.isLt⟩

/-- The parts of `VCTEntropyModel` used for the prediction. -/
structure Predictor (c d h k n : Nat) where
  sym : Vec c
  /-- normalisation, embedding, layer norm and position of token `i` (entropy_model.py:237-255) -/
  embed : Fin n → Vec c → Vec d
  blocks : List (Block d h k)
  meanHead : Vec d → Vec c
  scaleHead : Vec d → Vec c

/-- `_get_transformer_output` (entropy_model.py:257-298): mean and scale for every token; `enc` is the output of the
joint encoder, which does not see the latent being coded. -/
noncomputable def predict (E : ℝ → ℝ) {c d h k n m : Nat} (p : Predictor c d h k n) (enc : Fin m → Vec d)
    (latent : Fin n → Vec c) (i : Fin n) : Vec c × Vec c :=
  let out := transformer E enc p.blocks (fun i => p.embed i (startSym p.sym latent i))
  (p.meanHead (out i), p.scaleHead (out i))

end Verif.Vct.Attn
