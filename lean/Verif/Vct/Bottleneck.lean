import Verif.Round
import Verif.Normal
import Mathlib.Analysis.SpecialFunctions.Log.Basic

/-
Model of `projects/torch_vct/neural/bottlenecks.py`, over the reals (the code uses float32).
The arithmetic coder behind `EntropyModel.compress`/`decompress` is compressai's (external): it is a
parameter, `Coder`.
-/
namespace Verif.Vct

/-- `Scaler` and table sizes (bottlenecks.py:24-33, 325-347). -/
structure BnCfg where
  numMeans : Nat
  numScales : Nat
  scalesMin : ℝ
  scalesMax : ℝ

/-- Configurations with positive scale bounds, at least one mean and at least two scales. -/
structure BnCfg.Ok (c : BnCfg) : Prop where
  means : 1 ≤ c.numMeans
  scales : 2 ≤ c.numScales
  min : 0 < c.scalesMin
  max : 0 < c.scalesMax

/-- `Scaler.to_scale_idx` with `training=True` (bottlenecks.py:35-53); the assertion is
`toScaleIdxChecked`. -/
noncomputable def toScaleIdx (c : BnCfg) (s : ℝ) : ℝ :=
  (Real.log (s + c.scalesMin) - Real.log c.scalesMin) / Real.log (c.scalesMax / c.scalesMin + 1)
    * ((c.numScales : ℝ) - 1)

/-- `Scaler.to_scale_idx` with its assertion that scales are positive (37-38). -/
noncomputable def toScaleIdxChecked (c : BnCfg) (s : ℝ) : Option ℝ :=
  open Classical in if 0 < s then some (toScaleIdx c s) else none

/-- `Scaler.from_scale_idx` (bottlenecks.py:55-61). -/
noncomputable def fromScaleIdx (c : BnCfg) (i : ℝ) : ℝ :=
  Real.exp (i / ((c.numScales : ℝ) - 1) * Real.log (c.scalesMax / c.scalesMin + 1) + Real.log c.scalesMin)

/-- `_get_prior_params` (bottlenecks.py:117-132). -/
noncomputable def priorParams (c : BnCfg) (mi si : ℝ) : ℝ × ℝ :=
  (mi / c.numMeans - (if c.numMeans ≠ 1 then 1 / 2 else 0), fromScaleIdx c si)

/-- `_likelihood` (bottlenecks.py:223-237); `0.5 * erfc(-x / sqrt 2)` is the standard normal
distribution function. -/
noncomputable def likelihood (mean scale x : ℝ) : ℝ :=
  Phi ((1 / 2 - |x - mean|) / scale) - Phi ((-(1 / 2) - |x - mean|) / scale)

/-- `verysoftplus` (bottlenecks.py:354-359). -/
noncomputable def verysoftplus (x : ℝ) : ℝ :=
  if 0 < x then max x 0 + 1 else 1 / (1 - min x 0)

/-- `_get_indexes` (bottlenecks.py:361-371): mean index and scale index.  `_round_st` is `round` in value. -/
noncomputable def getIndexes (c : BnCfg) (mean scale : ℝ) : ℝ × ℝ :=
  ((mean - roundHalfEven mean + 1 / 2) * c.numMeans, toScaleIdx c (verysoftplus scale))

/-- `_normalize_indexes` (bottlenecks.py:239-247): `LowerBound(b)(x)` is `max x b`, the upper bounds are
lower bounds of the negation. -/
noncomputable def normalizeIndexes (c : BnCfg) (p : ℝ × ℝ) : ℝ × ℝ :=
  (-max (-max p.1 0) (-((c.numMeans : ℝ) - 1)), -max (-max p.2 0) (-((c.numScales : ℝ) - 1)))

/-- `tensor.int()`: rounds towards zero. -/
noncomputable def truncInt (x : ℝ) : ℤ := if 0 ≤ x then ⌊x⌋ else ⌈x⌉

/-- `indexes_to_cdf_indexes` (bottlenecks.py:282-299). -/
noncomputable def cdfIndex (c : BnCfg) (p : ℝ × ℝ) : ℤ := truncInt p.1 * c.numScales + truncInt p.2

/-- The table entry used for one symbol, as computed by `compress` (422-426). -/
noncomputable def encIndex (c : BnCfg) (mean scale : ℝ) : ℤ :=
  cdfIndex c (normalizeIndexes c (getIndexes c mean scale))

/-- The table entry used for one symbol, as computed by `decompress` (439-443). -/
noncomputable def decIndex (c : BnCfg) (mean scale : ℝ) : ℤ :=
  cdfIndex c (normalizeIndexes c (getIndexes c mean scale))

/-- `update_tables` (bottlenecks.py:149-176) and `_build_tables` (197-211): the parameters of entry `k` of
the flattened table; entry `i * num_scales + j` is for mean index `i` and scale index `j`. -/
noncomputable def tableParams (c : BnCfg) (k : Nat) : ℝ × ℝ :=
  priorParams c ((k / c.numScales : Nat) : ℝ) ((k % c.numScales : Nat) : ℝ)

/-- compressai's `EntropyModel.compress`/`decompress` on one list of symbols with their table entries. -/
structure Coder (S : Type) where
  compress : List ℤ → List ℤ → S
  decompress : S → List ℤ → List ℤ

/-- The coder is lossless for all symbol lists if every index is an index of the table with `N` entries. -/
def Coder.Lossless {S : Type} (e : Coder S) (N : Nat) : Prop :=
  ∀ syms idx : List ℤ, syms.length = idx.length → (∀ i ∈ idx, 0 ≤ i ∧ i < N) →
    e.decompress (e.compress syms idx) idx = syms

/-- `GsnConditionalLocScaleShift.compress` (bottlenecks.py:408-433) on a flattened tensor;
`EntropyModel.compress` rounds its inputs. -/
noncomputable def bnCompress {S : Type} (c : BnCfg) (e : Coder S) (inputs scales means : List ℝ) : List ℝ × S :=
  let idx := List.zipWith (encIndex c) means scales
  let centred := List.zipWith (fun x m => x - (roundHalfEven m : ℝ)) inputs means
  let bytes := e.compress (centred.map roundHalfEven) idx
  let quantized := centred.map (fun x : ℝ => (roundHalfEven x : ℝ))
  (List.zipWith (fun q m => q + (roundHalfEven m : ℝ)) quantized means, bytes)

/-- `GsnConditionalLocScaleShift.decompress` (bottlenecks.py:435-449). -/
noncomputable def bnDecompress {S : Type} (c : BnCfg) (e : Coder S) (string : S) (scales means : List ℝ) : List ℝ :=
  let idx := List.zipWith (decIndex c) means scales
  let outputs := e.decompress string idx
  List.zipWith (fun (o : ℤ) m => (o : ℝ) + (roundHalfEven m : ℝ)) outputs means

end Verif.Vct
