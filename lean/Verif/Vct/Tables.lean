import Verif.Vct.Bottleneck

/-!
Model of the coding tables of the video bottleneck, `/repo/projects/torch_vct/neural/bottlenecks.py`, over the reals (the
code uses float32).  The quantisation of the weights to integers is compressai's and not modelled.
-/

namespace Verif.Vct

/-- The quantile function of the standard normal distribution, `sps.norm.ppf`. -/
noncomputable def stdQuantile (p : ℝ) : ℝ := sInf {x | p ≤ Phi x}

/-- `sps.norm(mean, scale).ppf(p)` (bottlenecks.py:183-185). -/
noncomputable def ppf (mean scale p : ℝ) : ℝ := mean + scale * stdQuantile p

/-- A row of the table before quantisation: smallest symbol, weights of the symbols from there on, weight of the escape
symbol. -/
structure Row where
  offset : ℤ
  pmf : List ℝ
  tail : ℝ

/-- What `_pmf_to_cdf` of compressai turns into a row of integers: the weights of the symbols, and of the escape symbol. -/
def Row.weights (r : Row) : List ℝ := r.pmf ++ [r.tail]

/-- `minimas` (bottlenecks.py:184, 187). -/
noncomputable def rowMin (tailMass mean scale : ℝ) : ℤ := ⌊ppf mean scale (tailMass / 2)⌋

/-- `maximas` (bottlenecks.py:185, 188). -/
noncomputable def rowMax (tailMass mean scale : ℝ) : ℤ := ⌈ppf mean scale (1 - tailMass / 2)⌉

/-- `upper`, `lower` and their difference (bottlenecks.py:202-210) for one sample. -/
noncomputable def rowUpper (mean scale x : ℝ) : ℝ := Phi ((1 / 2 - |x - mean|) / scale)

/-- See `rowUpper`. -/
noncomputable def rowLower (mean scale x : ℝ) : ℝ := Phi ((-(1 / 2) - |x - mean|) / scale)

/-- One row of `_build_tables` (bottlenecks.py:178-221); `_pmf_to_cdf` takes the first `pmf_length` weights. -/
noncomputable def buildRow (tailMass mean scale : ℝ) : Row where
  offset := rowMin tailMass mean scale
  pmf := (List.range (rowMax tailMass mean scale - rowMin tailMass mean scale + 1).toNat).map fun k : ℕ =>
    let x := (k : ℝ) + rowMin tailMass mean scale
    rowUpper mean scale x - rowLower mean scale x
  tail := 2 * rowLower mean scale ((0 : ℕ) + rowMin tailMass mean scale)

/-- The grids of means and scales (bottlenecks.py:165-167). -/
noncomputable def meanGrid (c : BnCfg) : List ℝ := (List.range c.numMeans).map fun i : ℕ => (priorParams c i 0).1

/-- See `meanGrid`. -/
noncomputable def scaleGrid (c : BnCfg) : List ℝ := (List.range c.numScales).map fun j : ℕ => (priorParams c 0 j).2

/-- The rows, in the order of the flattened grid (bottlenecks.py:156-161, 197-198, 211). -/
noncomputable def buildTables (c : BnCfg) (tailMass : ℝ) : List Row :=
  (meanGrid c).flatMap fun m => (scaleGrid c).map fun s => buildRow tailMass m s

/-- The indexes that `forward` uses in evaluation (bottlenecks.py:50-51, 267, 384-395): the scale index is rounded, the mean
index is not. -/
noncomputable def evalIndexes (c : BnCfg) (mean scale : ℝ) : ℝ × ℝ :=
  normalizeIndexes c ((getIndexes c mean scale).1, ((roundHalfEven (getIndexes c mean scale).2 : ℤ) : ℝ))

/-- The likelihood that `forward` returns in evaluation for an input (bottlenecks.py:249-273, 394-400), before the bound on
likelihoods; `dequantize` rounds. -/
noncomputable def evalLikelihood (c : BnCfg) (input mean scale : ℝ) : ℝ :=
  let p := priorParams c (evalIndexes c mean scale).1 (evalIndexes c mean scale).2
  likelihood p.1 p.2 (roundHalfEven (input - roundHalfEven mean))

/-- `_find_idx_of_first_smallest` (bottlenecks.py:275-280): position of the first grid value that is not less; the first
position if there is none (the maximum of all `False`). -/
noncomputable def findFirst (x : ℝ) (grid : List ℝ) : ℕ :=
  open Classical in
  let i := grid.findIdx fun g => decide (x ≤ g)
  if i < grid.length then i else 0

/-- `build_indexes` (bottlenecks.py:301-317). -/
noncomputable def buildIndexes (c : BnCfg) (mean scale : ℝ) : ℕ :=
  findFirst mean (meanGrid c) * c.numScales + findFirst scale (scaleGrid c)

end Verif.Vct
