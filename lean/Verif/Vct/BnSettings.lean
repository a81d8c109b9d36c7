import Verif.Vct.Tables

/-!
Model of the constructors of the video bottleneck and of the first calls on a new object,
`/repo/projects/torch_vct/neural/bottlenecks.py`, for all integer table sizes.  Numbers are reals; the result of a division
by zero is `none` (the code has a NaN or an infinity there), and what is computed from it is `none`.
-/

namespace Verif.Vct.BnSettings

open Verif.Vct

/-- The exceptions: `ValueError`, torch's `RuntimeError`, `IndexError`, `AssertionError`. -/
inductive Err
  | value
  | runtime
  | index
  | assertion
  deriving DecidableEq

/-- `Scaler.__init__` (bottlenecks.py:23-33). -/
structure Scaler where
  scalesMin : ℝ := 1 / 100
  scalesMax : ℝ := 256
  numBins : ℤ := 256

/-- A `ContinuousIndexedGaussianConditional` (bottlenecks.py:88-115).  `tables` are the rows of the coding table, none before
the first `update`. -/
structure Bn where
  numMeans : ℤ
  numScales : ℤ
  scaler : Scaler
  tailMass : ℝ
  tables : List Row

/-- `ContinuousIndexedGaussianConditional.__init__` (bottlenecks.py:69-115). -/
noncomputable def gaussianConditional (ranges : ℤ × ℤ) (scaleBound : ℝ := 1 / 100) (tailMass : ℝ := 1 / 256)
    (scaler : Scaler := {}) : Except Err Bn :=
  open Classical in
  if scaler.numBins ≠ ranges.2 then .error .value
  else if scaleBound ≤ 0 then .error .value
  else .ok ⟨ranges.1, ranges.2, scaler, tailMass, []⟩

/-- `GsnConditionalLocScaleShift.__init__` (bottlenecks.py:325-347). -/
noncomputable def locScaleShift (numScales : ℤ := 256) (minScale : ℝ := 1 / 100) (numMeans : ℤ := 100)
    (tailMass : ℝ := 1 / 256) : Except Err Bn :=
  gaussianConditional (numMeans, numScales) minScale tailMass { numBins := numScales, scalesMin := minScale }

/-- A division of floating-point numbers. -/
noncomputable def div (a b : ℝ) : Option ℝ := open Classical in if b = 0 then none else some (a / b)

/-- `Scaler.from_scale_idx` (bottlenecks.py:55-61). -/
noncomputable def scaleOf (s : Scaler) (i : ℝ) : Option ℝ :=
  (div i ((s.numBins : ℝ) - 1)).map fun o =>
    Real.exp (o * Real.log (s.scalesMax / s.scalesMin + 1) + Real.log s.scalesMin)

/-- The means of `_get_prior_params` (bottlenecks.py:131); `_not_one_mean` is 95. -/
noncomputable def meanOf (m : Bn) (i : ℝ) : Option ℝ :=
  (div i m.numMeans).map fun o => o - (if m.numMeans ≠ 1 then 1 / 2 else 0)

/-- `torch.arange(0, r)` (bottlenecks.py:156-159). -/
def arange (r : ℤ) : Except Err (List ℕ) := if r < 0 then .error .runtime else .ok (List.range r.toNat)

/-- `grid.equal(torch.sort(grid).values)` (bottlenecks.py:169-170): false if there is a NaN. -/
def EqualsSorted (grid : List (Option ℝ)) : Prop := ∃ l : List ℝ, grid = l.map some ∧ l.Pairwise (· ≤ ·)

/-- `update_tables` (bottlenecks.py:149-176) with `_build_tables` (178-221): the object afterwards, and the result.  The
grids are two-dimensional; the means do not vary along the columns nor the scales along the rows, and `_prior_mean[:, 0]`
and `_prior_scale[0]` raise if there is no column or no row. -/
noncomputable def update (m : Bn) (force : Bool := true) : Bn × Except Err Bool :=
  open Classical in
  if m.tables ≠ [] ∧ force = false then (m, .ok false)
  else
    match arange m.numMeans, arange m.numScales with
    | .error e, _ => (m, .error e)
    | .ok _, .error e => (m, .error e)
    | .ok is, .ok js =>
      let means := is.map fun i : ℕ => meanOf m i
      let scales := js.map fun j : ℕ => scaleOf m.scaler j
      if js = [] then (m, .error .index)
      else if ¬ EqualsSorted means then (m, .error .assertion)
      else if is = [] then (m, .error .index)
      else if ¬ EqualsSorted scales then (m, .error .assertion)
      else ({ m with tables := means.reduceOption.flatMap fun a => scales.reduceOption.map fun s => buildRow m.tailMass a s },
        .ok true)

/-- The mean and scale index of a symbol (bottlenecks.py:35-53, 361-371); the scale index is rounded outside training. -/
noncomputable def indexes (m : Bn) (training : Bool) (mean scale : ℝ) : ℝ × ℝ :=
  let i := (Real.log (verysoftplus scale + m.scaler.scalesMin) - Real.log m.scaler.scalesMin) /
    Real.log (m.scaler.scalesMax / m.scaler.scalesMin + 1) * ((m.scaler.numBins : ℝ) - 1)
  ((mean - roundHalfEven mean + 1 / 2) * m.numMeans, if training then i else (roundHalfEven i : ℝ))

/-- `_normalize_indexes` (bottlenecks.py:239-247), with the bounds of 105-107. -/
noncomputable def normalize (m : Bn) (p : ℝ × ℝ) : ℝ × ℝ :=
  (-max (-max p.1 0) (-((m.numMeans : ℝ) - 1)), -max (-max p.2 0) (-((m.numScales : ℝ) - 1)))

/-- The likelihood that `GsnConditionalLocScaleShift.forward` returns for one element (bottlenecks.py:249-273, 384-398).  In
training the input gets uniform noise, else it is rounded; compressai bounds likelihoods below by `1e-9`. -/
noncomputable def forward (m : Bn) (training : Bool) (noise input mean scale : ℝ) : Option ℝ :=
  let p := normalize m (indexes m training mean scale)
  let x := input - roundHalfEven mean
  let out := if training then x + noise else (roundHalfEven x : ℝ)
  (meanOf m p.1).bind fun a => (scaleOf m.scaler p.2).map fun s => max (likelihood a s out) (1 / 10 ^ 9)

end Verif.Vct.BnSettings
