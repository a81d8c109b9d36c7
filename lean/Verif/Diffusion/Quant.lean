import Verif.Round
import Mathlib.Data.Real.Basic
import Mathlib.Algebra.Order.Round
import Mathlib.Algebra.Order.Archimedean.Real.Basic
import Mathlib.Tactic.FieldSimp
import Mathlib.Tactic.Linarith
import Mathlib.Tactic.Positivity
import Mathlib.Algebra.BigOperators.Group.Finset.Basic
import Mathlib.Algebra.BigOperators.Intervals
import Mathlib.Algebra.Order.BigOperators.Group.Finset

/-
Quantisation of data and the bins of the observation codec, over the real numbers.
-/
namespace Verif.Diffusion

/-- `quantize` (codec.py:555-570) of one value, without floating-point error. -/
noncomputable def quantize (prec : ℕ) (dmin dmax x : ℝ) : ℤ :=
  roundHalfEven ((x - dmin) * (2 ^ prec - 1) / (dmax - dmin))

/-- The value fed to the network for a symbol (codec.py:417-419). -/
noncomputable def dequantize (prec : ℕ) (dmin dmax : ℝ) (k : ℤ) : ℝ :=
  dmin + k * (dmax - dmin) / (2 ^ prec - 1)

theorem two_pow_sub_pos (prec : ℕ) (h : 0 < prec) : (0 : ℝ) < 2 ^ prec - 1 := by
  have : (1 : ℝ) < 2 ^ prec := one_lt_pow₀ (by norm_num) (by omega)
  linarith

/-- **C22** (quantisation).  For every precision and data range, every symbol survives dequantise and
quantise, even when the value handed to the rounding is off by less than one half (which bounds the
floating-point error that can be tolerated). -/
theorem C22_quantize (prec : ℕ) (hp : 0 < prec) (dmin dmax : ℝ) (hr : dmin < dmax) (k : ℤ) :
    quantize prec dmin dmax (dequantize prec dmin dmax k) = k ∧
    ∀ x, |(x - dmin) * (2 ^ prec - 1) / (dmax - dmin) - k| < 1 / 2 → quantize prec dmin dmax x = k := by
  refine ⟨?_, fun x hx => roundHalfEven_of_near _ _ hx⟩
  have h1 := two_pow_sub_pos prec hp
  refine roundHalfEven_of_near _ _ ?_
  have h2 : dmax - dmin ≠ 0 := by linarith
  have e : (dequantize prec dmin dmax k - dmin) * (2 ^ prec - 1) / (dmax - dmin) = k := by
    unfold dequantize
    have h1' := h1.ne'
    generalize (2 : ℝ) ^ prec - 1 = N at *
    generalize dmax - dmin = W at *
    field_simp
    ring
  rw [e]
  norm_num

/-- **C22** (range).  `quantize` maps data in range to symbols that `encode` accepts, and the
dequantised value differs by at most half a step. -/
theorem C22_quantize_range (prec : ℕ) (hp : 0 < prec) (dmin dmax : ℝ) (hr : dmin < dmax) (x : ℝ)
    (h1 : dmin ≤ x) (h2 : x ≤ dmax) :
    0 ≤ quantize prec dmin dmax x ∧ quantize prec dmin dmax x ≤ 2 ^ prec - 1 ∧
    |dequantize prec dmin dmax (quantize prec dmin dmax x) - x| ≤ (dmax - dmin) / (2 ^ prec - 1) / 2 := by
  have hN := two_pow_sub_pos prec hp
  have hW : 0 < dmax - dmin := by linarith
  set y := (x - dmin) * (2 ^ prec - 1) / (dmax - dmin) with hy
  have y0 : 0 ≤ y := by
    rw [hy]; apply div_nonneg _ hW.le; apply mul_nonneg _ hN.le; linarith
  have y1 : y ≤ 2 ^ prec - 1 := by
    rw [hy, div_le_iff₀ hW, mul_comm]
    apply mul_le_mul_of_nonneg_left _ hN.le
    linarith
  have hn := roundHalfEven_near y
  rw [abs_le] at hn
  have hq : quantize prec dmin dmax x = roundHalfEven y := rfl
  refine ⟨?_, ?_, ?_⟩
  · rw [hq]
    have : (-1 : ℝ) < roundHalfEven y := by linarith
    have : (-1 : ℤ) < roundHalfEven y := by exact_mod_cast this
    omega
  · rw [hq]
    have : (roundHalfEven y : ℝ) < 2 ^ prec - 1 + 1 := by linarith
    have : roundHalfEven y < 2 ^ prec - 1 + 1 := by exact_mod_cast this
    omega
  · rw [hq]
    unfold dequantize
    have ex : x = dmin + y * (dmax - dmin) / (2 ^ prec - 1) := by
      rw [hy]
      have h1' := hN.ne'
      have h2' := hW.ne'
      generalize (2 : ℝ) ^ prec - 1 = N at *
      field_simp
      ring
    have e2 : dmin + (roundHalfEven y : ℝ) * (dmax - dmin) / (2 ^ prec - 1) - x =
        ((roundHalfEven y : ℝ) - y) * ((dmax - dmin) / (2 ^ prec - 1)) := by
      rw [ex]; ring
    rw [e2, abs_mul, abs_of_pos (div_pos hW hN)]
    have := roundHalfEven_near y
    have h3 : 0 < (dmax - dmin) / (2 ^ prec - 1) := div_pos hW hN
    nlinarith

/-- The default range and precision meet the hypotheses. -/
example : quantize 8 (-1) 1 (dequantize 8 (-1) 1 200) = 200 :=
  (C22_quantize 8 (by decide) (-1) 1 (by norm_num) 200).1

/-! ### The bins of the observation codec -/

/-- The bin edges in `diag_gaussian_unif_bins` (codec.py:703-707): `np.linspace`. -/
noncomputable def binEdge (prec : ℕ) (dmin dmax : ℝ) (i : ℕ) : ℝ :=
  let n : ℝ := 2 ^ prec
  let lo := dmin - 1 / (n - 1)
  let hi := dmax + 1 / (n - 1)
  lo + i * ((hi - lo) / n)

/-- The cdf at the edges, with the first and last replaced by 0 and 1 (codec.py:709-711), for the
cdf `F` of the Gaussian. -/
noncomputable def binCdf (prec : ℕ) (F : ℝ → ℝ) (dmin dmax : ℝ) (i : ℕ) : ℝ :=
  if i = 0 then 0 else if i = 2 ^ prec then 1 else F (binEdge prec dmin dmax i)

/-- The probability of symbol `i` (codec.py:712). -/
noncomputable def binPmf (prec : ℕ) (F : ℝ → ℝ) (dmin dmax : ℝ) (i : ℕ) : ℝ :=
  binCdf prec F dmin dmax (i + 1) - binCdf prec F dmin dmax i

theorem binEdge_mono (prec : ℕ) (hp : 0 < prec) (dmin dmax : ℝ) (hr : dmin ≤ dmax) (i : ℕ) :
    binEdge prec dmin dmax i < binEdge prec dmin dmax (i + 1) := by
  have hN := two_pow_sub_pos prec hp
  unfold binEdge
  simp only
  have h1 : 0 < 1 / ((2 : ℝ) ^ prec - 1) := by positivity
  have : 0 < (dmax + 1 / ((2 : ℝ) ^ prec - 1) - (dmin - 1 / (2 ^ prec - 1))) / 2 ^ prec := by
    apply div_pos _ (by positivity)
    linarith
  push_cast
  linarith

/-- **C65.**  For every monotone distribution function with values in `[0, 1]` (every Gaussian), the
symbol probabilities of the observation codec are non-negative and sum to one. -/
theorem C65_pmf (prec : ℕ) (hp : 0 < prec) (F : ℝ → ℝ) (hF : Monotone F) (h0 : ∀ x, 0 ≤ F x)
    (h1 : ∀ x, F x ≤ 1) (dmin dmax : ℝ) (hr : dmin ≤ dmax) :
    (∀ i < 2 ^ prec, 0 ≤ binPmf prec F dmin dmax i) ∧
    ∑ i ∈ Finset.range (2 ^ prec), binPmf prec F dmin dmax i = 1 := by
  have h2 : 2 ≤ 2 ^ prec := by
    calc 2 = 2 ^ 1 := rfl
      _ ≤ 2 ^ prec := Nat.pow_le_pow_right (by norm_num) hp
  constructor
  · intro i hi
    unfold binPmf binCdf
    rw [if_neg (by omega)]
    have e1 := h0 (binEdge prec dmin dmax (i + 1))
    have e2 := h1 (binEdge prec dmin dmax i)
    have e3 := hF (binEdge_mono prec hp dmin dmax hr i).le
    split_ifs <;> first | omega | linarith
  · unfold binPmf
    rw [Finset.sum_range_sub]
    unfold binCdf
    rw [if_neg (by omega), if_pos rfl, if_pos rfl]
    ring

/-- **C66** (default range).  When the data range has width 2 (the default [-1, 1]), the edges of the
bin of symbol `k` are exactly half a quantisation step below and above the dequantised value. -/
theorem C66_partial (prec : ℕ) (hp : 0 < prec) (dmin dmax : ℝ) (hr : dmax - dmin = 2) (k : ℕ) :
    binEdge prec dmin dmax k = dequantize prec dmin dmax k - (dmax - dmin) / (2 ^ prec - 1) / 2 ∧
    binEdge prec dmin dmax (k + 1) = dequantize prec dmin dmax k + (dmax - dmin) / (2 ^ prec - 1) / 2 := by
  have hN := two_pow_sub_pos prec hp
  have hd : dmax = dmin + 2 := by linarith
  subst hd
  unfold binEdge dequantize
  have h1 := hN.ne'
  have h2 : (2 : ℝ) ^ prec ≠ 0 := by positivity
  generalize (2 : ℝ) ^ prec = n at *
  push_cast
  constructor <;> field_simp <;> ring

/-- **C66, probabilities** (default range).  When the data range has width 2, the probability of a symbol is the
mass of the distribution within half a quantisation step of the value the network sees; the first symbol also gets
everything below, the last one everything above. -/
theorem C66_mass_partial (prec : ℕ) (hp : 0 < prec) (F : ℝ → ℝ) (dmin dmax : ℝ) (hr : dmax - dmin = 2) (k : ℕ)
    (hk : k < 2 ^ prec) :
    let half := (dmax - dmin) / (2 ^ prec - 1) / 2
    binPmf prec F dmin dmax k =
      (if k + 1 = 2 ^ prec then 1 else F (dequantize prec dmin dmax k + half)) -
        if k = 0 then 0 else F (dequantize prec dmin dmax k - half) := by
  intro half
  obtain ⟨h1, h2⟩ := C66_partial prec hp dmin dmax hr k
  unfold binPmf binCdf
  rw [if_neg (by omega), if_neg (show k ≠ 2 ^ prec by omega), h1, h2]

/-- How far the centre of a bin is from the value of its symbol. -/
theorem bin_centre (prec : ℕ) (hp : 0 < prec) (dmin dmax : ℝ) (k : ℕ) :
    (binEdge prec dmin dmax k + binEdge prec dmin dmax (k + 1)) / 2 - dequantize prec dmin dmax k =
      (dmax - dmin - 2) * ((2 ^ prec - 1) / 2 - k) / (2 ^ prec * (2 ^ prec - 1)) := by
  have h1 := (two_pow_sub_pos prec hp).ne'
  have h2 : (2 : ℝ) ^ prec ≠ 0 := by positivity
  unfold binEdge dequantize
  generalize (2 : ℝ) ^ prec = n at *
  push_cast
  field_simp
  ring

/-- **C66 is violated** for every data range whose width is not 2, for every precision: the code widens the range by
`1 / (n - 1)` whatever its width.  Then no symbol at all is the centre of its bin; for example data in [0, 1] with 8
bits. -/
theorem C66_violated (prec : ℕ) (hp : 0 < prec) (dmin dmax : ℝ) (k : ℕ) :
    (binEdge prec dmin dmax k + binEdge prec dmin dmax (k + 1)) / 2 = dequantize prec dmin dmax k ↔
      dmax - dmin = 2 := by
  have hN := two_pow_sub_pos prec hp
  rw [← sub_eq_zero, bin_centre prec hp, div_eq_zero_iff, mul_eq_zero]
  have h1 : ((2 : ℝ) ^ prec * (2 ^ prec - 1)) ≠ 0 := mul_ne_zero (by positivity) hN.ne'
  have h2 : ((2 : ℝ) ^ prec - 1) / 2 - k ≠ 0 := by
    intro h
    have h3 : (2 : ℝ) ^ prec = 2 * k + 1 := by linarith
    have h4 : 2 ^ prec = 2 * k + 1 := by exact_mod_cast h3
    have h5 : 2 ∣ 2 ^ prec := dvd_pow_self 2 (by omega)
    omega
  constructor
  · rintro ((h | h) | h)
    · linarith
    · exact absurd h h2
    · exact absurd h h1
  · intro h
    exact Or.inl (Or.inl (by linarith))

/-- The range [0, 1] with 8 bits: the first symbol is not the centre of its bin. -/
example : (binEdge 8 0 1 0 + binEdge 8 0 1 1) / 2 ≠ dequantize 8 0 1 0 := fun h => by
  have := (C66_violated 8 (by decide) 0 1 0).1 h
  norm_num at this

end Verif.Diffusion
