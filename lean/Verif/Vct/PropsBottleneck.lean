import Verif.Vct.Bottleneck
import Mathlib.Tactic.Positivity
import Mathlib.Tactic.FieldSimp

/-
C27, C28, C29: scale quantiser, table indices, discretised Gaussian likelihood.
-/
namespace Verif.Vct

open MeasureTheory ProbabilityTheory Set

/-- The default configuration of the video model: 100 means, 256 scales (bottlenecks.py:24-28, 325-329). -/
noncomputable def defaultBn : BnCfg := ⟨100, 256, 1 / 100, 256⟩

theorem defaultBn_ok : defaultBn.Ok := by
  constructor <;> norm_num [defaultBn]

section Scaler
variable {c : BnCfg} (h : c.Ok)
include h

theorem logNorm_pos : 0 < Real.log (c.scalesMax / c.scalesMin + 1) := by
  apply Real.log_pos
  have := div_pos h.max h.min
  linarith

theorem binsPred_pos : (0 : ℝ) < (c.numScales : ℝ) - 1 := by
  have : (2 : ℝ) ≤ c.numScales := by exact_mod_cast h.scales
  linarith

theorem from_to (s : ℝ) (hs : 0 ≤ s) : fromScaleIdx c (toScaleIdx c s) = s + c.scalesMin := by
  have h1 := logNorm_pos h
  have h2 := binsPred_pos h
  have h3 := h.min
  unfold fromScaleIdx toScaleIdx
  have : (Real.log (s + c.scalesMin) - Real.log c.scalesMin) / Real.log (c.scalesMax / c.scalesMin + 1) *
      ((c.numScales : ℝ) - 1) / ((c.numScales : ℝ) - 1) * Real.log (c.scalesMax / c.scalesMin + 1) +
      Real.log c.scalesMin = Real.log (s + c.scalesMin) := by
    rw [mul_div_assoc, div_self h2.ne', mul_one, div_mul_cancel₀ _ h1.ne']; ring
  rw [this, Real.exp_log (by linarith)]

theorem fromScaleIdx_pos (i : ℝ) : 0 < fromScaleIdx c i := Real.exp_pos _

theorem to_from (i : ℝ) : toScaleIdx c (fromScaleIdx c i - c.scalesMin) = i := by
  have h1 := logNorm_pos h
  have h2 := binsPred_pos h
  unfold fromScaleIdx toScaleIdx
  rw [sub_add_cancel, Real.log_exp, add_sub_cancel_right, mul_div_assoc, div_self h1.ne', mul_one,
    div_mul_cancel₀ _ h2.ne']

theorem toScaleIdx_strictMono {s t : ℝ} (hs : 0 ≤ s) (hst : s < t) : toScaleIdx c s < toScaleIdx c t := by
  have h1 := logNorm_pos h
  have h2 := binsPred_pos h
  have h3 := h.min
  unfold toScaleIdx
  have : Real.log (s + c.scalesMin) < Real.log (t + c.scalesMin) :=
    Real.log_lt_log (by linarith) (by linarith)
  gcongr

theorem toScaleIdx_zero : toScaleIdx c 0 = 0 := by
  unfold toScaleIdx
  rw [zero_add, sub_self, zero_div, zero_mul]

theorem toScaleIdx_max : toScaleIdx c c.scalesMax = (c.numScales : ℝ) - 1 := by
  have h1 := logNorm_pos h
  have h3 := h.min
  have h4 := h.max
  unfold toScaleIdx
  rw [← Real.log_div (by linarith) h3.ne', add_div, div_self h3.ne', div_self h1.ne', one_mul]

theorem toScaleIdx_mono {s t : ℝ} (hs : 0 ≤ s) (hst : s ≤ t) : toScaleIdx c s ≤ toScaleIdx c t := by
  rcases hst.eq_or_lt with e | e
  · rw [e]
  · exact (toScaleIdx_strictMono h hs e).le

theorem toScaleIdx_nonneg {s : ℝ} (hs : 0 ≤ s) : 0 ≤ toScaleIdx c s := by
  have := toScaleIdx_mono h le_rfl hs
  rwa [toScaleIdx_zero h] at this

end Scaler

/-- C27 as one would expect it: converting a scale to an index and back returns the scale. -/
def ScalerInverts (c : BnCfg) : Prop := ∀ s, 0 < s → s ≤ c.scalesMax → fromScaleIdx c (toScaleIdx c s) = s

/-- **C27 is violated by the code**, for every configuration: `to_scale_idx` adds `scales_min` and
`from_scale_idx` does not take it off again, so the scale that comes back is too large by `scales_min`. -/
theorem C27_violated (c : BnCfg) (h : c.Ok) : ¬ ScalerInverts c := by
  intro hi
  have h1 := hi c.scalesMax h.max le_rfl
  rw [from_to h _ h.max.le] at h1
  linarith [h.min]

/-- **C27, what holds.**  For all scales in `[0, scales_max]` the index lies in `[0, num_bins - 1]` (also after
rounding, the index used in evaluation), grows strictly with the scale, reaches both ends, and the
scale that comes back is the scale plus `scales_min`; an index converted to a scale and, with
`scales_min` taken off, back is unchanged.  (Missing: the offset `scales_min`.) -/
theorem C27_partial (c : BnCfg) (h : c.Ok) :
    (∀ s, 0 ≤ s → fromScaleIdx c (toScaleIdx c s) = s + c.scalesMin) ∧
    (∀ i, toScaleIdx c (fromScaleIdx c i - c.scalesMin) = i) ∧
    (∀ s, 0 ≤ s → s ≤ c.scalesMax → 0 ≤ toScaleIdx c s ∧ toScaleIdx c s ≤ (c.numScales : ℝ) - 1 ∧
      0 ≤ roundHalfEven (toScaleIdx c s) ∧ roundHalfEven (toScaleIdx c s) < c.numScales) ∧
    (∀ s t, 0 ≤ s → s < t → toScaleIdx c s < toScaleIdx c t) ∧
    toScaleIdx c 0 = 0 ∧ toScaleIdx c c.scalesMax = (c.numScales : ℝ) - 1 := by
  refine ⟨from_to h, to_from h, ?_, fun s t hs hst => toScaleIdx_strictMono h hs hst, toScaleIdx_zero h,
    toScaleIdx_max h⟩
  intro s h0 h1
  have a0 := toScaleIdx_nonneg h h0
  have a1 := toScaleIdx_mono h h0 h1
  rw [toScaleIdx_max h] at a1
  refine ⟨a0, a1, ?_, ?_⟩
  · have := roundHalfEven_mono a0
    rw [show (0 : ℝ) = ((0 : ℤ) : ℝ) by norm_num, roundHalfEven_int] at this
    exact this
  · have := roundHalfEven_mono a1
    rw [show (c.numScales : ℝ) - 1 = (((c.numScales : ℤ) - 1 : ℤ) : ℝ) by push_cast; ring,
      roundHalfEven_int] at this
    omega

example : defaultBn.Ok ∧ fromScaleIdx defaultBn (toScaleIdx defaultBn 1) = 1 + 1 / 100 :=
  ⟨defaultBn_ok, from_to defaultBn_ok 1 (by norm_num)⟩

/-! ### C28 -/

theorem verysoftplus_pos (x : ℝ) : 0 < verysoftplus x := by
  unfold verysoftplus
  split_ifs with hx
  · have := le_max_right x 0; linarith
  · have := min_le_right x 0
    apply one_div_pos.2; linarith

theorem clip_spec (n : Nat) (hn : 1 ≤ n) (x : ℝ) :
    ∃ i : Nat, i < n ∧ truncInt (-max (-max x 0) (-((n : ℝ) - 1))) = i ∧
      ((i : ℝ) ≤ max x 0) ∧ (x < i + 1 ∨ i + 1 = n) := by
  have hn' : (1 : ℝ) ≤ n := by exact_mod_cast hn
  set y := -max (-max x 0) (-((n : ℝ) - 1)) with hy
  have hy' : y = min (max x 0) ((n : ℝ) - 1) := by
    rw [hy, ← min_neg_neg, neg_neg, neg_neg]
  have h0 : 0 ≤ y := by
    rw [hy']; exact le_min (le_max_right _ _) (by linarith)
  have h1 : y ≤ (n : ℝ) - 1 := by rw [hy']; exact min_le_right _ _
  have h2 : 0 ≤ ⌊y⌋ := Int.floor_nonneg.2 h0
  have h3 : ((⌊y⌋.toNat : Nat) : ℤ) = ⌊y⌋ := Int.toNat_of_nonneg h2
  have h4 : ((⌊y⌋.toNat : Nat) : ℝ) = (⌊y⌋ : ℝ) := by exact_mod_cast h3
  have h5 := Int.floor_le y
  have h6 := Int.lt_floor_add_one y
  refine ⟨⌊y⌋.toNat, ?_, ?_, ?_, ?_⟩
  · have : ((⌊y⌋.toNat : Nat) : ℝ) < n := by rw [h4]; linarith
    exact_mod_cast this
  · rw [truncInt, if_pos h0, h3]
  · rw [h4]
    have : y ≤ max x 0 := by rw [hy']; exact min_le_left _ _
    linarith
  · rw [h4]
    by_cases hc : max x 0 ≤ (n : ℝ) - 1
    · left
      rw [min_eq_left hc] at hy'
      have := le_max_left x 0
      linarith
    · right
      push Not at hc
      rw [min_eq_right hc.le] at hy'
      have : ⌊y⌋ = (n : ℤ) - 1 := by
        rw [hy', Int.floor_eq_iff]; push_cast; constructor <;> linarith
      omega

theorem index_spec (c : BnCfg) (h : c.Ok) (mean scale : ℝ) :
    ∃ i j : Nat, i < c.numMeans ∧ j < c.numScales ∧
      encIndex c mean scale = ((i * c.numScales + j : Nat) : ℤ) ∧
      ((i : ℝ) ≤ (mean - roundHalfEven mean + 1 / 2) * c.numMeans ∧
        ((mean - roundHalfEven mean + 1 / 2) * c.numMeans < i + 1 ∨ i + 1 = c.numMeans)) ∧
      ((j : ℝ) ≤ toScaleIdx c (verysoftplus scale) ∧
        (toScaleIdx c (verysoftplus scale) < j + 1 ∨ j + 1 = c.numScales)) := by
  have hm : (0 : ℝ) ≤ (mean - roundHalfEven mean + 1 / 2) * c.numMeans := by
    have := abs_le.1 (roundHalfEven_near mean)
    apply mul_nonneg
    · linarith
    · positivity
  have hs := toScaleIdx_nonneg h (verysoftplus_pos scale).le
  obtain ⟨i, i1, i2, i3, i4⟩ := clip_spec c.numMeans h.means ((mean - roundHalfEven mean + 1 / 2) * c.numMeans)
  obtain ⟨j, j1, j2, j3, j4⟩ := clip_spec c.numScales (by have := h.scales; omega)
    (toScaleIdx c (verysoftplus scale))
  rw [max_eq_left hm] at i3
  rw [max_eq_left hs] at j3
  refine ⟨i, j, i1, j1, ?_, ⟨i3, i4⟩, ⟨j3, j4⟩⟩
  simp only [encIndex, cdfIndex, normalizeIndexes, getIndexes, i2, j2]
  push_cast
  ring

/-- **C28, range and agreement.**  For every predicted mean and scale, the table entry computed by `compress`
is an entry of the table, it is the entry computed by `decompress`, and the assertion that scales are
positive cannot fail. -/
theorem C28_range (c : BnCfg) (h : c.Ok) (mean scale : ℝ) :
    0 ≤ encIndex c mean scale ∧ encIndex c mean scale < c.numMeans * c.numScales ∧
    decIndex c mean scale = encIndex c mean scale ∧
    toScaleIdxChecked c (verysoftplus scale) = some (toScaleIdx c (verysoftplus scale)) := by
  obtain ⟨i, j, hi, hj, e, _⟩ := index_spec c h mean scale
  have : i * c.numScales + j < c.numMeans * c.numScales := by
    calc i * c.numScales + j < i * c.numScales + c.numScales := by omega
      _ = (i + 1) * c.numScales := by ring
      _ ≤ c.numMeans * c.numScales := Nat.mul_le_mul_right _ hi
  refine ⟨by rw [e]; positivity, by rw [e]; exact_mod_cast this, rfl, ?_⟩
  simp only [toScaleIdxChecked, verysoftplus_pos, if_true]

/-- **C28, no ambiguity.**  Two symbols share a table entry exactly if their mean bins and scale bins agree:
`⌊(mean - round mean + 1/2) * num_means⌋` and `⌊scale index⌋`, each limited to the last bin. -/
theorem C28_unambiguous (c : BnCfg) (h : c.Ok) (mean scale mean' scale' : ℝ) :
    let mb := fun m : ℝ => min ⌊(m - roundHalfEven m + 1 / 2) * c.numMeans⌋ ((c.numMeans : ℤ) - 1)
    let sb := fun s : ℝ => min ⌊toScaleIdx c (verysoftplus s)⌋ ((c.numScales : ℤ) - 1)
    encIndex c mean scale = encIndex c mean' scale' ↔ mb mean = mb mean' ∧ sb scale = sb scale' := by
  intro mb sb
  have key : ∀ (n i : Nat) (x : ℝ), i < n → (i : ℝ) ≤ x → (x < i + 1 ∨ i + 1 = n) →
      min ⌊x⌋ ((n : ℤ) - 1) = i := by
    intro n i x hi h1 h2
    have a : (i : ℤ) ≤ ⌊x⌋ := Int.le_floor.2 (by exact_mod_cast h1)
    rcases h2 with h2 | h2
    · have b : ⌊x⌋ < (i : ℤ) + 1 := Int.floor_lt.2 (by exact_mod_cast h2)
      omega
    · omega
  obtain ⟨i, j, hi, hj, e, ⟨m1, m2⟩, ⟨s1, s2⟩⟩ := index_spec c h mean scale
  obtain ⟨i', j', hi', hj', e', ⟨m1', m2'⟩, ⟨s1', s2'⟩⟩ := index_spec c h mean' scale'
  have k1 : mb mean = i := key _ _ _ hi m1 m2
  have k2 : sb scale = j := key _ _ _ hj s1 s2
  have k1' : mb mean' = i' := key _ _ _ hi' m1' m2'
  have k2' : sb scale' = j' := key _ _ _ hj' s1' s2'
  rw [e, e', k1, k1', k2, k2', Nat.cast_inj, Nat.cast_inj, Nat.cast_inj]
  constructor
  · intro hh
    have d : (i * c.numScales + j) / c.numScales = (i' * c.numScales + j') / c.numScales := by rw [hh]
    rw [Nat.mul_comm, Nat.mul_add_div (by omega), Nat.mul_comm i', Nat.mul_add_div (by omega),
      Nat.div_eq_of_lt hj, Nat.div_eq_of_lt hj'] at d
    have d' : i = i' := by simpa using d
    subst d'
    exact ⟨rfl, by omega⟩
  · rintro ⟨rfl, rfl⟩; rfl

/-- **C28, right entry.**  The Gaussian stored at the entry has its mean within `1 / num_means` of the
fractional part of the predicted mean that is coded (if there is more than one mean), and the scale is
at most the predicted scale plus `scales_min`, and within one quantisation step if the predicted
scale is at most `scales_max`. -/
theorem C28_entry (c : BnCfg) (h : c.Ok) (mean scale : ℝ) (hm : c.numMeans ≠ 1) :
    let p := tableParams c (encIndex c mean scale).toNat
    let frac := mean - roundHalfEven mean
    let s := verysoftplus scale + c.scalesMin
    p.1 ≤ frac ∧ frac ≤ p.1 + 1 / c.numMeans ∧ p.2 ≤ s ∧
    (verysoftplus scale ≤ c.scalesMax →
      s ≤ p.2 * Real.exp (Real.log (c.scalesMax / c.scalesMin + 1) / (c.numScales - 1))) := by
  intro p frac s
  obtain ⟨i, j, hi, hj, e, ⟨m1, m2⟩, ⟨s1, s2⟩⟩ := index_spec c h mean scale
  have hk : (encIndex c mean scale).toNat = i * c.numScales + j := by rw [e]; rfl
  have hdiv : (i * c.numScales + j) / c.numScales = i := by
    rw [Nat.mul_comm, Nat.mul_add_div (by omega), Nat.div_eq_of_lt hj, Nat.add_zero]
  have hmod : (i * c.numScales + j) % c.numScales = j := by
    rw [Nat.mul_comm, Nat.mul_add_mod, Nat.mod_eq_of_lt hj]
  have hp : p = ((i : ℝ) / c.numMeans - 1 / 2, fromScaleIdx c j) := by
    show tableParams c _ = _
    rw [hk]
    unfold tableParams priorParams
    rw [hdiv, hmod, if_pos hm]
  have hM : (0 : ℝ) < c.numMeans := by exact_mod_cast h.means
  have l1 := logNorm_pos h
  have l2 := binsPred_pos h
  have hfrac : frac ≤ 1 / 2 := by
    have := abs_le.1 (roundHalfEven_near mean)
    show mean - _ ≤ _
    linarith
  have hs : s = fromScaleIdx c (toScaleIdx c (verysoftplus scale)) := (from_to h _ (verysoftplus_pos scale).le).symm
  refine ⟨?_, ?_, ?_, ?_⟩
  · rw [hp]
    show (i : ℝ) / c.numMeans - 1 / 2 ≤ frac
    have : (i : ℝ) / c.numMeans ≤ frac + 1 / 2 := by rw [div_le_iff₀ hM]; exact m1
    linarith
  · rw [hp]
    show frac ≤ (i : ℝ) / c.numMeans - 1 / 2 + 1 / c.numMeans
    have : frac + 1 / 2 ≤ ((i : ℝ) + 1) / c.numMeans := by
      rw [le_div_iff₀ hM]
      rcases m2 with m2 | m2
      · exact m2.le
      · have : ((i : ℝ) + 1) = c.numMeans := by exact_mod_cast m2
        rw [this]
        nlinarith
    rw [add_div] at this
    linarith
  · rw [hp, hs]
    show fromScaleIdx c j ≤ _
    unfold fromScaleIdx
    gcongr
  · intro hle
    rw [hp, hs]
    show _ ≤ fromScaleIdx c j * _
    unfold fromScaleIdx
    rw [← Real.exp_add, Real.exp_le_exp]
    have hidx : toScaleIdx c (verysoftplus scale) ≤ j + 1 := by
      rcases s2 with s2 | s2
      · exact s2.le
      · have a1 := toScaleIdx_mono h (verysoftplus_pos scale).le hle
        rw [toScaleIdx_max h] at a1
        have : ((j : ℝ) + 1) = c.numScales := by exact_mod_cast s2
        linarith
    have : toScaleIdx c (verysoftplus scale) / ((c.numScales : ℝ) - 1) * Real.log (c.scalesMax / c.scalesMin + 1)
        ≤ (j + 1) / ((c.numScales : ℝ) - 1) * Real.log (c.scalesMax / c.scalesMin + 1) := by gcongr
    have e2 : ((j : ℝ) + 1) / ((c.numScales : ℝ) - 1) * Real.log (c.scalesMax / c.scalesMin + 1) =
      (j : ℝ) / ((c.numScales : ℝ) - 1) * Real.log (c.scalesMax / c.scalesMin + 1) +
        Real.log (c.scalesMax / c.scalesMin + 1) / ((c.numScales : ℝ) - 1) := by ring
    linarith

/-- A concrete case: mean 3.7 has fractional part -0.3, in mean bin 20 of 100. -/
example : ∃ j : Nat, j < 256 ∧ encIndex defaultBn (37 / 10) 0 = ((20 * 256 + j : Nat) : ℤ) := by
  obtain ⟨i, j, hi, hj, e, ⟨m1, m2⟩, _⟩ := index_spec defaultBn defaultBn_ok (37 / 10) 0
  have hr : roundHalfEven (37 / 10) = 4 := roundHalfEven_of_near _ _ (by rw [abs_lt]; norm_num)
  rw [hr] at m1 m2
  refine ⟨j, hj, ?_⟩
  have hi' : i = 20 := by
    simp only [defaultBn] at m1 m2 hi
    have a' : i ≤ 20 := by norm_num at m1; exact m1
    rcases m2 with m2 | m2
    · have b : (19 : ℝ) < i := by norm_num at m2; linarith
      have b' : 19 < i := by exact_mod_cast b
      omega
    · omega
  rw [e, hi']
  rfl

/-! ### C29 -/

/-- **C29, bin mass.**  The likelihood of a value is the probability the Gaussian assigns to the unit bin
around it. -/
theorem C29_bin_mass (mean scale x : ℝ) (hs : 0 < scale) :
    likelihood mean scale x =
      (gaussianReal mean (scale ^ 2).toNNReal).real (Ioc (x - 1 / 2) (x + 1 / 2)) := by
  set μ := gaussianReal mean (scale ^ 2).toNNReal with hμ
  have h1 : μ.real (Ioc (x - 1 / 2) (x + 1 / 2)) = μ.real (Iic (x + 1 / 2)) - μ.real (Iic (x - 1 / 2)) := by
    have hd : Disjoint (Iic (x - 1 / 2)) (Ioc (x - 1 / 2) (x + 1 / 2)) := by
      rw [Set.disjoint_left]
      intro y hy hy'
      exact absurd hy (not_le.2 hy'.1)
    rw [← Iic_union_Ioc_eq_Iic (show x - 1 / 2 ≤ x + 1 / 2 by linarith),
      measureReal_union hd measurableSet_Ioc]
    ring
  rw [h1, hμ, cdf_gaussian _ _ hs, cdf_gaussian _ _ hs]
  unfold likelihood
  rcases le_total 0 (x - mean) with hx | hx
  · rw [abs_of_nonneg hx]
    have e1 : (1 / 2 - (x - mean)) / scale = -((x - 1 / 2 - mean) / scale) := by ring
    have e2 : (-(1 / 2) - (x - mean)) / scale = -((x + 1 / 2 - mean) / scale) := by ring
    rw [e1, e2, Phi_neg, Phi_neg]
    ring
  · rw [abs_of_nonpos hx]
    have e1 : (1 / 2 - -(x - mean)) / scale = ((x + 1 / 2 - mean) / scale) := by ring
    have e2 : (-(1 / 2) - -(x - mean)) / scale = ((x - 1 / 2 - mean) / scale) := by ring
    rw [e1, e2]

theorem pairwise_bins : Pairwise (Function.onFun Disjoint (fun k : ℤ => Ioc ((k : ℝ) - 1 / 2) ((k : ℝ) + 1 / 2))) := by
  intro a b hab
  rw [Function.onFun, Set.disjoint_left]
  rintro y ⟨h1, h2⟩ ⟨h3, h4⟩
  have e1 : (a : ℝ) < b + 1 := by linarith
  have e2 : (b : ℝ) < a + 1 := by linarith
  have e1' : a < b + 1 := by exact_mod_cast e1
  have e2' : b < a + 1 := by exact_mod_cast e2
  omega

/-- **C29.**  For every mean and positive scale the likelihood is positive and below one, symmetric around the
mean, the likelihoods of any finite set of integers sum to at most one, and those of all integers
sum to exactly one. -/
theorem C29_distribution (mean scale : ℝ) (hs : 0 < scale) :
    (∀ x, 0 < likelihood mean scale x ∧ likelihood mean scale x < 1) ∧
    (∀ d, likelihood mean scale (mean + d) = likelihood mean scale (mean - d)) ∧
    (∀ F : Finset ℤ, ∑ k ∈ F, likelihood mean scale k ≤ 1) ∧
    HasSum (fun k : ℤ => likelihood mean scale k) 1 := by
  set μ := gaussianReal mean (scale ^ 2).toNNReal with hμ
  have hsum : HasSum (fun k : ℤ => likelihood mean scale k) 1 := by
    have e : (fun k : ℤ => likelihood mean scale k) =
        fun k : ℤ => (μ (Ioc ((k : ℝ) - 1 / 2) ((k : ℝ) + 1 / 2))).toReal := by
      funext k
      rw [C29_bin_mass _ _ _ hs]
      rfl
    rw [e]
    have hU : (⋃ k : ℤ, Ioc ((k : ℝ) - 1 / 2) ((k : ℝ) + 1 / 2)) = univ := by
      ext y
      simp only [mem_iUnion, mem_univ, iff_true]
      refine ⟨⌈y - 1 / 2⌉, ?_, ?_⟩
      · have := Int.ceil_lt_add_one (y - 1 / 2); linarith
      · have := Int.le_ceil (y - 1 / 2); linarith
    have h1 := measure_iUnion (μ := μ) pairwise_bins (fun k : ℤ => measurableSet_Ioc)
    rw [hU, measure_univ] at h1
    have h2 : HasSum (fun k : ℤ => (μ (Ioc ((k : ℝ) - 1 / 2) ((k : ℝ) + 1 / 2))).toReal)
        (∑' k : ℤ, μ (Ioc ((k : ℝ) - 1 / 2) ((k : ℝ) + 1 / 2))).toReal := by
      rw [ENNReal.tsum_toReal_eq (fun k => measure_ne_top _ _)]
      exact ENNReal.hasSum_toReal (by rw [← h1]; exact ENNReal.one_ne_top)
    rwa [← h1, ENNReal.toReal_one] at h2
  have hpos : ∀ x, 0 < likelihood mean scale x := by
    intro x
    unfold likelihood
    have : (-(1 / 2) - |x - mean|) / scale < (1 / 2 - |x - mean|) / scale := by gcongr; norm_num
    linarith [Phi_strictMono this]
  refine ⟨fun x => ⟨hpos x, ?_⟩, ?_, ?_, hsum⟩
  · unfold likelihood
    have a := Phi_lt_one ((1 / 2 - |x - mean|) / scale)
    have b := Phi_pos ((-(1 / 2) - |x - mean|) / scale)
    linarith
  · intro d
    unfold likelihood
    rw [show mean + d - mean = d by ring, show mean - d - mean = -d by ring, abs_neg]
  · intro F
    exact sum_le_hasSum F (fun k _ => (hpos k).le) hsum

/-- The scales of the tables are positive, so C29 applies to every entry. -/
example (k : Nat) : HasSum (fun n : ℤ =>
    likelihood (tableParams defaultBn k).1 (tableParams defaultBn k).2 n) 1 :=
  (C29_distribution _ _ (fromScaleIdx_pos defaultBn_ok _)).2.2.2

end Verif.Vct
