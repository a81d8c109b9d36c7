import Verif.Vct.Tables
import Verif.Vct.PropsBottleneck
import Mathlib.Algebra.BigOperators.Intervals
import Mathlib.Topology.Order.LeftRightLim

/-!
C101: coding tables of the video bottleneck.
-/

namespace Verif.Vct

open MeasureTheory ProbabilityTheory Set Filter

/-! ### Specification -/

/-- The probability that a Gaussian value lies in a set. -/
noncomputable def mass (mean scale : ℝ) (A : Set ℝ) : ℝ := (gaussianReal mean (scale ^ 2).toNNReal).real A

/-- The values that round to `k`, up to ties. -/
def bin (k : ℤ) : Set ℝ := Ioc ((k : ℝ) - 1 / 2) ((k : ℝ) + 1 / 2)

/-! ### Quantiles -/

theorem Phi_continuous : Continuous Phi := by
  rw [continuous_iff_continuousAt]
  intro x
  have hm : Monotone Phi := Phi_mono
  have h0 : (cdf (gaussianReal 0 1)).measure {x} = 0 := by
    rw [measure_cdf]
    haveI : NullSingletonClass (gaussianReal 0 1) := nullSingletonClass_gaussianReal one_ne_zero
    exact measure_singleton x
  rw [StieltjesFunction.measure_singleton, ENNReal.ofReal_eq_zero] at h0
  have h1 : Function.leftLim (cdf (gaussianReal 0 1)) x ≤ cdf (gaussianReal 0 1) x :=
    (cdf (gaussianReal 0 1)).mono.leftLim_le le_rfl
  have h2 : Function.leftLim (cdf (gaussianReal 0 1)) x = cdf (gaussianReal 0 1) x := le_antisymm h1 (by linarith)
  refine (hm.continuousAt_iff_leftLim_eq_rightLim).2 ?_
  have h3 : Function.rightLim (cdf (gaussianReal 0 1)) x = cdf (gaussianReal 0 1) x :=
    (cdf (gaussianReal 0 1)).rightLim_eq x
  exact h2.trans h3.symm

theorem Phi_stdQuantile {p : ℝ} (h0 : 0 < p) (h1 : p < 1) : Phi (stdQuantile p) = p := by
  have hb : ∃ a, Phi a < p :=
    ((tendsto_cdf_atBot (gaussianReal 0 1)).eventually (gt_mem_nhds h0)).exists
  have ht : ∃ b, p < Phi b :=
    ((tendsto_cdf_atTop (gaussianReal 0 1)).eventually (lt_mem_nhds h1)).exists
  obtain ⟨a, ha⟩ := hb
  obtain ⟨b, hb⟩ := ht
  have hab : a ≤ b := by
    by_contra h
    have := Phi_mono (not_le.mp h).le
    linarith
  obtain ⟨z, -, hz⟩ := intermediate_value_Icc hab Phi_continuous.continuousOn ⟨ha.le, hb.le⟩
  have : {x | p ≤ Phi x} = Ici z := by
    ext x
    simp only [mem_setOf_eq, mem_Ici]
    rw [← hz]
    exact Phi_strictMono.le_iff_le
  unfold stdQuantile
  rw [this, csInf_Ici, hz]

theorem stdQuantile_symm {p : ℝ} (h0 : 0 < p) (h1 : p < 1) : stdQuantile (1 - p) = -stdQuantile p := by
  apply Phi_strictMono.injective
  rw [Phi_stdQuantile (by linarith) (by linarith), Phi_neg, Phi_stdQuantile h0 h1]

theorem stdQuantile_neg {p : ℝ} (h0 : 0 < p) (h1 : p < 1 / 2) : stdQuantile p < 0 := by
  rw [← Phi_strictMono.lt_iff_lt, Phi_stdQuantile h0 (by linarith), Phi_zero]
  exact h1

theorem mass_Iic {mean scale : ℝ} (hs : 0 < scale) (x : ℝ) : mass mean scale (Iic x) = Phi ((x - mean) / scale) :=
  cdf_gaussian mean scale hs x

theorem mass_Ioi {mean scale : ℝ} (hs : 0 < scale) (x : ℝ) : mass mean scale (Ioi x) = 1 - Phi ((x - mean) / scale) := by
  rw [← mass_Iic hs, mass, mass, ← compl_Iic, measureReal_compl measurableSet_Iic, probReal_univ]

/-! ### The range -/

/-- **C101, range.** The symbols of a row include an integer, and on each side the Gaussian leaves at most half of the tail
mass to values that round to integers outside. -/
theorem C101_range {t mean scale : ℝ} (h0 : 0 < t) (h1 : t < 1) (hs : 0 < scale) :
    rowMin t mean scale ≤ rowMax t mean scale ∧
    mass mean scale (Iic ((rowMin t mean scale : ℝ) - 1 / 2)) ≤ t / 2 ∧
    mass mean scale (Ioi ((rowMax t mean scale : ℝ) + 1 / 2)) ≤ t / 2 := by
  have hz := stdQuantile_neg (p := t / 2) (by linarith) (by linarith)
  have hy := stdQuantile_symm (p := t / 2) (by linarith) (by linarith)
  have f1 := Int.floor_le (ppf mean scale (t / 2))
  have f2 := Int.le_ceil (ppf mean scale (1 - t / 2))
  have hneg : scale * stdQuantile (t / 2) < 0 := mul_neg_of_pos_of_neg hs hz
  refine ⟨?_, ?_, ?_⟩
  · have : ((rowMin t mean scale : ℤ) : ℝ) ≤ (rowMax t mean scale : ℤ) := by
      unfold rowMin rowMax
      have e1 : ppf mean scale (t / 2) = mean + scale * stdQuantile (t / 2) := rfl
      have e2 : ppf mean scale (1 - t / 2) = mean + scale * -stdQuantile (t / 2) := by unfold ppf; rw [hy]
      rw [e1] at f1 ⊢; rw [e2] at f2 ⊢
      nlinarith
    exact_mod_cast this
  · rw [mass_Iic hs]
    calc Phi (((rowMin t mean scale : ℝ) - 1 / 2 - mean) / scale) ≤ Phi (stdQuantile (t / 2)) := by
          apply Phi_mono
          rw [div_le_iff₀ hs]
          unfold rowMin
          unfold ppf at f1 ⊢
          linarith
      _ = t / 2 := Phi_stdQuantile (by linarith) (by linarith)
  · rw [mass_Ioi hs]
    have : Phi (stdQuantile (1 - t / 2)) ≤ Phi (((rowMax t mean scale : ℝ) + 1 / 2 - mean) / scale) := by
      apply Phi_mono
      rw [le_div_iff₀ hs]
      unfold rowMax
      unfold ppf at f2 ⊢
      linarith
    rw [Phi_stdQuantile (by linarith) (by linarith)] at this
    linarith

/-! ### The weights -/

theorem rowMin_le_mean {t mean scale : ℝ} (h0 : 0 < t) (h1 : t < 1) (hs : 0 < scale) : (rowMin t mean scale : ℝ) ≤ mean := by
  have hz := stdQuantile_neg (p := t / 2) (by linarith) (by linarith)
  have f1 := Int.floor_le (ppf mean scale (t / 2))
  have : scale * stdQuantile (t / 2) < 0 := mul_neg_of_pos_of_neg hs hz
  unfold rowMin
  unfold ppf at f1 ⊢
  linarith

/-- **C101, weights.** The weights of the symbols are the probabilities of their bins, for each symbol of the range; the weight
of the escape symbol is twice the probability of the values below the range. -/
theorem C101_weights {t mean scale : ℝ} (h0 : 0 < t) (h1 : t < 1) (hs : 0 < scale) :
    (buildRow t mean scale).weights =
      ((List.range (rowMax t mean scale - rowMin t mean scale + 1).toNat).map
        fun k : ℕ => mass mean scale (bin (rowMin t mean scale + k))) ++
      [2 * mass mean scale (Iic ((rowMin t mean scale : ℝ) - 1 / 2))] := by
  unfold Row.weights buildRow
  dsimp only
  congr 1
  · refine List.map_congr_left fun k _ => ?_
    have := C29_bin_mass mean scale ((k : ℝ) + rowMin t mean scale) hs
    unfold likelihood at this
    unfold rowUpper rowLower
    rw [this]
    unfold mass bin
    push_cast
    rw [add_comm ((rowMin t mean scale : ℤ) : ℝ) (k : ℝ)]
  · rw [mass_Iic hs]
    unfold rowLower
    have := rowMin_le_mean (mean := mean) h0 h1 hs
    rw [Nat.cast_zero, zero_add, abs_of_nonpos (by linarith)]
    congr 4
    ring

theorem sum_bins {mean scale : ℝ} (hs : 0 < scale) (a : ℤ) : ∀ n : ℕ,
    ((List.range n).map fun k : ℕ => mass mean scale (bin (a + k))).sum =
      mass mean scale (Iic ((a : ℝ) + n - 1 / 2)) - mass mean scale (Iic ((a : ℝ) - 1 / 2))
  | 0 => by simp
  | n + 1 => by
    rw [List.range_succ, List.map_append, List.sum_append, sum_bins hs a n]
    have e : mass mean scale (bin (a + n)) =
        mass mean scale (Iic ((a : ℝ) + (n + 1 : ℕ) - 1 / 2)) - mass mean scale (Iic ((a : ℝ) + n - 1 / 2)) := by
      have hd : Disjoint (Iic ((a : ℝ) + n - 1 / 2)) (bin (a + n)) := by
        rw [Set.disjoint_left]
        intro y hy hy'
        unfold bin at hy'
        push_cast at hy'
        exact absurd hy (not_le.2 hy'.1)
      have hu : Iic ((a : ℝ) + (n + 1 : ℕ) - 1 / 2) = Iic ((a : ℝ) + n - 1 / 2) ∪ bin (a + n) := by
        unfold bin
        push_cast
        rw [Iic_union_Ioc_eq_Iic (by linarith)]
        congr 1; ring
      rw [hu, mass, mass, mass, measureReal_union hd (by unfold bin; exact measurableSet_Ioc)]
      ring
    simp only [List.map_cons, List.map_nil, List.sum_cons, List.sum_nil, add_zero]
    rw [e]
    ring

/-- The sum of the weights. -/
theorem sum_weights {t mean scale : ℝ} (h0 : 0 < t) (h1 : t < 1) (hs : 0 < scale) :
    (buildRow t mean scale).weights.sum =
      1 + mass mean scale (Iic ((rowMin t mean scale : ℝ) - 1 / 2)) -
        mass mean scale (Ioi ((rowMax t mean scale : ℝ) + 1 / 2)) := by
  obtain ⟨hle, -⟩ := C101_range (mean := mean) h0 h1 hs
  rw [C101_weights h0 h1 hs, List.sum_append, sum_bins hs, mass_Ioi hs, mass_Iic hs ((_ : ℝ) + _ - _)]
  have e : (((rowMax t mean scale - rowMin t mean scale + 1).toNat : ℕ) : ℝ) =
      (rowMax t mean scale : ℝ) - rowMin t mean scale + 1 := by
    have : (((rowMax t mean scale - rowMin t mean scale + 1).toNat : ℕ) : ℤ) =
      rowMax t mean scale - rowMin t mean scale + 1 := Int.toNat_of_nonneg (by omega)
    exact_mod_cast this
  rw [e]
  have e2 : ((rowMin t mean scale : ℝ) + ((rowMax t mean scale : ℝ) - rowMin t mean scale + 1) - 1 / 2) =
    (rowMax t mean scale : ℝ) + 1 / 2 := by ring
  rw [e2]
  simp only [List.sum_cons, List.sum_nil]
  ring

/-- **C101, what the weights sum to:** one up to half of the tail mass. -/
theorem C101_sum_partial {t mean scale : ℝ} (h0 : 0 < t) (h1 : t < 1) (hs : 0 < scale) :
    |(buildRow t mean scale).weights.sum - 1| ≤ t / 2 := by
  obtain ⟨-, a, b⟩ := C101_range (mean := mean) h0 h1 hs
  rw [sum_weights h0 h1 hs, abs_le]
  have n1 : 0 ≤ mass mean scale (Iic ((rowMin t mean scale : ℝ) - 1 / 2)) := measureReal_nonneg
  have n2 : 0 ≤ mass mean scale (Ioi ((rowMax t mean scale : ℝ) + 1 / 2)) := measureReal_nonneg
  constructor <;> linarith

/-- **C101, violated: the weights are a distribution only for means that are multiples of one half.**  For all others the escape
symbol gets another weight than the probability of the values outside the range. -/
theorem C101_sum_iff {t mean scale : ℝ} (h0 : 0 < t) (h1 : t < 1) (hs : 0 < scale) :
    (buildRow t mean scale).weights.sum = 1 ↔ ∃ k : ℤ, 2 * mean = k := by
  have hy := stdQuantile_symm (p := t / 2) (by linarith) (by linarith)
  rw [sum_weights h0 h1 hs, mass_Iic hs, mass_Ioi hs]
  have e : 1 - Phi (((rowMax t mean scale : ℝ) + 1 / 2 - mean) / scale) =
      Phi (-(((rowMax t mean scale : ℝ) + 1 / 2 - mean) / scale)) := by rw [Phi_neg]
  rw [e]
  constructor
  · intro h
    have h' : Phi (((rowMin t mean scale : ℝ) - 1 / 2 - mean) / scale) =
      Phi (-(((rowMax t mean scale : ℝ) + 1 / 2 - mean) / scale)) := by linarith
    have h2 := Phi_strictMono.injective h'
    rw [← neg_div, div_left_inj' hs.ne'] at h2
    refine ⟨rowMin t mean scale + rowMax t mean scale, ?_⟩
    push_cast
    linarith
  · rintro ⟨k, hk⟩
    have hmax : rowMax t mean scale = k - rowMin t mean scale := by
      unfold rowMax rowMin ppf
      rw [hy, show mean + scale * -stdQuantile (t / 2) = -(mean + scale * stdQuantile (t / 2)) + (k : ℤ) by
        rw [← hk]; ring, Int.ceil_add_intCast, Int.ceil_neg]
      ring
    have : (rowMax t mean scale : ℝ) = k - rowMin t mean scale := by exact_mod_cast hmax
    rw [this]
    have e3 : -(((k : ℝ) - rowMin t mean scale + 1 / 2 - mean) / scale) = ((rowMin t mean scale : ℝ) - 1 / 2 - mean) / scale := by
      rw [← neg_div]; congr 1; rw [← hk]; ring
    rw [e3]
    ring

/-! ### The tables -/

theorem scaleGrid_length (c : BnCfg) : (scaleGrid c).length = c.numScales := by simp [scaleGrid]

theorem getElem?_flatMap_grid {α β γ : Type*} (f : α → β → γ) (ys : List β) : ∀ (xs : List α) (i j : ℕ), j < ys.length →
    (xs.flatMap fun x => ys.map (f x))[i * ys.length + j]? = (xs[i]?).bind fun x => (ys[j]?).map (f x)
  | [], i, j, h => by simp
  | x :: xs, 0, j, h => by
    simp only [List.flatMap_cons, Nat.zero_mul, Nat.zero_add]
    rw [List.getElem?_append_left (by simpa using h)]
    simp
  | x :: xs, i + 1, j, h => by
    simp only [List.flatMap_cons]
    rw [List.getElem?_append_right (by simp [Nat.succ_mul]; omega)]
    simp only [List.length_map, List.getElem?_cons_succ]
    rw [show (i + 1) * ys.length + j - ys.length = i * ys.length + j by rw [Nat.succ_mul]; omega]
    exact getElem?_flatMap_grid f ys xs i j h

/-- **C101, the row of a symbol.** There is a row for each pair of indexes, and the row that `compress` and `decompress` use for
a predicted mean and scale is the one that was built for mean `i / num_means - 1/2` (0 if there is one mean) and the scale of
index `j`, where `i` and `j` are the bins of mean and scale. -/
theorem C101_lookup {c : BnCfg} (h : c.Ok) (t mean scale : ℝ) :
    (buildTables c t).length = c.numMeans * c.numScales ∧
    ∃ i j : ℕ, (i : ℤ) = min ⌊(mean - roundHalfEven mean + 1 / 2) * c.numMeans⌋ ((c.numMeans : ℤ) - 1) ∧
      (j : ℤ) = min ⌊toScaleIdx c (verysoftplus scale)⌋ ((c.numScales : ℤ) - 1) ∧
      (buildTables c t)[(encIndex c mean scale).toNat]? =
        some (buildRow t ((i : ℝ) / c.numMeans - (if c.numMeans ≠ 1 then 1 / 2 else 0)) (fromScaleIdx c j)) := by
  have key : ∀ (n i : Nat) (x : ℝ), i < n → (i : ℝ) ≤ x → (x < i + 1 ∨ i + 1 = n) →
      (i : ℤ) = min ⌊x⌋ ((n : ℤ) - 1) := by
    intro n i x hi h1 h2
    have a : (i : ℤ) ≤ ⌊x⌋ := Int.le_floor.2 (by exact_mod_cast h1)
    rcases h2 with h2 | h2
    · have b : ⌊x⌋ < (i : ℤ) + 1 := Int.floor_lt.2 (by exact_mod_cast h2)
      omega
    · omega
  refine ⟨by simp [buildTables, meanGrid, scaleGrid, List.length_flatMap, Function.comp_def], ?_⟩
  obtain ⟨i, j, hi, hj, e, ⟨m1, m2⟩, ⟨s1, s2⟩⟩ := index_spec c h mean scale
  refine ⟨i, j, key _ _ _ hi m1 m2, key _ _ _ hj s1 s2, ?_⟩
  rw [e, Int.toNat_natCast]
  have hl : (scaleGrid c).length = c.numScales := by simp [scaleGrid]
  have := getElem?_flatMap_grid (fun m s => buildRow t m s) (scaleGrid c) (meanGrid c) i j (by rw [hl]; exact hj)
  rw [hl] at this
  unfold buildTables
  rw [this]
  simp [meanGrid, scaleGrid, hi, hj, priorParams]

/-- **C101, the assertions on the grids hold:** means and scales increase strictly. -/
theorem C101_sorted {c : BnCfg} (h : c.Ok) : (meanGrid c).Pairwise (· < ·) ∧ (scaleGrid c).Pairwise (· < ·) := by
  have hM : (0 : ℝ) < c.numMeans := by exact_mod_cast h.means
  constructor
  · unfold meanGrid
    rw [List.pairwise_map]
    refine List.Pairwise.imp ?_ List.pairwise_lt_range
    intro a b hab
    have : (a : ℝ) < b := by exact_mod_cast hab
    simp only [priorParams]
    gcongr
  · unfold scaleGrid
    rw [List.pairwise_map]
    refine List.Pairwise.imp ?_ List.pairwise_lt_range
    intro a b hab
    have : (a : ℝ) < b := by exact_mod_cast hab
    have l1 := logNorm_pos h
    have l2 := binsPred_pos h
    simp only [priorParams, fromScaleIdx]
    gcongr

/-- **C101, the default table:** of the 100 means only two have rows that are distributions. -/
theorem C101_violated_default (i j : ℕ) (hi : i < 100) (hj : j < 256) {t : ℝ} (h0 : 0 < t) (h1 : t < 1) :
    ∃ r, (buildTables defaultBn t)[i * 256 + j]? = some r ∧ (r.weights.sum = 1 ↔ i = 0 ∨ i = 50) := by
  have hl : (scaleGrid defaultBn).length = 256 := by rw [scaleGrid_length]; rfl
  have hs0 : 0 < (priorParams defaultBn 0 j).2 := fromScaleIdx_pos defaultBn_ok _
  have := getElem?_flatMap_grid (fun m s => buildRow t m s) (scaleGrid defaultBn) (meanGrid defaultBn) i j (by rw [hl]; exact hj)
  rw [hl] at this
  refine ⟨buildRow t ((priorParams defaultBn i 0).1) ((priorParams defaultBn 0 j).2), ?_, ?_⟩
  · unfold buildTables
    rw [this]
    have hi' : i < defaultBn.numMeans := hi
    have hj' : j < defaultBn.numScales := hj
    simp [meanGrid, scaleGrid, hi', hj']
  · rw [C101_sum_iff h0 h1 hs0]
    have e : (priorParams defaultBn i 0).1 = (i : ℝ) / 100 - 1 / 2 := by norm_num [priorParams, defaultBn]
    rw [e]
    constructor
    · rintro ⟨k, hk⟩
      have h50 : (i : ℝ) = 50 * (k + 1) := by linarith
      have : (i : ℤ) = 50 * (k + 1) := by exact_mod_cast h50
      omega
    · rintro (rfl | rfl)
      · exact ⟨-1, by norm_num⟩
      · exact ⟨0, by norm_num⟩

/-! ### Estimated rate -/

theorem verysoftplus_surj {s : ℝ} (hs : 0 < s) : ∃ x, verysoftplus x = s := by
  by_cases h : 1 < s
  · refine ⟨s - 1, ?_⟩
    unfold verysoftplus
    rw [if_pos (by linarith), max_eq_left (by linarith)]
    ring
  · refine ⟨1 - 1 / s, ?_⟩
    have : 1 ≤ 1 / s := by rw [le_div_iff₀ hs]; linarith
    unfold verysoftplus
    rw [if_neg (by linarith), min_eq_left (by linarith)]
    field_simp
    ring

/-- **C101, estimated rate, violated for every configuration:** there are predicted scales for which the likelihood in
evaluation is computed with another scale than that of the row that codes the symbol, since the one rounds and the other
truncates the index. -/
theorem C101_violated_estimate {c : BnCfg} (h : c.Ok) :
    ∃ scale, ∀ mean, fromScaleIdx c (evalIndexes c mean scale).2 ≠ (tableParams c (encIndex c mean scale).toNat).2 := by
  have hp : 0 < fromScaleIdx c (3 / 4) - c.scalesMin := by
    have l1 := logNorm_pos h
    have l2 := binsPred_pos h
    unfold fromScaleIdx
    rw [Real.exp_add, Real.exp_log h.min]
    have : 1 < Real.exp (3 / 4 / ((c.numScales : ℝ) - 1) * Real.log (c.scalesMax / c.scalesMin + 1)) := by
      rw [Real.one_lt_exp_iff]; positivity
    nlinarith [h.min]
  obtain ⟨x, hx⟩ := verysoftplus_surj hp
  refine ⟨x, fun mean => ?_⟩
  have hidx : toScaleIdx c (verysoftplus x) = 3 / 4 := by rw [hx, to_from h]
  obtain ⟨i, j, hi, hj, e, -, ⟨s1, s2⟩⟩ := index_spec c h mean x
  rw [hidx] at s1 s2
  have hj0 : j = 0 := by
    by_contra hne
    have : (1 : ℝ) ≤ j := by exact_mod_cast Nat.one_le_iff_ne_zero.2 hne
    linarith
  subst hj0
  have hmod : (i * c.numScales + 0) % c.numScales = 0 := by simp
  have e1 : (tableParams c (encIndex c mean x).toNat).2 = fromScaleIdx c 0 := by
    rw [e, Int.toNat_natCast]
    unfold tableParams priorParams
    rw [hmod]
    simp
  have e2 : (evalIndexes c mean x).2 = 1 := by
    unfold evalIndexes normalizeIndexes getIndexes
    simp only
    rw [hidx, roundHalfEven_of_near (3 / 4) 1 (by rw [abs_lt]; norm_num)]
    have h2 : (2 : ℝ) ≤ c.numScales := by exact_mod_cast h.scales
    rw [Int.cast_one, max_eq_left (by norm_num : (0 : ℝ) ≤ 1), max_eq_left (by linarith)]
    ring
  rw [e1, e2]
  have l1 := logNorm_pos h
  have l2 := binsPred_pos h
  have : fromScaleIdx c 0 < fromScaleIdx c 1 := by
    unfold fromScaleIdx
    gcongr
    norm_num
  exact this.ne'

/-- **C101, estimated rate, what holds:** if mean and scale have integer indexes within the table, the likelihood in evaluation
is the weight of the symbol in the row that codes it. -/
theorem C101_estimate_partial {c : BnCfg} (h : c.Ok) {t input mean scale : ℝ} {i j : ℕ} (hi : i < c.numMeans)
    (hj : j < c.numScales)
    (hmi : (mean - roundHalfEven mean + 1 / 2) * c.numMeans = i) (hsj : toScaleIdx c (verysoftplus scale) = j) :
    ∃ r, (buildTables c t)[(encIndex c mean scale).toNat]? = some r ∧
      ∀ k : ℕ, k < r.pmf.length → roundHalfEven (input - roundHalfEven mean) = r.offset + k →
        r.weights[k]? = some (evalLikelihood c input mean scale) := by
  obtain ⟨-, i', j', ei, ej, hr⟩ := C101_lookup h t mean scale
  rw [hmi, Int.floor_natCast] at ei
  rw [hsj, Int.floor_natCast] at ej
  have : i' = i := by omega
  have : j' = j := by omega
  subst i' j'
  refine ⟨_, hr, fun k hk hsym => ?_⟩
  have hE : evalIndexes c mean scale = ((i : ℝ), (j : ℝ)) := by
    unfold evalIndexes normalizeIndexes getIndexes
    simp only
    rw [hmi, hsj]
    have r1 : roundHalfEven ((j : ℕ) : ℝ) = (j : ℤ) := by
      have := roundHalfEven_int (j : ℤ)
      simpa using this
    rw [r1, Int.cast_natCast]
    have a1 : (i : ℝ) + 1 ≤ c.numMeans := by exact_mod_cast hi
    have a2 : (j : ℝ) + 1 ≤ c.numScales := by exact_mod_cast hj
    have a3 : (0 : ℝ) ≤ i := by positivity
    have a4 : (0 : ℝ) ≤ j := by positivity
    rw [max_eq_left a3, max_eq_left a4, max_eq_left (by linarith), max_eq_left (by linarith), neg_neg, neg_neg]
  unfold Row.weights
  rw [List.getElem?_append_left hk]
  unfold evalLikelihood
  rw [hE, hsym]
  simp only [buildRow, List.length_map, List.length_range] at hk
  simp only [buildRow, List.getElem?_map, List.getElem?_range hk, Option.map_some, priorParams, likelihood, rowUpper, rowLower]
  push_cast
  rw [add_comm (k : ℝ)]

/-! ### `build_indexes` -/

theorem findFirst_spec {x : ℝ} {grid : List ℝ} (hx : ∃ g ∈ grid, x ≤ g) :
    ∃ hlt : findFirst x grid < grid.length, x ≤ grid[findFirst x grid] ∧
      ∀ k (hk : k < findFirst x grid), grid[k]'(hk.trans hlt) < x := by
  classical
  have h1 : grid.findIdx (fun g => decide (x ≤ g)) < grid.length := by
    rw [List.findIdx_lt_length]
    obtain ⟨g, hg, hle⟩ := hx
    exact ⟨g, hg, by simpa using hle⟩
  have e : findFirst x grid = grid.findIdx (fun g => decide (x ≤ g)) := by
    unfold findFirst
    simp only
    rw [if_pos h1]
  refine ⟨by rw [e]; exact h1, ?_, ?_⟩
  · have := List.findIdx_getElem (w := h1)
    simp only [e]
    simpa using this
  · intro k hk
    rw [e] at hk
    have := List.not_of_lt_findIdx hk
    simpa using this

/-- **C101, `build_indexes`, what holds:** for parameters up to the largest of the grids it is the row of the least mean and
scale of the grid that are not less. -/
theorem C101_build_indexes_partial {c : BnCfg} {mean scale : ℝ}
    (hm : ∃ g ∈ meanGrid c, mean ≤ g) (hs : ∃ g ∈ scaleGrid c, scale ≤ g) :
    ∃ i j m s, buildIndexes c mean scale = i * c.numScales + j ∧ (meanGrid c)[i]? = some m ∧ (scaleGrid c)[j]? = some s ∧
      mean ≤ m ∧ scale ≤ s ∧ (∀ k < i, ∀ g, (meanGrid c)[k]? = some g → g < mean) ∧
      ∀ k < j, ∀ g, (scaleGrid c)[k]? = some g → g < scale := by
  obtain ⟨l1, a1, b1⟩ := findFirst_spec hm
  obtain ⟨l2, a2, b2⟩ := findFirst_spec hs
  refine ⟨_, _, _, _, rfl, List.getElem?_eq_getElem l1, List.getElem?_eq_getElem l2, a1, a2, ?_, ?_⟩
  · intro k hk g hg
    rw [List.getElem?_eq_getElem (hk.trans l1)] at hg
    cases hg
    exact b1 k hk
  · intro k hk g hg
    rw [List.getElem?_eq_getElem (hk.trans l2)] at hg
    cases hg
    exact b2 k hk

/-- **C101, `build_indexes`, violated:** a scale above the largest of the grid gets the row of the smallest scale. -/
theorem C101_violated_build_indexes {c : BnCfg} (h : c.Ok) {mean scale : ℝ} (hs : ∀ g ∈ scaleGrid c, g < scale) :
    ∃ i, buildIndexes c mean scale = i * c.numScales + 0 ∧ (scaleGrid c)[0]? = some (fromScaleIdx c 0) ∧
      ∀ g ∈ scaleGrid c, fromScaleIdx c 0 ≤ g := by
  have e : findFirst scale (scaleGrid c) = 0 := by
    classical
    unfold findFirst
    simp only
    rw [if_neg]
    rw [List.findIdx_lt_length]
    rintro ⟨g, hg, hle⟩
    have := hs g hg
    simp only [decide_eq_true_eq] at hle
    linarith
  have h2 := h.scales
  refine ⟨findFirst mean (meanGrid c), by unfold buildIndexes; rw [e], ?_, ?_⟩
  · simp [scaleGrid, priorParams, show 0 < c.numScales by omega]
  · intro g hg
    simp only [scaleGrid, List.mem_map, priorParams] at hg
    obtain ⟨j, -, rfl⟩ := hg
    have l1 := logNorm_pos h
    have l2 := binsPred_pos h
    unfold fromScaleIdx
    gcongr
    exact Nat.cast_nonneg j

/-! ### Cases -/

example : ∃ r, (buildTables defaultBn (1 / 256))[20 * 256 + 7]? = some r ∧ r.weights.sum ≠ 1 ∧ |r.weights.sum - 1| ≤ 1 / 512 := by
  obtain ⟨r, hr, hiff⟩ := C101_violated_default 20 7 (by norm_num) (by norm_num) (t := 1 / 256) (by norm_num) (by norm_num)
  refine ⟨r, hr, fun hc => by have := hiff.1 hc; omega, ?_⟩
  have hl : (scaleGrid defaultBn).length = 256 := by rw [scaleGrid_length]; rfl
  have := getElem?_flatMap_grid (fun m s => buildRow (1 / 256) m s) (scaleGrid defaultBn) (meanGrid defaultBn) 20 7
    (by rw [hl]; norm_num)
  rw [hl] at this
  unfold buildTables at hr
  rw [this] at hr
  have hi' : 20 < defaultBn.numMeans := by norm_num [defaultBn]
  have hj' : 7 < defaultBn.numScales := by norm_num [defaultBn]
  simp only [meanGrid, scaleGrid, List.getElem?_map, List.getElem?_range hi', List.getElem?_range hj', Option.map_some,
    Option.bind_some, Option.some.injEq] at hr
  subst hr
  have := C101_sum_partial (t := 1 / 256) (mean := (priorParams defaultBn (20 : ℕ) 0).1)
    (scale := (priorParams defaultBn 0 (7 : ℕ)).2) (by norm_num) (by norm_num) (fromScaleIdx_pos defaultBn_ok _)
  linarith

example (t input : ℝ) : ∃ r, (buildTables defaultBn t)[(encIndex defaultBn 0 255).toNat]? = some r ∧
    ∀ k : ℕ, k < r.pmf.length → roundHalfEven (input - roundHalfEven 0) = r.offset + k →
      r.weights[k]? = some (evalLikelihood defaultBn input 0 255) := by
  refine C101_estimate_partial defaultBn_ok (i := 50) (j := 255) (by norm_num [defaultBn]) (by norm_num [defaultBn]) ?_ ?_
  · have : roundHalfEven (0 : ℝ) = 0 := by simpa using roundHalfEven_int 0
    rw [this]
    norm_num [defaultBn]
  · have : verysoftplus 255 = defaultBn.scalesMax := by norm_num [verysoftplus, defaultBn]
    rw [this, toScaleIdx_max defaultBn_ok]
    norm_num [defaultBn]

end Verif.Vct
