import Verif.Vct.BnSettings
import Verif.Vct.PropsTables

/-!
C156: which settings of the video bottleneck are accepted, and which of them can be used.
-/

namespace Verif.Vct.BnSettings

open Verif.Vct

/-- **C156, the constructor.**  It accepts exactly the positive smallest scales: table sizes are not checked.  A new object has
no tables. -/
theorem C156_construct (numScales numMeans : ℤ) (minScale t : ℝ) :
    ((∃ m, locScaleShift numScales minScale numMeans t = .ok m) ↔ 0 < minScale) ∧
    (∀ m, locScaleShift numScales minScale numMeans t = .ok m →
      m = ⟨numMeans, numScales, ⟨minScale, 256, numScales⟩, t, []⟩) ∧
    (¬ 0 < minScale → locScaleShift numScales minScale numMeans t = .error .value) := by
  unfold locScaleShift gaussianConditional
  by_cases h : minScale ≤ 0
  · simp [h]
  · have h' := not_le.1 h
    simp [h, h', eq_comm]

/-- **C156, the constructor of the entropy model.**  It accepts exactly the scalers with as many bins as there are scales, with a
positive bound; without a scaler, exactly the tables of 256 scales, and the default bound is accepted. -/
theorem C156_scaler (ranges : ℤ × ℤ) (bound t : ℝ) (s : Scaler) :
    ((∃ m, gaussianConditional ranges bound t s = .ok m) ↔ s.numBins = ranges.2 ∧ 0 < bound) ∧
    (¬ (s.numBins = ranges.2 ∧ 0 < bound) → gaussianConditional ranges bound t s = .error .value) ∧
    ((∃ m, gaussianConditional ranges bound t = .ok m) ↔ ranges.2 = 256 ∧ 0 < bound) ∧
    ((∃ m, gaussianConditional ranges = .ok m) ↔ ranges.2 = 256) := by
  have key : ∀ (bound t : ℝ) (s : Scaler),
      ((∃ m, gaussianConditional ranges bound t s = .ok m) ↔ s.numBins = ranges.2 ∧ 0 < bound) ∧
      (¬ (s.numBins = ranges.2 ∧ 0 < bound) → gaussianConditional ranges bound t s = .error .value) := by
    intro bound t s
    unfold gaussianConditional
    by_cases h1 : s.numBins = ranges.2
    · by_cases h : bound ≤ 0
      · simp [h1, h]
      · simp [h1, h, not_le.1 h]
    · simp [h1]
  refine ⟨(key bound t s).1, (key bound t s).2, ?_, ?_⟩
  · rw [(key bound t {}).1]
    simp [eq_comm]
  · rw [(key _ _ {}).1]
    simp [eq_comm]

/-! ### The tables -/

theorem reduceOption_map_some {α : Type*} (l : List α) : (l.map some).reduceOption = l := by
  simp [List.reduceOption]

theorem meanOf_nat {m : Bn} (h : 1 ≤ m.numMeans) (i : ℝ) :
    meanOf m i = some (i / m.numMeans - (if m.numMeans ≠ 1 then 1 / 2 else 0)) := by
  have : (m.numMeans : ℝ) ≠ 0 := by
    have : m.numMeans ≠ 0 := by omega
    exact_mod_cast this
  simp [meanOf, div, this]

theorem scaleOf_some {s : Scaler} (h : s.numBins ≠ 1) (i : ℝ) :
    scaleOf s i = some (Real.exp (i / ((s.numBins : ℝ) - 1) * Real.log (s.scalesMax / s.scalesMin + 1) +
      Real.log s.scalesMin)) := by
  have : (s.numBins : ℝ) - 1 ≠ 0 := by
    intro h'
    apply h
    have : (s.numBins : ℝ) = 1 := by linarith
    exact_mod_cast this
  simp [scaleOf, div, this]

theorem scaleOf_none {s : Scaler} (h : s.numBins = 1) (i : ℝ) : scaleOf s i = none := by
  simp [scaleOf, div, h]

/-- The grids, for sizes that can be used. -/
theorem grids {a b : ℕ} {lo t : ℝ} (ha : 1 ≤ a) (hb : 2 ≤ b) (hlo : 0 < lo) (rows : List Row) :
    let m : Bn := ⟨a, b, ⟨lo, 256, b⟩, t, rows⟩
    let c : BnCfg := ⟨a, b, lo, 256⟩
    c.Ok ∧ ((List.range a).map fun i : ℕ => meanOf m i) = (meanGrid c).map some ∧
      ((List.range b).map fun j : ℕ => scaleOf m.scaler j) = (scaleGrid c).map some := by
  intro m c
  refine ⟨⟨ha, hb, hlo, by norm_num⟩, ?_, ?_⟩
  · unfold meanGrid
    rw [List.map_map]
    refine List.map_congr_left fun i _ => ?_
    rw [meanOf_nat (by show (1 : ℤ) ≤ a; exact_mod_cast ha)]
    simp only [Function.comp, priorParams, m, c, Int.cast_natCast]
    congr 2
    norm_cast
  · unfold scaleGrid
    rw [List.map_map]
    refine List.map_congr_left fun i _ => ?_
    rw [scaleOf_some (by show ((b : ℕ) : ℤ) ≠ 1; omega)]
    simp [Function.comp, priorParams, fromScaleIdx, m, c]

theorem equalsSorted_map {l : List ℝ} (h : l.Pairwise (· < ·)) : EqualsSorted (l.map some) :=
  ⟨l, rfl, h.imp le_of_lt⟩

/-- **C156, building the tables.**  For an accepted object the first `update` succeeds exactly if there is a mean and there are at
least two scales; then the rows are those of the grid.  Else it raises, and the object has no tables. -/
theorem C156_update {numScales numMeans : ℤ} {minScale t : ℝ} {m : Bn}
    (hm : locScaleShift numScales minScale numMeans t = .ok m) (force : Bool) :
    ((update m force).2 = .ok true ↔ 1 ≤ numMeans ∧ 2 ≤ numScales) ∧
    ((update m force).2 = .error .runtime ↔ numMeans < 0 ∨ numScales < 0) ∧
    ((update m force).2 = .error .index ↔ 0 ≤ numMeans ∧ 0 ≤ numScales ∧ (numMeans = 0 ∨ numScales = 0)) ∧
    ((update m force).2 = .error .assertion ↔ 1 ≤ numMeans ∧ numScales = 1) ∧
    ((update m force).2 ≠ .ok true → (update m force).1 = m) ∧
    (1 ≤ numMeans → 2 ≤ numScales → (update m force).1 =
      { m with tables := buildTables ⟨numMeans.toNat, numScales.toNat, minScale, 256⟩ t }) := by
  have hlo := ((C156_construct numScales numMeans minScale t).1).1 ⟨m, hm⟩
  have e := (C156_construct numScales numMeans minScale t).2.1 m hm
  clear hm
  subst e
  unfold update arange
  rw [if_neg (by simp)]
  by_cases h1 : numMeans < 0
  · simp only [h1, if_true]
    refine ⟨?_, ?_, ?_, ?_, ?_, ?_⟩ <;> simp <;> omega
  by_cases h2 : numScales < 0
  · simp only [h1, h2, if_true, if_false]
    refine ⟨?_, ?_, ?_, ?_, ?_, ?_⟩ <;> simp <;> omega
  obtain ⟨a, rfl⟩ := Int.eq_ofNat_of_zero_le (not_lt.1 h1)
  obtain ⟨b, rfl⟩ := Int.eq_ofNat_of_zero_le (not_lt.1 h2)
  simp only [h1, h2, if_false, Int.toNat_natCast]
  by_cases hb : b = 0
  · subst hb
    simp only [List.range_zero, if_true]
    refine ⟨?_, ?_, ?_, ?_, ?_, ?_⟩ <;> simp
  have hb' : List.range b ≠ [] := by simpa using hb
  by_cases ha : a = 0
  · subst ha
    have es : EqualsSorted (List.map (fun i : ℕ => meanOf ⟨((0 : ℕ) : ℤ), b, ⟨minScale, 256, b⟩, t, []⟩ i) (List.range 0)) :=
      ⟨[], by simp, List.Pairwise.nil⟩
    rw [if_neg hb', if_neg (not_not.2 es), if_pos (by simp)]
    refine ⟨?_, ?_, ?_, ?_, ?_, ?_⟩ <;> simp
  have ha' : List.range a ≠ [] := by simpa using ha
  have hmean : EqualsSorted (List.map (fun i : ℕ => meanOf ⟨(a : ℤ), b, ⟨minScale, 256, b⟩, t, []⟩ i) (List.range a)) := by
    obtain ⟨hok, hg, -⟩ := grids (t := t) (a := a) (b := 2) (lo := minScale) (by omega) le_rfl hlo []
    have : (fun i : ℕ => meanOf ⟨(a : ℤ), b, ⟨minScale, 256, b⟩, t, []⟩ i) =
        fun i : ℕ => meanOf ⟨(a : ℤ), ((2 : ℕ) : ℤ), ⟨minScale, 256, ((2 : ℕ) : ℤ)⟩, t, []⟩ i := rfl
    rw [this, hg]
    exact equalsSorted_map (C101_sorted hok).1
  rw [if_neg hb', if_neg (not_not.2 hmean), if_neg ha']
  by_cases hb1 : b = 1
  · subst hb1
    have hn : ¬ EqualsSorted (List.map (fun j : ℕ => scaleOf ⟨minScale, 256, ((1 : ℕ) : ℤ)⟩ j) (List.range 1)) := by
      rintro ⟨l, hl, -⟩
      have : none ∈ l.map some := by
        rw [← hl]
        simp [scaleOf_none]
      simp at this
    rw [if_pos hn]
    refine ⟨?_, ?_, ?_, ?_, ?_, ?_⟩ <;> simp <;> omega
  · obtain ⟨hok, hg, hs⟩ := grids (t := t) (a := a) (b := b) (lo := minScale) (by omega) (by omega) hlo []
    have hsort : EqualsSorted (List.map (fun j : ℕ => scaleOf ⟨minScale, 256, (b : ℤ)⟩ j) (List.range b)) := by
      have hs' := hs
      dsimp only at hs'
      rw [hs']
      exact equalsSorted_map (C101_sorted hok).2
    rw [if_neg (not_not.2 hsort)]
    refine ⟨?_, ?_, ?_, ?_, ?_, ?_⟩
    · simp; omega
    · simp
    · simp; omega
    · simp; omega
    · simp
    · intro _ _
      dsimp only at hg hs ⊢
      rw [hg, hs, reduceOption_map_some, reduceOption_map_some]
      rfl

/-- **C156, usable settings.**  With a mean and at least two scales, after `update` there is a row for each symbol that can be coded,
and a later `update` without `force` changes nothing. -/
theorem C156_usable_partial {a b : ℕ} {minScale t : ℝ} {m : Bn} (ha : 1 ≤ a) (hb : 2 ≤ b)
    (hm : locScaleShift b minScale a t = .ok m) (mean scale : ℝ) :
    (update m).1.tables.length = a * b ∧
    (∃ row, (update m).1.tables[(encIndex ⟨a, b, minScale, 256⟩ mean scale).toNat]? = some row) ∧
    update (update m).1 false = ((update m).1, .ok false) := by
  have hlo := ((C156_construct b a minScale t).1).1 ⟨m, hm⟩
  have hu := (C156_update hm true).2.2.2.2.2 (by exact_mod_cast ha) (by exact_mod_cast hb)
  simp only [Int.toNat_natCast] at hu
  obtain ⟨hl, i, j, -, -, h⟩ := C101_lookup (c := ⟨a, b, minScale, 256⟩) ⟨ha, hb, hlo, by norm_num⟩ t mean scale
  rw [hu]
  refine ⟨hl, ⟨_, h⟩, ?_⟩
  have hne : buildTables ⟨a, b, minScale, 256⟩ t ≠ [] := by
    intro h0
    rw [h0] at h
    simp at h
  unfold update
  rw [if_pos ⟨hne, rfl⟩]

/-! ### The likelihoods -/

theorem likelihood_le_one (mean scale x : ℝ) : likelihood mean scale x ≤ 1 := by
  unfold likelihood
  have h1 := Phi_le_one ((1 / 2 - |x - mean|) / scale)
  have h2 := Phi_nonneg ((-(1 / 2) - |x - mean|) / scale)
  linarith

/-- **C156, likelihoods.**  For an accepted object with a mean, the likelihood of an element is a number exactly if the number of scales
is not one; then it is between `1e-9` and 1.  This holds for every input, prediction and noise, in training and in evaluation. -/
theorem C156_forward {numScales numMeans : ℤ} {minScale t : ℝ} {m : Bn} (hmeans : 1 ≤ numMeans)
    (hm : locScaleShift numScales minScale numMeans t = .ok m) (training : Bool) (noise input mean scale : ℝ) :
    ((∃ l, forward m training noise input mean scale = some l) ↔ numScales ≠ 1) ∧
    ∀ l, forward m training noise input mean scale = some l → 1 / 10 ^ 9 ≤ l ∧ l ≤ 1 := by
  have e := (C156_construct numScales numMeans minScale t).2.1 m hm
  clear hm
  subst e
  unfold forward
  dsimp only
  rw [meanOf_nat hmeans]
  by_cases h : numScales = 1
  · subst h
    rw [scaleOf_none rfl]
    simp
  · rw [scaleOf_some h]
    refine ⟨by simp [h], ?_⟩
    intro l hl
    simp only [Option.map_some, Option.bind_some, Option.some.injEq] at hl
    subst hl
    exact ⟨le_max_right _ _, max_le (likelihood_le_one _ _ _) (by norm_num)⟩

/-- **C156, the likelihood of evaluation** is the one of C101 and C29: that of the rounded input. -/
theorem C156_agrees {a b : ℕ} {minScale t : ℝ} {m : Bn} (ha : 1 ≤ a) (hb : 2 ≤ b)
    (hm : locScaleShift b minScale a t = .ok m) (noise input mean scale : ℝ) :
    forward m false noise input mean scale =
      some (max (evalLikelihood ⟨a, b, minScale, 256⟩ input mean scale) (1 / 10 ^ 9)) := by
  have e := (C156_construct b a minScale t).2.1 m hm
  clear hm
  subst e
  unfold forward
  dsimp only
  rw [meanOf_nat (by show (1 : ℤ) ≤ a; exact_mod_cast ha), scaleOf_some (by show ((b : ℕ) : ℤ) ≠ 1; omega)]
  have e1 : (if ((a : ℤ) ≠ 1) then (1 / 2 : ℝ) else 0) = if a ≠ 1 then 1 / 2 else 0 := by norm_cast
  simp [evalLikelihood, evalIndexes, getIndexes, normalizeIndexes, toScaleIdx, priorParams, fromScaleIdx, normalize, indexes]

/-- **C156, violated: an accepted object need not be usable.**  With one scale the constructor succeeds, no likelihood is a number, and
the tables cannot be built. -/
theorem C156_violated : ∃ m, locScaleShift (numScales := 1) = .ok m ∧
    (∀ training noise input mean scale, forward m training noise input mean scale = none) ∧
    ∀ force, update m force = (m, .error .assertion) := by
  obtain ⟨m, hm⟩ := ((C156_construct 1 100 (1 / 100) (1 / 256)).1).2 (by norm_num)
  refine ⟨m, hm, ?_, ?_⟩
  · intro training noise input mean scale
    have h := (C156_forward (by norm_num) hm training noise input mean scale).1
    cases hf : forward m training noise input mean scale with
    | none => rfl
    | some l => exact absurd rfl (h.1 ⟨l, hf⟩)
  · intro force
    have h := C156_update hm force
    have h1 := h.2.2.2.1.2 ⟨by norm_num, rfl⟩
    have h2 := h.2.2.2.2.1 (by rw [h1]; simp)
    exact Prod.ext h2 h1

/-- **C156, violated: without a scale there are likelihoods, but no tables.**  Training can go on with an object that cannot code. -/
theorem C156_violated_training : ∃ m, locScaleShift (numScales := 0) = .ok m ∧
    (∀ training noise input mean scale, ∃ l, forward m training noise input mean scale = some l ∧ 0 < l ∧ l ≤ 1) ∧
    ∀ force, update m force = (m, .error .index) := by
  obtain ⟨m, hm⟩ := ((C156_construct 0 100 (1 / 100) (1 / 256)).1).2 (by norm_num)
  refine ⟨m, hm, ?_, ?_⟩
  · intro training noise input mean scale
    have h := C156_forward (by norm_num) hm training noise input mean scale
    obtain ⟨l, hl⟩ := h.1.2 (by norm_num)
    exact ⟨l, hl, lt_of_lt_of_le (by norm_num) (h.2 l hl).1, (h.2 l hl).2⟩
  · intro force
    have h := C156_update hm force
    have h1 := h.2.2.1.2 ⟨by norm_num, by norm_num, Or.inr rfl⟩
    have h2 := h.2.2.2.2.1 (by rw [h1]; simp)
    exact Prod.ext h2 h1

/-- The settings of the video model (entropy_model.py:126-128) are accepted and can be used: 25600 rows. -/
example : ∃ m, locScaleShift = .ok m ∧ (update m).2 = .ok true ∧ (update m).1.tables.length = 25600 := by
  obtain ⟨m, hm⟩ := ((C156_construct ((256 : ℕ) : ℤ) ((100 : ℕ) : ℤ) (1 / 100) (1 / 256)).1).2 (by norm_num)
  refine ⟨m, by simpa using hm, (C156_update hm true).1.2 (by norm_num), ?_⟩
  rw [(C156_usable_partial (by norm_num) (by norm_num) hm 0 0).1]

end Verif.Vct.BnSettings
