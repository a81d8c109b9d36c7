import Verif.Vct.Report
import Verif.Vct.EntropyLemmas
import Verif.NormalDeriv
import Mathlib.Analysis.Complex.ExponentialBounds

/-!
C120: what the forward pass of the video bottleneck reports and what coding gives.  Also the bounded likelihood of C29.
-/

namespace Verif.Vct

open MeasureTheory ProbabilityTheory Set

/-- The probability of the unit bin around `x` under the Gaussian with the given mean and standard deviation. -/
noncomputable def binMass (mean scale x : ℝ) : ℝ :=
  (gaussianReal mean (scale ^ 2).toNNReal).real (Ioc (x - 1 / 2) (x + 1 / 2))

/-- An entry of a tensor with what is predicted for it and the noise drawn for it. -/
structure Entry where
  x : ℝ
  scale : ℝ
  mean : ℝ
  noise : ℝ

/-- **C120, values.**  In training and in evaluation the forward pass returns, for every tensor, exactly the values
that `compress` returns and, with a lossless coder, that `decompress` gets from the strings; each is an integer
within one half of the input. -/
theorem C120_values {S : Type} {c : BnCfg} (hc : c.Ok) {e : Coder S} (he : e.Lossless (c.numMeans * c.numScales))
    (bound : ℝ) (training : Bool) (t : List Entry) :
    let reported := t.map fun a => (bnForward c bound training a.noise a.x a.scale a.mean).1
    let out := bnCompress c e (t.map (·.x)) (t.map (·.scale)) (t.map (·.mean))
    out.1 = reported ∧ bnDecompress c e out.2 (t.map (·.scale)) (t.map (·.mean)) = reported ∧
      ∀ a ∈ t, ∃ k : ℤ, (bnForward c bound training a.noise a.x a.scale a.mean).1 = k ∧ |(k : ℝ) - a.x| ≤ 1 / 2 := by
  have hv : ∀ a : Entry, (bnForward c bound training a.noise a.x a.scale a.mean).1 = quant1 a.x a.mean := by
    intro a
    unfold bnForward gaussianForward quantizeMode quant1
    cases training <;> simp
  intro reported out
  have h1 : out.1 = reported := by
    show (bnCompress c e _ _ _).1 = _
    rw [bnCompress_fst, List.zipWith_map, List.zipWith_self]
    exact List.map_congr_left fun a _ => (hv a).symm
  refine ⟨h1, ?_, fun a _ => ⟨roundHalfEven (a.x - roundHalfEven a.mean) + roundHalfEven a.mean, ?_, ?_⟩⟩
  · rw [← h1]
    exact bn_law hc he _ _ _ (by simp) (by simp)
  · rw [hv, quant1]; push_cast; ring
  · have := roundHalfEven_near (a.x - roundHalfEven a.mean)
    push_cast
    rw [show (roundHalfEven (a.x - roundHalfEven a.mean) : ℝ) + roundHalfEven a.mean - a.x =
      roundHalfEven (a.x - roundHalfEven a.mean) - (a.x - roundHalfEven a.mean) by ring]
    exact this

/-- The hypotheses hold for the default configuration and the coder that sends the symbols as they are; 2.6 predicted
as 7.3 comes back as 3. -/
example : (⟨fun s _ => s, fun s _ => s⟩ : Coder (List ℤ)).Lossless (defaultBn.numMeans * defaultBn.numScales) ∧
    (bnForward defaultBn (1 / 10 ^ 9) false 0 (26 / 10) 0 (73 / 10)).1 = 3 := by
  refine ⟨fun _ _ _ _ => rfl, ?_⟩
  have h1 : roundHalfEven (73 / 10) = 7 := roundHalfEven_of_near _ _ (by rw [abs_lt]; norm_num)
  have h2 : roundHalfEven (26 / 10 - (7 : ℤ)) = -4 := roundHalfEven_of_near _ _ (by rw [abs_lt]; norm_num)
  simp only [bnForward, gaussianForward, quantizeMode, h1, h2, Bool.false_eq_true, if_false]
  norm_num

theorem clip_eq (x n : ℝ) : -max (-max x 0) (-(n - 1)) = min (max x 0) (n - 1) := by
  rw [← min_neg_neg, neg_neg, neg_neg]

theorem trunc_round (x : ℝ) : (⌊x⌋ : ℝ) ≤ roundHalfEven x ∧ (roundHalfEven x : ℝ) ≤ ⌊x⌋ + 1 := by
  unfold roundHalfEven
  split_ifs <;> push_cast <;> constructor <;> linarith

theorem likelihood_shift (m s x d : ℝ) : likelihood (d + m) s (x + d) = likelihood m s x := by
  unfold likelihood
  rw [show x + d - (d + m) = x - m by ring]

theorem from_succ {c : BnCfg} (i : ℝ) : fromScaleIdx c (i + 1) =
    fromScaleIdx c i * Real.exp (Real.log (c.scalesMax / c.scalesMin + 1) / (c.numScales - 1)) := by
  unfold fromScaleIdx
  rw [← Real.exp_add]
  congr 1
  ring

theorem mean_used {c : BnCfg} (hc : c.Ok) (mean : ℝ) (hm : c.numMeans ≠ 1) (z si : ℝ) :
    (priorParams c (normalizeIndexes c ((mean - roundHalfEven mean + 1 / 2) * c.numMeans, z)).1 si).1 =
      min (mean - roundHalfEven mean) (1 / 2 - 1 / c.numMeans) := by
  have hN : (0 : ℝ) < c.numMeans := by exact_mod_cast hc.means
  have h0 : 0 ≤ (mean - roundHalfEven mean + 1 / 2) * (c.numMeans : ℝ) := by
    have := abs_le.1 (roundHalfEven_near mean)
    exact mul_nonneg (by linarith) hN.le
  simp only [priorParams, normalizeIndexes, clip_eq]
  rw [max_eq_left h0, if_pos hm]
  rcases le_total ((mean - roundHalfEven mean + 1 / 2) * (c.numMeans : ℝ)) (c.numMeans - 1) with h | h
  · rw [min_eq_left h, mul_div_cancel_right₀ _ hN.ne', min_eq_left]
    · ring
    · rw [← le_div_iff₀ hN, sub_div, div_self hN.ne'] at h
      linarith
  · rw [min_eq_right h, sub_div, div_self hN.ne', min_eq_right]
    · ring
    · rw [← div_le_iff₀ hN, sub_div, div_self hN.ne'] at h
      linarith

theorem mean_one {c : BnCfg} (hm : c.numMeans = 1) (mean z si : ℝ) :
    (priorParams c (normalizeIndexes c ((mean - roundHalfEven mean + 1 / 2) * c.numMeans, z)).1 si).1 = 0 := by
  simp only [priorParams, normalizeIndexes, clip_eq, hm]
  simp

/-- **C120, likelihoods.**  In evaluation the forward pass reports for every entry the probability of the unit bin
around the coded integer under some Gaussian (bounded below): its mean is at least that of the Gaussian that `compress`
uses for the entry and exceeds it by at most the distance of two tabulated means, its scale is that of the table row
or of the next row.  With two or more means it is the fractional part of the predicted mean, except that it is at most
the largest mean of the table.
(Missing from the full property: that the two Gaussians are the same; see `C120_violated`.) -/
theorem C120_likelihoods_partial {c : BnCfg} (hc : c.Ok) {bound : ℝ} (hb : 0 < bound) (noise x scale mean : ℝ) :
    let r := bnForward c bound false noise x scale mean
    let row := tableParams c (encIndex c mean scale).toNat
    let step := Real.exp (Real.log (c.scalesMax / c.scalesMin + 1) / (c.numScales - 1))
    ∃ m s : ℝ, r.2 = max (binMass (roundHalfEven mean + m) s r.1) bound ∧
      row.1 ≤ m ∧ m ≤ row.1 + 1 / c.numMeans ∧ 
      (s = row.2 ∨ s = row.2 * step) ∧
      (c.numMeans ≠ 1 → m = min (mean - roundHalfEven mean) (1 / 2 - 1 / c.numMeans)) := by
  intro r row step
  obtain ⟨i, j, hi, hj, e, ⟨m1, m2⟩, ⟨s1, s2⟩⟩ := index_spec c hc mean scale
  have hN : (0 : ℝ) < c.numMeans := by exact_mod_cast hc.means
  have hrow : row = priorParams c i j := by
    have hk : (encIndex c mean scale).toNat = i * c.numScales + j := by rw [e]; rfl
    show tableParams c _ = _
    rw [hk]
    unfold tableParams
    rw [Nat.mul_comm, Nat.mul_add_div (by omega), Nat.div_eq_of_lt hj, Nat.add_zero, Nat.mul_add_mod,
      Nat.mod_eq_of_lt hj]
  set t := toScaleIdx c (verysoftplus scale) with ht
  have ht0 : 0 ≤ t := toScaleIdx_nonneg hc (verysoftplus_pos scale).le
  set p := normalizeIndexes c (getIndexesMode c false mean scale) with hp
  have hp1 : ∀ si, (priorParams c p.1 si).1 = (priorParams c p.1 0).1 := fun _ => rfl
  refine ⟨(priorParams c p.1 p.2).1, (priorParams c p.1 p.2).2, ?_, ?_, ?_, ?_, ?_⟩
  · show (bnForward c bound false noise x scale mean).2 = _
    have hs : 0 < (priorParams c p.1 p.2).2 := fromScaleIdx_pos hc _
    unfold binMass
    rw [← C29_bin_mass _ _ _ hs]
    show _ = max (likelihood _ _ ((bnForward c bound false noise x scale mean).1)) bound
    simp only [bnForward, gaussianForward, quantizeMode, if_pos hb, Bool.false_eq_true, if_false, likelihood_shift]
    rfl
  · rw [hrow]
    by_cases hm : c.numMeans = 1
    · have h0 : (priorParams c p.1 p.2).1 = 0 := mean_one hm mean _ _
      have : i = 0 := by omega
      rw [h0, this]
      simp [priorParams, hm]
    · have h0 : (priorParams c p.1 p.2).1 = _ := mean_used hc mean hm _ _
      rw [h0]
      simp only [priorParams, if_pos hm]
      refine le_min ?_ ?_
      · have := (div_le_iff₀ hN).2 m1
        linarith
      · have : (i : ℝ) + 1 ≤ c.numMeans := by exact_mod_cast hi
        have := (le_div_iff₀ hN).2 (show (1 : ℝ) * c.numMeans ≤ c.numMeans by linarith)
        have h3 : ((i : ℝ) + 1) / c.numMeans ≤ 1 := by rw [div_le_one hN]; assumption
        rw [add_div] at h3
        linarith
  · rw [hrow]
    by_cases hm : c.numMeans = 1
    · have h0 : (priorParams c p.1 p.2).1 = 0 := mean_one hm mean _ _
      have : i = 0 := by omega
      rw [h0, this]
      simp [priorParams, hm]
    · have h0 : (priorParams c p.1 p.2).1 = _ := mean_used hc mean hm _ _
      rw [h0]
      simp only [priorParams, if_pos hm]
      rcases m2 with m2 | m2
      · have := (lt_div_iff₀ hN).2 m2
        rw [add_div] at this
        exact (min_le_left _ _).trans (by linarith)
      · have h3 : ((i : ℝ) + 1) / c.numMeans = 1 := by
          rw [div_eq_one_iff_eq hN.ne']; exact_mod_cast m2
        rw [add_div] at h3
        refine (min_le_right _ _).trans ?_
        have := one_div_pos.2 hN
        linarith
  · rw [hrow]
    have hp2 : p.2 = min (roundHalfEven t : ℝ) ((c.numScales : ℝ) - 1) := by
      have hr0 : (0 : ℝ) ≤ roundHalfEven t := by
        have := roundHalfEven_mono ht0
        rw [show (0 : ℝ) = ((0 : ℤ) : ℝ) by norm_num, roundHalfEven_int] at this
        exact_mod_cast this
      show -max (-max _ 0) _ = _
      rw [clip_eq]
      show min (max (roundHalfEven t : ℝ) 0) _ = _
      rw [max_eq_left hr0]
    have hs : (priorParams c p.1 p.2).2 = fromScaleIdx c p.2 := rfl
    have hs' : (priorParams c (i : ℝ) (j : ℝ)).2 = fromScaleIdx c j := rfl
    rw [hs, hs', ← from_succ, hp2]
    have hj' : (j : ℝ) + 1 ≤ c.numScales := by exact_mod_cast hj
    have hfl : (j : ℤ) ≤ ⌊t⌋ := Int.le_floor.2 (by exact_mod_cast s1)
    have hfl' : (j : ℝ) ≤ ⌊t⌋ := by exact_mod_cast hfl
    obtain ⟨ra, rb⟩ := trunc_round t
    rcases s2 with s2 | s2
    · have hfe : ⌊t⌋ = (j : ℤ) := le_antisymm (by
        have : ⌊t⌋ < (j : ℤ) + 1 := Int.floor_lt.2 (by exact_mod_cast s2)
        omega) hfl
      rw [hfe] at ra rb
      have ra' : (j : ℤ) ≤ roundHalfEven t := by exact_mod_cast ra
      have rb' : roundHalfEven t ≤ (j : ℤ) + 1 := by exact_mod_cast rb
      rcases (by omega : roundHalfEven t = j ∨ roundHalfEven t = j + 1) with h | h
      · left
        rw [h, min_eq_left]
        · rfl
        · push_cast; linarith
      · rcases (Nat.lt_or_ge (j + 1) c.numScales) with g | g
        · right
          rw [h, min_eq_left]
          · push_cast; rfl
          · have : (j : ℝ) + 1 + 1 ≤ c.numScales := by exact_mod_cast g
            push_cast; linarith
        · left
          have : (c.numScales : ℝ) = j + 1 := by
            have : c.numScales = j + 1 := by omega
            exact_mod_cast this
          rw [h, min_eq_right]
          · rw [this]; congr 1; ring
          · rw [this]; push_cast; linarith
    · left
      have : (c.numScales : ℝ) = j + 1 := by exact_mod_cast s2.symm
      rw [min_eq_right]
      · rw [this]; congr 1; ring
      · rw [this]; linarith
  · intro hm
    exact mean_used hc mean hm _ _

/-- **C120, training.**  In training the forward pass reports the density, at the noisy value, of a Gaussian variable
plus uniform noise (bounded below): the mass of the unit bin around the value, under the Gaussian whose mean is the
predicted one, except that its fractional part is at most the largest mean of the table, and whose scale is the predicted
one plus `scales_min`, at most `scales_max + scales_min`. -/
theorem C120_training {c : BnCfg} (hc : c.Ok) (hm : c.numMeans ≠ 1) {bound : ℝ} (hb : 0 < bound)
    (noise x scale mean : ℝ) :
    (bnForward c bound true noise x scale mean).2 =
      max (binMass (roundHalfEven mean + min (mean - roundHalfEven mean) (1 / 2 - 1 / c.numMeans))
        (min (verysoftplus scale) c.scalesMax + c.scalesMin) (x + noise)) bound := by
  have ht0 : 0 ≤ toScaleIdx c (verysoftplus scale) := toScaleIdx_nonneg hc (verysoftplus_pos scale).le
  have hs : fromScaleIdx c (normalizeIndexes c (getIndexesMode c true mean scale)).2 =
      min (verysoftplus scale) c.scalesMax + c.scalesMin := by
    have : (normalizeIndexes c (getIndexesMode c true mean scale)).2 =
        min (toScaleIdx c (verysoftplus scale)) ((c.numScales : ℝ) - 1) := by
      show -max (-max _ 0) _ = _
      rw [clip_eq]
      show min (max (toScaleIdx c (verysoftplus scale)) 0) _ = _
      rw [max_eq_left ht0]
    rw [this, ← toScaleIdx_max hc]
    rcases le_total (verysoftplus scale) c.scalesMax with h | h
    · rw [min_eq_left h, min_eq_left (toScaleIdx_mono hc (verysoftplus_pos scale).le h),
        from_to hc _ (verysoftplus_pos scale).le]
    · rw [min_eq_right h, min_eq_right (toScaleIdx_mono hc hc.max.le h), from_to hc _ hc.max.le]
  have hpos : 0 < min (verysoftplus scale) c.scalesMax + c.scalesMin := by rw [← hs]; exact fromScaleIdx_pos hc _
  unfold binMass
  rw [← C29_bin_mass _ _ _ hpos, show x + noise = (x - roundHalfEven mean + noise) + roundHalfEven mean by ring,
    likelihood_shift, ← hs, ← mean_used hc mean hm (scaleIdx c true (verysoftplus scale)) 0]
  simp only [bnForward, gaussianForward, quantizeMode, if_pos hb, if_true]
  rfl

/-- **C120, rate.**  In both modes every reported likelihood is at least the bound and at most one, so the bits of
an entry are never negative and never more than those of the bound (30 bits for 1e-9). -/
theorem C120_rate {c : BnCfg} (hc : c.Ok) {bound : ℝ} (hb : 0 < bound) (hb1 : bound ≤ 1) (training : Bool)
    (noise x scale mean : ℝ) :
    let r := bnForward c bound training noise x scale mean
    bound ≤ r.2 ∧ r.2 ≤ 1 ∧ 0 ≤ -Real.log r.2 / Real.log 2 ∧
      -Real.log r.2 / Real.log 2 ≤ -Real.log bound / Real.log 2 := by
  intro r
  have h1 : bound ≤ r.2 := by
    simp only [r, bnForward, gaussianForward, if_pos hb]
    exact le_max_right _ _
  have h2 : r.2 ≤ 1 := by
    simp only [r, bnForward, gaussianForward, if_pos hb]
    exact max_le ((C29_distribution _ _ (fromScaleIdx_pos hc _)).1 _).2.le hb1
  have hl : 0 < Real.log 2 := Real.log_pos (by norm_num)
  refine ⟨h1, h2, ?_, ?_⟩
  · have := Real.log_nonpos (hb.le.trans h1) h2
    exact div_nonneg (by linarith) hl.le
  · have := Real.log_le_log hb h1
    gcongr

/-- 2^30 exceeds 10^9: the default bound means less than 30 bits. -/
example : -Real.log (1 / 10 ^ 9) / Real.log 2 < 30 := by
  have hl : 0 < Real.log 2 := Real.log_pos (by norm_num)
  rw [div_lt_iff₀ hl, one_div, Real.log_inv, neg_neg, ← Real.log_rpow (by norm_num)]
  exact Real.log_lt_log (by norm_num) (by norm_num)

theorem central_anti {s s' : ℝ} (hs : 0 < s) (hss : s < s') (m : ℝ) : likelihood m s' m < likelihood m s m := by
  unfold likelihood
  rw [sub_self, abs_zero, sub_zero, sub_zero]
  have h1 : 1 / 2 / s' < 1 / 2 / s := by gcongr
  have e : ∀ a : ℝ, -(1 / 2) / a = -(1 / 2 / a) := fun a => neg_div _ _
  rw [e, e, Phi_neg, Phi_neg]
  linarith [Phi_strictMono h1]

theorem central_large {s : ℝ} (hs : 0 < s) (hs2 : s ≤ 1 / 4) (m : ℝ) : 1 / 10 ^ 9 < likelihood m s m := by
  have hbin := C29_distribution m s hs
  unfold likelihood
  rw [sub_self, abs_zero, sub_zero, sub_zero, neg_div, Phi_neg]
  have h2 : (2 : ℝ) ≤ 1 / 2 / s := by rw [le_div_iff₀ hs]; linarith
  have h3 := Phi_mono h2
  have h4 := tail_upper (show (0 : ℝ) < 2 by norm_num)
  have h5 : phi 2 ≤ 1 / 2 := by
    refine (phi_le 2).trans ?_
    rw [one_div]
    gcongr
    rw [show (2 : ℝ) = √4 by rw [show (4 : ℝ) = 2 ^ 2 by norm_num]; simp]
    apply Real.sqrt_le_sqrt
    have := Real.two_le_pi
    rw [show √4 = (2 : ℝ) by rw [show (4 : ℝ) = 2 ^ 2 by norm_num]; simp]
    linarith
  have h6 := phi_pos 2
  norm_num at h4
  nlinarith

/-- **C120 is violated by the code.**  `forward` rounds the index of the scale, `compress` truncates it (it leaves the
default `training=True` and converts to integers).  With the default configuration there is a prediction and a value for
which the likelihood that the forward pass reports in evaluation is strictly less than the probability under the
Gaussian of the table row with which the value is coded. -/
theorem C120_violated : ∃ scale : ℝ, ∀ noise : ℝ,
    let r := bnForward defaultBn (1 / 10 ^ 9) false noise 0 scale 0
    let row := tableParams defaultBn (encIndex defaultBn 0 scale).toNat
    r.1 = 0 ∧ r.2 < binMass row.1 row.2 0 := by
  have hc := defaultBn_ok
  have hr0 : roundHalfEven 0 = 0 := by simpa using roundHalfEven_int 0
  have hf0 : fromScaleIdx defaultBn 0 = 1 / 100 := by
    have := from_to hc 0 le_rfl
    rwa [toScaleIdx_zero hc, zero_add] at this
  have hmono : ∀ {a b : ℝ}, a < b → fromScaleIdx defaultBn a < fromScaleIdx defaultBn b := by
    intro a b hab
    have h1 := logNorm_pos hc
    have h2 := binsPred_pos hc
    unfold fromScaleIdx
    gcongr
  set t := fromScaleIdx defaultBn (3 / 4) - defaultBn.scalesMin with ht
  have htpos : 0 < t := by
    have := hmono (show (0 : ℝ) < 3 / 4 by norm_num)
    rw [hf0] at this
    simp only [ht, defaultBn] at *
    linarith
  have hstep : fromScaleIdx defaultBn 1 ≤ 1 / 4 := by
    have h := from_succ (c := defaultBn) 0
    rw [zero_add, hf0] at h
    rw [h]
    have : Real.exp (Real.log (defaultBn.scalesMax / defaultBn.scalesMin + 1) / (defaultBn.numScales - 1)) ≤
        Real.exp 1 := by
      apply Real.exp_le_exp.2
      simp only [defaultBn]
      norm_num
      rw [div_le_one (by norm_num)]
      have := Real.log_le_sub_one_of_pos (show (0 : ℝ) < 25601 / 2 ^ 14 by norm_num)
      rw [Real.log_div (by norm_num) (by norm_num), Real.log_pow] at this
      have := Real.log_two_lt_d9
      norm_num at *
      linarith
    have := Real.exp_one_lt_d9
    linarith
  have ht1 : t < 1 := by
    have := hmono (show (3 / 4 : ℝ) < 1 by norm_num)
    simp only [ht, defaultBn] at *
    linarith
  have hv : verysoftplus (1 - 1 / t) = t := by
    have : 1 < 1 / t := (one_lt_div htpos).2 ht1
    unfold verysoftplus
    rw [if_neg (by linarith), min_eq_left (by linarith)]
    field_simp
    ring
  have hidx : toScaleIdx defaultBn (verysoftplus (1 - 1 / t)) = 3 / 4 := by rw [hv, ht, to_from hc]
  have hr1 : roundHalfEven (3 / 4) = 1 := roundHalfEven_of_near _ _ (by norm_num [abs_lt])
  refine ⟨1 - 1 / t, fun noise => ?_⟩
  intro r row
  have hrow : row = (0, 1 / 100) := by
    obtain ⟨i, j, hi, hj, e, ⟨m1, m2⟩, ⟨s1, s2⟩⟩ := index_spec defaultBn hc 0 (1 - 1 / t)
    rw [hidx] at s1 s2
    rw [hr0] at m1 m2
    have hj0 : j = 0 := by
      have : (j : ℝ) < 1 := by linarith
      have : j < 1 := by exact_mod_cast this
      omega
    have hi0 : i = 50 := by
      simp only [defaultBn] at m1 m2 hi
      norm_num at m1 m2
      rcases m2 with m2 | m2
      · have : (49 : ℝ) < i := by linarith
        have : 49 < i := by exact_mod_cast this
        omega
      · omega
    have hk : (encIndex defaultBn 0 (1 - 1 / t)).toNat = 50 * 256 := by rw [e, hi0, hj0]; rfl
    show tableParams defaultBn _ = _
    rw [hk]
    unfold tableParams priorParams
    simp only [defaultBn] at hf0 ⊢
    norm_num
    exact hf0.trans (by norm_num)
  have hfw : r = (0, max (likelihood 0 (fromScaleIdx defaultBn 1) 0) (1 / 10 ^ 9)) := by
    have hn : normalizeIndexes defaultBn (getIndexesMode defaultBn false 0 (1 - 1 / t)) = (50, 1) := by
      simp only [normalizeIndexes, getIndexesMode, scaleIdx, hidx, hr0, hr1, clip_eq, Bool.false_eq_true, if_false]
      norm_num [defaultBn]
    simp only [r, bnForward, gaussianForward, quantizeMode, hn, hr0, Bool.false_eq_true, if_false]
    norm_num [hr0, priorParams, defaultBn]
  rw [hrow, hfw]
  refine ⟨rfl, ?_⟩
  unfold binMass
  rw [← C29_bin_mass _ _ _ (by norm_num)]
  refine max_lt ?_ (central_large (by norm_num) (by norm_num) 0)
  rw [← hf0]
  exact central_anti (fromScaleIdx_pos hc 0) (hmono (by norm_num)) 0

/-- **C29, reported likelihoods.**  The forward pass bounds the likelihood below.  With that bound the likelihoods of a
finite set of integers sum to at most one plus the bound for each integer; a large set exceeds one. -/
theorem C29_reported (mean scale : ℝ) (hs : 0 < scale) (bound : ℝ) (hb : 0 < bound) :
    (∀ F : Finset ℤ, ∑ k ∈ F, max (likelihood mean scale k) bound ≤ 1 + F.card * bound) ∧
    ∃ F : Finset ℤ, 1 < ∑ k ∈ F, max (likelihood mean scale k) bound := by
  constructor
  · intro F
    have h1 : ∑ k ∈ F, max (likelihood mean scale k) bound ≤ ∑ k ∈ F, (likelihood mean scale k + bound) :=
      Finset.sum_le_sum fun k _ => max_le (by linarith) (by
        have := ((C29_distribution mean scale hs).1 k).1; linarith)
    rw [Finset.sum_add_distrib, Finset.sum_const, nsmul_eq_mul] at h1
    have := (C29_distribution mean scale hs).2.2.1 F
    linarith
  · obtain ⟨n, hn⟩ := exists_nat_gt (1 / bound)
    refine ⟨(Finset.range n).map Nat.castEmbedding, ?_⟩
    have h1 : ((Finset.range n).map (Nat.castEmbedding (R := ℤ))).card • bound ≤
        ∑ k ∈ (Finset.range n).map (Nat.castEmbedding (R := ℤ)), max (likelihood mean scale k) bound :=
      Finset.card_nsmul_le_sum _ _ _ fun k _ => le_max_right _ _
    rw [Finset.card_map, Finset.card_range, nsmul_eq_mul] at h1
    rw [div_lt_iff₀ hb] at hn
    linarith

end Verif.Vct
