import Verif.Functional.Scalar
import Mathlib.Analysis.SpecialFunctions.Pow.Real
import Mathlib.Analysis.Complex.ExponentialBounds

/-!
C38 (`log_expm1`), C39 (`lower_bound`), C40 (`information_content`), C41 (`image_to_255_scale`),
C67 (`quantization_offset`).
-/

namespace Verif.Functional

open Real

/-! ### C38 -/

theorem expm1_pos {x : ℝ} (h : 0 < x) : 0 < exp x - 1 := by
  have := add_one_lt_exp h.ne'
  linarith

theorem logExpm1_small {x : ℝ} (h0 : 0 < x) (h : x < 15) : logExpm1 x = .val (log (exp x - 1)) := by
  unfold logExpm1 tlog
  rw [if_pos h, min_eq_left h.le, if_pos (expm1_pos h0)]

theorem logExpm1_large {x : ℝ} (h : 15 ≤ x) : logExpm1 x = .val x := by
  unfold logExpm1
  rw [if_neg (not_lt.2 h)]

theorem expm1_gap {x : ℝ} (h : 15 ≤ x) : log (exp x - 1) < x ∧ x - log (exp x - 1) < exp (-14) := by
  have h0 : 0 < x := by linarith
  have hp := expm1_pos h0
  have e : exp x - 1 = exp x * (1 - exp (-x)) := by
    rw [mul_sub, ← exp_add]; simp
  have h14 : exp (-14 : ℝ) ≤ 1 := by rw [exp_le_one_iff]; norm_num
  have h3 : exp (-15) < 1 / 2 * exp (-14) := by
    have : exp (-14 : ℝ) = exp 1 * exp (-15) := by rw [← exp_add]; norm_num
    rw [this]
    have h2 : (2 : ℝ) < exp 1 := lt_trans (by norm_num) exp_one_gt_d9
    nlinarith [exp_pos (-15)]
  have hu : exp (-x) < 1 / 2 * exp (-14) := lt_of_le_of_lt (exp_le_exp.2 (by linarith)) h3
  have hu0 := exp_pos (-x)
  have hpos : 1 / 2 < 1 - exp (-x) := by linarith
  have hpos0 : 0 < 1 - exp (-x) := by linarith
  constructor
  · calc log (exp x - 1) < log (exp x) := log_lt_log hp (by linarith)
      _ = x := log_exp x
  · rw [e, log_mul (exp_pos x).ne' hpos0.ne', log_exp]
    have h1 : 1 - (1 - exp (-x))⁻¹ ≤ log (1 - exp (-x)) := one_sub_inv_le_log_of_pos hpos0
    have h2 : (1 - exp (-x))⁻¹ ≤ 1 + 2 * exp (-x) := by
      rw [inv_le_iff_one_le_mul₀ hpos0]
      nlinarith
    linarith

/-- **C38.** For positive `x`, `log_expm1 x` is a number, equal to `log (exp x - 1)` below 15 and within
`exp (-14)` of it from there on (so the jump at the switch point is smaller than that); it is strictly
increasing across both branches. For zero it is minus infinity and for negative `x` it is not a number,
like the logarithm itself. -/
theorem C38 :
    (∀ x > 0, ∃ y, logExpm1 x = .val y ∧ (x < 15 → y = log (exp x - 1)) ∧
      |y - log (exp x - 1)| < exp (-14)) ∧
    (∀ x y a b, 0 < x → x < y → logExpm1 x = .val a → logExpm1 y = .val b → a < b) ∧
    logExpm1 0 = .negInf ∧ ∀ x < 0, logExpm1 x = .nan := by
  refine ⟨?_, ?_, ?_, ?_⟩
  · intro x hx
    by_cases h : x < 15
    · exact ⟨_, logExpm1_small hx h, fun _ => rfl, by simp [exp_pos]⟩
    · have h' := not_lt.1 h
      refine ⟨_, logExpm1_large h', fun h2 => absurd h2 h, ?_⟩
      have := expm1_gap h'
      rw [abs_of_pos (by linarith)]
      exact this.2
  · intro x y a b hx hxy ha hb
    by_cases hy : y < 15
    · rw [logExpm1_small hx (hxy.trans hy), FVal.val.injEq] at ha
      rw [logExpm1_small (hx.trans hxy) hy, FVal.val.injEq] at hb
      rw [← ha, ← hb]
      exact log_lt_log (expm1_pos hx) (by have := exp_lt_exp.2 hxy; linarith)
    · rw [logExpm1_large (not_lt.1 hy), FVal.val.injEq] at hb
      by_cases h : x < 15
      · rw [logExpm1_small hx h, FVal.val.injEq] at ha
        have h1 : log (exp x - 1) < log (exp x) := log_lt_log (expm1_pos hx) (by linarith)
        rw [log_exp] at h1
        linarith
      · rw [logExpm1_large (not_lt.1 h), FVal.val.injEq] at ha
        linarith
  · unfold logExpm1 tlog
    norm_num
  · intro x hx
    unfold logExpm1 tlog
    have h1 : exp (min x 15) < 1 := by rw [min_eq_left (by linarith), exp_lt_one_iff]; exact hx
    rw [if_pos (by linarith), if_neg (by linarith), if_neg (by linarith)]

/-- Non-vacuity: both branches on concrete numbers. -/
example : logExpm1 (log 2) = .val 0 ∧ logExpm1 20 = .val 20 := by
  constructor
  · have h2 : log 2 < 15 := lt_trans (log_lt_sub_one_of_pos (by norm_num) (by norm_num)) (by norm_num)
    rw [logExpm1_small (log_pos (by norm_num)) h2, exp_log (by norm_num)]
    norm_num
  · exact logExpm1_large (by norm_num)

/-! ### C39 -/

/-- A small step of gradient descent with incoming gradient `y` brings `x` closer to `bound`. -/
def Towards (x bound y : ℝ) : Prop := ∃ η > 0, |x - η * y - bound| < |x - bound|

theorem towards_iff {x bound y : ℝ} (h : x < bound) : Towards x bound y ↔ y < 0 := by
  constructor
  · rintro ⟨η, hη, hlt⟩
    by_contra hy
    rw [abs_of_neg (by linarith : x - bound < 0), abs_of_nonpos (by nlinarith)] at hlt
    nlinarith
  · intro hy
    refine ⟨(bound - x) / (-y), div_pos (by linarith) (by linarith), ?_⟩
    have : x - (bound - x) / (-y) * y - bound = 0 := by
      have : y ≠ 0 := hy.ne
      field_simp; ring
    rw [this, abs_zero]
    exact abs_pos.2 (by linarith)

/-- **C39 (partial).** For a tensor bound, `lower_bound` returns the larger of input and bound. With
`"identity"` the incoming gradient passes unchanged. With `"identity_if_towards"` (the default) it passes
for inputs that satisfy the bound; below the bound it passes exactly if descending along it moves the input
towards the bound, and is zero otherwise. Missing: the `"disconnected"` rule and float bounds, which are
wrong in the code (`C39_violated`). -/
theorem C39_partial (x b : ℝ) :
    (∃ bw, lowerBound x (.tensor b) "identity" = .ok (max x b, bw) ∧ ∀ y, bw y = y) ∧
    (∃ bw, lowerBound x (.tensor b) = .ok (max x b, bw) ∧
      (b ≤ x → ∀ y, bw y = y) ∧ (x < b → ∀ y, (Towards x b y → bw y = y) ∧ (¬ Towards x b y → bw y = 0))) ∧
    (∃ bw, lowerBound x (.tensor b) "disconnected" = .ok (max x b, bw)) ∧
    ∀ name bound, name ≠ "disconnected" → name ≠ "identity" → name ≠ "identity_if_towards" →
      lowerBound x bound name = .error .value := by
  refine ⟨⟨_, rfl, fun y => ?_⟩, ⟨_, rfl, fun h y => ?_, fun h y => ?_⟩, ⟨_, rfl⟩, ?_⟩
  · simp [lbBackward]
  · simp [lbBackward, h]
  · rw [towards_iff h]
    constructor
    · intro hy; simp [lbBackward, hy]
    · intro hy; simp [lbBackward, hy, h]
  · intro name bound h1 h2 h3
    simp [lowerBound, gradientCode, h1, h2, h3]

/-- Non-vacuity: below the bound, a gradient towards it and one away from it. -/
example : Towards 0 1 (-2) ∧ ¬ Towards 0 1 2 := by
  rw [towards_iff (by norm_num), towards_iff (by norm_num)]; norm_num

/-- **C39 is violated.** With `"disconnected"` the documented gradient is zero below the bound and the
incoming one above it; the code returns the *input* instead, so the result is wrong for every non-zero
input below the bound, and above it for every incoming gradient other than the input itself. And a float
bound, which the signature allows, always raises. -/
theorem C39_violated :
    (∀ x b bw, lowerBound x (.tensor b) "disconnected" = .ok (max x b, bw) →
      (x < b → x ≠ 0 → ∀ y, bw y ≠ 0) ∧ (b < x → ∀ y, y ≠ x → bw y ≠ y)) ∧
    ∀ x b name, name = "disconnected" ∨ name = "identity" ∨ name = "identity_if_towards" →
      lowerBound x (.float b) name = .error .attribute := by
  constructor
  · intro x b bw h
    have hbw : bw = lbBackward ⟨x, b, 0⟩ := by
      have h' : lowerBound x (.tensor b) "disconnected" = .ok (max x b, lbBackward ⟨x, b, 0⟩) := rfl
      rw [h'] at h
      injection h with h
      injection h with _ h
      exact h.symm
    subst hbw
    refine ⟨fun _ hx y => ?_, fun _ y hy => ?_⟩
    · simpa [lbBackward] using hx
    · simpa [lbBackward] using hy.symm
  · rintro x b name (rfl | rfl | rfl) <;> rfl

/-- Non-vacuity: the violation occurs on concrete numbers. -/
example : ∃ bw, lowerBound 1 (.tensor 2) "disconnected" = .ok (max 1 2, bw) ∧ bw 5 = 1 :=
  ⟨_, rfl, by simp [lbBackward]⟩

/-! ### C40 -/

theorem info_sum (p : List (List ℝ)) {base : ℝ} (h : 1 < base) :
    informationContent p "sum" base = .ok (.scalar ((-1 / log base) * (p.flatten.map log).sum)) := by
  have hl := log_pos h
  simp [informationContent, Except.bind, not_le.2 (zero_lt_one.trans h), hl.ne', InfoOut.map]

theorem info_batch (p : List (List ℝ)) (hp : p ≠ []) {base : ℝ} (h : 1 < base) :
    informationContent p "batch_el" base =
      .ok (.perElement (p.map fun e => (-1 / log base) * (e.map log).sum)) := by
  have hl := log_pos h
  simp [informationContent, Except.bind, not_le.2 (zero_lt_one.trans h), hl.ne', InfoOut.map, hp,
    Function.comp_def]

theorem info_none (p : List (List ℝ)) {base : ℝ} (h : 1 < base) :
    informationContent p "none" base =
      .ok (.all (p.map (List.map fun q => (-1 / log base) * log q))) := by
  have hl := log_pos h
  simp [informationContent, Except.bind, not_le.2 (zero_lt_one.trans h), hl.ne', InfoOut.map,
    Function.comp_def]

theorem sum_log_prod (l : List ℝ) (h : ∀ q ∈ l, 0 < q) : (l.map log).sum = log l.prod ∧ 0 < l.prod := by
  induction l with
  | nil => simp
  | cons a l ih =>
    have ha := h a (by simp)
    obtain ⟨e, hp⟩ := ih fun q hq => h q (by simp [hq])
    simp only [List.map_cons, List.sum_cons, List.prod_cons]
    exact ⟨by rw [e, log_mul ha.ne' hp.ne'], mul_pos ha hp⟩

theorem prod_le_one (l : List ℝ) (h : ∀ q ∈ l, 0 < q ∧ q ≤ 1) : l.prod ≤ 1 := by
  induction l with
  | nil => simp
  | cons a l ih =>
    have ha := h a (by simp)
    have hl := ih fun q hq => h q (by simp [hq])
    have hp := (sum_log_prod l fun q hq => (h q (by simp [hq])).1).2
    rw [List.prod_cons]
    nlinarith [ha.1, ha.2]

/-- **C40 (bits).** For probabilities in `(0, 1]` and any base above one, the information content with
reduction `"sum"` is the number `n ≥ 0` such that `base ^ (-n)` is the product of all the probabilities; it
is additive when batches are concatenated. -/
theorem C40_sum (p : List (List ℝ)) (hp : ∀ e ∈ p, ∀ q ∈ e, 0 < q ∧ q ≤ 1) {base : ℝ} (h : 1 < base) :
    (∃ n, informationContent p "sum" base = .ok (.scalar n) ∧ 0 ≤ n ∧
      base ^ (-n) = (p.map List.prod).prod) ∧
    ∀ p', ∃ m n, informationContent p "sum" base = .ok (.scalar m) ∧
      informationContent p' "sum" base = .ok (.scalar n) ∧
      informationContent (p ++ p') "sum" base = .ok (.scalar (m + n)) := by
  have hl := log_pos h
  refine ⟨⟨_, info_sum p h, ?_, ?_⟩, fun p' => ⟨_, _, info_sum p h, info_sum p' h, ?_⟩⟩
  · have hflat : ∀ q ∈ p.flatten, 0 < q ∧ q ≤ 1 := by
      intro q hq
      obtain ⟨e, he, hqe⟩ := List.mem_flatten.1 hq
      exact hp e he q hqe
    have h1 := sum_log_prod p.flatten fun q hq => (hflat q hq).1
    rw [h1.1, neg_div, neg_mul, ← mul_neg]
    refine mul_nonneg (by positivity) (neg_nonneg.2 ?_)
    exact log_nonpos h1.2.le (prod_le_one _ hflat)
  · have hflat : ∀ q ∈ p.flatten, 0 < q := by
      intro q hq
      obtain ⟨e, he, hqe⟩ := List.mem_flatten.1 hq
      exact (hp e he q hqe).1
    have h1 := sum_log_prod p.flatten hflat
    rw [← List.prod_flatten, h1.1, rpow_def_of_pos (zero_lt_one.trans h)]
    have : log base * -(-1 / log base * log p.flatten.prod) = log p.flatten.prod := by
      field_simp
    rw [this, exp_log h1.2]
  · rw [info_sum _ h, List.flatten_append, List.map_append, List.sum_append, mul_add]

/-- **C40 (bits, base two).** With the default arguments, the information content of a tensor in which every
entry has probability `2 ^ (-k)` for its own `k` is the total number of bits. -/
theorem C40_bits (ks : List (List ℕ)) :
    informationContent (ks.map (List.map fun k : ℕ => (2 : ℝ) ^ (-(k : ℝ)))) =
      .ok (.scalar ((ks.flatten.sum : ℕ) : ℝ)) := by
  rw [info_sum _ (by norm_num)]
  congr 2
  rw [← List.map_flatten, List.map_map]
  have hl : log 2 ≠ 0 := (log_pos (by norm_num)).ne'
  induction ks.flatten with
  | nil => simp
  | cons k l ih =>
    simp only [List.map_cons, List.sum_cons, mul_add, ih, Function.comp]
    rw [log_rpow (by norm_num)]
    push_cast
    field_simp

/-- Sum of everything in an output. -/
def InfoOut.total : InfoOut → ℝ
  | .scalar x => x
  | .perElement xs => xs.sum
  | .all xs => xs.flatten.sum

theorem sum_map_mul' (c : ℝ) (l : List ℝ) : (l.map (c * ·)).sum = c * l.sum := by
  simpa using List.sum_map_mul_left l id c

/-- **C40 (reductions).** The three reductions agree: the entries of `"none"` add up, per batch element, to
the entries of `"batch_el"`, and both add up to the value of `"sum"`; any other name raises. -/
theorem C40_reductions (p : List (List ℝ)) (hp : p ≠ []) {base : ℝ} (h : 1 < base) :
    ∃ s xs yss, informationContent p "sum" base = .ok (.scalar s) ∧
      informationContent p "batch_el" base = .ok (.perElement xs) ∧
      informationContent p "none" base = .ok (.all yss) ∧
      xs = yss.map List.sum ∧ s = xs.sum ∧ yss.map List.length = p.map List.length := by
  refine ⟨_, _, _, info_sum p h, info_batch p hp h, info_none p h, ?_, ?_, ?_⟩
  · rw [List.map_map]
    refine List.map_congr_left fun e _ => ?_
    simp only [Function.comp]
    rw [← sum_map_mul', List.map_map]
    rfl
  · rw [← sum_map_mul' (-1 / log base) (p.flatten.map log), List.map_map, List.map_flatten,
      List.sum_flatten, List.map_map]
    congr 1
    refine List.map_congr_left fun e _ => ?_
    simp only [Function.comp]
    rw [← sum_map_mul', List.map_map]
  · rw [List.map_map]
    refine List.map_congr_left fun e _ => ?_
    simp

/-- Names that are not a reduction raise `ValueError`. -/
theorem C40_unknown (p : List (List ℝ)) (name : String) (base : ℝ) (h1 : name ≠ "sum")
    (h2 : name ≠ "batch_el") (h3 : name ≠ "none") : informationContent p name base = .error .value := by
  simp [informationContent, h1, h2, h3, Except.bind]

/-- Non-vacuity: two batch elements with probabilities 1/2, 1/4 and 1/8. -/
example : ∀ e ∈ [[(1 : ℝ) / 2, 1 / 4], [1 / 8]], ∀ q ∈ e, 0 < q ∧ q ≤ 1 := by
  norm_num

/-! ### C41 -/

/-- **C41.** `image_to_255_scale` accepts exactly the (non-empty) images with values in `[0, 1]`. It then
works pixel by pixel: every output is an integer between 0 and 255, within half a step of `255 * p`; larger
pixels give larger or equal outputs; and a pixel closer than half a step to `k / 255` gives exactly `k`
(in particular `k / 255` itself, even after a small rounding error). -/
theorem C41 (image : List ℝ) (hne : image ≠ []) :
    ((∃ out, imageTo255Scale image = .ok out) ↔ ∀ p ∈ image, 0 ≤ p ∧ p ≤ 1) ∧
    ((¬ ∀ p ∈ image, 0 ≤ p ∧ p ≤ 1) → imageTo255Scale image = .error .value) ∧
    ∀ out, imageTo255Scale image = .ok out → ∃ f : ℝ → ℝ, out = image.map f ∧
      (∀ p, 0 ≤ p → p ≤ 1 → (∃ n : ℕ, f p = n ∧ n ≤ 255) ∧ |f p - 255 * p| ≤ 1 / 2) ∧
      Monotone f ∧ ∀ (k : ℕ) (p : ℝ), |p - k / 255| < 1 / 510 → f p = k := by
  have hbad : (¬ ∀ p ∈ image, 0 ≤ p ∧ p ≤ 1) → imageTo255Scale image = .error .value := by
    intro h
    unfold imageTo255Scale
    rw [if_neg (by simpa using hne)]
    by_cases h1 : ∃ p ∈ image, p > 1
    · rw [if_pos h1]
    · rw [if_neg h1, if_pos]
      by_contra h2
      push Not at h1 h2
      exact h fun p hp => ⟨h2 p hp, h1 p hp⟩
  have hgood : (∀ p ∈ image, 0 ≤ p ∧ p ≤ 1) →
      imageTo255Scale image = .ok (image.map fun p => (roundHalfEven (p * 255) : ℝ)) := by
    intro h
    unfold imageTo255Scale
    rw [if_neg (by simpa using hne), if_neg, if_neg]
    · rintro ⟨p, hp, hlt⟩; linarith [(h p hp).1]
    · rintro ⟨p, hp, hlt⟩; linarith [(h p hp).2]
  refine ⟨⟨?_, fun h => ⟨_, hgood h⟩⟩, hbad, ?_⟩
  · rintro ⟨out, ho⟩
    by_contra h
    rw [hbad h] at ho
    cases ho
  · intro out ho
    have h : ∀ p ∈ image, 0 ≤ p ∧ p ≤ 1 := by
      by_contra h
      rw [hbad h] at ho
      cases ho
    rw [hgood h] at ho
    refine ⟨_, (Except.ok.inj ho).symm, ?_, ?_, ?_⟩
    · intro p h0 h1
      have hlo : 0 ≤ roundHalfEven (p * 255) := by
        have := roundHalfEven_mono (show ((0 : ℤ) : ℝ) ≤ p * 255 by push_cast; positivity)
        rwa [roundHalfEven_int] at this
      have hhi : roundHalfEven (p * 255) ≤ 255 := by
        have := roundHalfEven_mono (show p * 255 ≤ ((255 : ℤ) : ℝ) by push_cast; linarith)
        rwa [roundHalfEven_int] at this
      refine ⟨⟨(roundHalfEven (p * 255)).toNat, ?_, by omega⟩, ?_⟩
      · show ((roundHalfEven (p * 255) : ℤ) : ℝ) = (((roundHalfEven (p * 255)).toNat : ℕ) : ℝ)
        exact_mod_cast (Int.toNat_of_nonneg hlo).symm
      · rw [mul_comm 255 p]
        exact roundHalfEven_near _
    · intro p q hpq
      show ((roundHalfEven (p * 255) : ℤ) : ℝ) ≤ (roundHalfEven (q * 255) : ℤ)
      exact_mod_cast roundHalfEven_mono (by linarith : p * 255 ≤ q * 255)
    · intro k p hk
      have : roundHalfEven (p * 255) = k := by
        refine roundHalfEven_of_near _ _ ?_
        rw [abs_lt] at hk ⊢
        push_cast
        constructor <;> linarith [hk.1, hk.2]
      show ((roundHalfEven (p * 255) : ℤ) : ℝ) = k
      rw [this]
      simp

/-- Non-vacuity: an image with the extreme values and one in between. -/
example : imageTo255Scale [0, 1, 100 / 255] = .ok [0, 255, 100] := by
  unfold imageTo255Scale
  rw [if_neg (by simp), if_neg (by norm_num), if_neg (by norm_num)]
  have h0 : roundHalfEven (0 * 255) = 0 := by
    simpa using roundHalfEven_int 0
  have h1 : roundHalfEven (1 * 255) = 255 := by
    have := roundHalfEven_int 255
    norm_num at this ⊢; exact this
  have h2 : roundHalfEven (100 / 255 * 255) = 100 := by
    have := roundHalfEven_int 100
    norm_num at this ⊢; exact this
  simp only [List.map_cons, List.map_nil, h0, h1, h2]
  norm_num

/-! ### C67 -/

/-- The quantiser the offset is meant for, as documented:
`x ↦ round (x - offset) + offset`. -/
noncomputable def quantise (offset x : ℝ) : ℝ := roundHalfEven (x - offset) + offset

/-- **C67.** The quantisation offset is between -1/2 and 1/2, differs from the mean by an integer, and makes
the documented quantiser reproduce the mean exactly (and move every value by at most 1/2). Distributions
without a mean get offset zero. -/
theorem C67 (mean : ℝ) :
    |quantizationOffset (some mean)| ≤ 1 / 2 ∧ (∃ k : ℤ, mean = quantizationOffset (some mean) + k) ∧
      quantise (quantizationOffset (some mean)) mean = mean ∧
      (∀ x, |quantise (quantizationOffset (some mean)) x - x| ≤ 1 / 2) ∧ quantizationOffset none = 0 := by
  have h := roundHalfEven_near mean
  have hmean : mean - quantizationOffset (some mean) = (roundHalfEven mean : ℤ) := by
    simp [quantizationOffset]
  refine ⟨?_, ⟨roundHalfEven mean, by linarith⟩, ?_, ?_, ?_⟩
  · simp only [quantizationOffset, Option.getD_some]
    rw [abs_sub_comm]
    exact h
  · unfold quantise
    rw [hmean, roundHalfEven_int]
    linarith
  · intro x
    unfold quantise
    have := roundHalfEven_near (x - quantizationOffset (some mean))
    have e : (roundHalfEven (x - quantizationOffset (some mean)) : ℝ) + quantizationOffset (some mean) - x =
        roundHalfEven (x - quantizationOffset (some mean)) - (x - quantizationOffset (some mean)) := by ring
    rw [e]
    exact this
  · have := roundHalfEven_int 0
    simp only [quantizationOffset, Option.getD_none]
    push_cast at this
    rw [this]
    simp

/-- Non-vacuity: a mean of 2.3 has offset 0.3. -/
example : quantizationOffset (some 2.3) = 0.3 := by
  have : roundHalfEven 2.3 = 2 := roundHalfEven_of_near _ _ (by norm_num [abs_lt])
  simp only [quantizationOffset, Option.getD_some, this]
  norm_num

end Verif.Functional
