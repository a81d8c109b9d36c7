import Verif.Functional.Warp

/-!
C43: image warping.
-/

namespace Verif.Functional.Warp

variable {K : Type*} [Field K] [LinearOrder K] [IsStrictOrderedRing K] [FloorRing K]

/-! ### Positions -/

theorem clip_nat {n k : ℕ} (h : k < n) : clip (k : K) n = k := by
  unfold clip
  have h1 : ((k : K)) ≤ n - 1 := by
    have : ((k + 1 : ℕ) : K) ≤ n := by exact_mod_cast h
    push_cast at this; linarith
  rw [max_eq_left (by positivity), min_eq_right h1]

theorem clip_range (x : K) {n : ℕ} (h : 0 < n) : 0 ≤ clip x n ∧ clip x n ≤ n - 1 := by
  unfold clip
  have h1 : (0 : K) ≤ n - 1 := by
    have : ((1 : ℕ) : K) ≤ n := by exact_mod_cast h
    push_cast at this; linarith
  exact ⟨le_min h1 (le_max_right _ _), min_le_left _ _⟩

theorem reflect_nat_true {n k : ℕ} (h : k < n) : reflect (k : K) 0 (2 * ((n : K) - 1)) = k := by
  unfold reflect
  by_cases h1 : (0 : K) = 2 * ((n : K) - 1)
  · rw [if_pos h1]
    have : (n : K) = ((1 : ℕ) : K) := by push_cast; linarith
    have : n = 1 := by exact_mod_cast this
    have : k = 0 := by omega
    rw [this]; simp
  · rw [if_neg h1]
    have hn : 2 ≤ n := by
      rcases Nat.lt_or_ge n 2 with h2 | h2
      · exfalso
        have : n = 1 := by omega
        subst this
        simp at h1
      · exact h2
    have hpos : (0 : K) < (n : K) - 1 := by
      have : ((2 : ℕ) : K) ≤ n := by exact_mod_cast hn
      push_cast at this; linarith
    simp only [zero_div, sub_zero, mul_div_cancel_left₀ ((n : K) - 1) (two_ne_zero), add_zero]
    rw [abs_of_nonneg (by positivity)]
    rcases Nat.lt_or_ge (k + 1) n with h2 | h2
    · have : ⌊(k : K) / (n - 1)⌋ = 0 := by
        rw [Int.floor_eq_iff]
        constructor
        · push_cast; positivity
        · rw [div_lt_iff₀ hpos]
          have : ((k + 1 + 1 : ℕ) : K) ≤ n := by exact_mod_cast h2
          push_cast at this ⊢; linarith
      rw [this]; simp
    · have hk : n = k + 1 := by omega
      subst hk
      push_cast at hpos ⊢
      rw [add_sub_cancel_right] at hpos ⊢
      rw [div_self hpos.ne', Int.floor_one]
      simp

theorem reflect_nat_false {n k : ℕ} (h : k < n) : reflect (k : K) (-1) (2 * (n : K) - 1) = k := by
  unfold reflect
  have hn : ((k + 1 : ℕ) : K) ≤ n := by exact_mod_cast h
  push_cast at hn
  have hk : (0 : K) ≤ k := by positivity
  rw [if_neg (by intro h; linarith)]
  have e1 : (2 * (n : K) - 1 - -1) / 2 = n := by ring
  have e2 : (k : K) - -1 / 2 = k + 1 / 2 := by ring
  simp only [e1, e2]
  rw [abs_of_nonneg (by positivity)]
  have : ⌊((k : K) + 1 / 2) / n⌋ = 0 := by
    have hpos : (0 : K) < n := by linarith
    rw [Int.floor_eq_iff]
    constructor
    · push_cast; positivity
    · rw [div_lt_iff₀ hpos]
      push_cast; linarith
  rw [this]
  simp; ring

/-- Every padding mode leaves pixel positions inside the image alone. -/
theorem padCoord_nat (pm : Padding) (ac : Bool) {n k : ℕ} (h : k < n) : padCoord pm ac (k : K) n = k := by
  cases pm with
  | zeros => rfl
  | border => exact clip_nat h
  | reflection =>
    unfold padCoord
    cases ac
    · simp only [Bool.false_eq_true, if_false]
      rw [reflect_nat_false h, clip_nat h]
    · simp only [if_true]
      rw [reflect_nat_true h, clip_nat h]

/-- The two padding modes that stay inside the image. -/
theorem padCoord_range {pm : Padding} (hpm : pm ≠ .zeros) (ac : Bool) (x : K) {n : ℕ} (h : 0 < n) :
    0 ≤ padCoord pm ac x n ∧ padCoord pm ac x n ≤ n - 1 := by
  cases pm with
  | zeros => exact absurd rfl hpm
  | border => exact clip_range x h
  | reflection => exact clip_range _ h

/-- With aligned corners, pixel `j` shifted by `2 d / (n - 1)` is at position `j + d`. -/
theorem unnormalize_shift {n j : ℕ} (h : j < n) (d : K) (hn : 2 ≤ n ∨ d = 0) :
    unnormalize true (linspace n j + 2 * d / (n - 1)) n = j + d := by
  unfold unnormalize linspace
  simp only [if_true]
  rcases Nat.lt_or_ge n 2 with h2 | h2
  · have : n = 1 := by omega
    subst this
    have : j = 0 := by omega
    subst this
    have hd : d = 0 := hn.resolve_left (by omega)
    subst hd
    simp
  · have hpos : (0 : K) < (n : K) - 1 := by
      have : ((2 : ℕ) : K) ≤ n := by exact_mod_cast h2
      push_cast at this; linarith
    rw [if_neg (by omega)]
    field_simp
    ring

theorem pixelAt_nat {h w : ℕ} (pix : ℕ → ℕ → K) {i j : ℕ} (hi : i < h) (hj : j < w) :
    pixelAt h w pix i j = pix i j := by
  unfold pixelAt
  rw [if_pos ⟨by omega, by omega, by omega, by omega⟩]
  simp

theorem bilinear_nat {h w : ℕ} (pix : ℕ → ℕ → K) {i j : ℕ} (hi : i < h) (hj : j < w) :
    bilinear h w pix (i : K) (j : K) = pix i j := by
  unfold bilinear
  simp only [Int.floor_natCast, Int.cast_natCast, sub_self]
  rw [pixelAt_nat pix hi hj]
  ring

theorem nearbyint_nat (k : ℕ) : nearbyint (k : K) = k := by
  unfold nearbyint
  rw [Int.floor_natCast]
  simp

theorem bicubic_nat (pm : Padding) (ac : Bool) {h w : ℕ} (pix : ℕ → ℕ → K) {i j : ℕ} (hi : i < h) (hj : j < w) :
    bicubic pm ac h w pix (i : K) (j : K) = pix i j := by
  unfold bicubic cubicCoeffs
  simp only [Int.floor_natCast, Int.cast_natCast, sub_self, List.zipWith_cons_cons, List.zipWith_nil_right,
    List.sum_cons, List.sum_nil]
  have e0 : ((i : ℤ) + 0 : ℤ) = i := by ring
  have e0' : ((j : ℤ) + 0 : ℤ) = j := by ring
  rw [e0, e0', Int.cast_natCast, Int.cast_natCast, padCoord_nat pm ac hi, padCoord_nat pm ac hj, Int.floor_natCast,
    Int.floor_natCast, pixelAt_nat pix hi hj]
  ring

theorem gridSample_nat (mode : Mode) (pm : Padding) (ac : Bool) {h w : ℕ} (pix : ℕ → ℕ → K) {i j : ℕ}
    (hi : i < h) (hj : j < w) (gx gy : K) (hx : unnormalize ac gx w = j) (hy : unnormalize ac gy h = i) :
    gridSample mode pm ac h w pix gx gy = pix i j := by
  unfold gridSample
  simp only [hx, hy, padCoord_nat pm ac hi, padCoord_nat pm ac hj]
  cases mode with
  | bilinear => exact bilinear_nat pix hi hj
  | nearest => simp only [nearbyint_nat]; exact pixelAt_nat pix hi hj
  | bicubic => exact bicubic_nat pm ac pix hi hj

/-! ### Theorems -/

/-- Two batches of images agree on their pixels. -/
def Images.Same (x y : Images K) : Prop :=
  x.batch = y.batch ∧ x.channels = y.channels ∧ x.height = y.height ∧ x.width = y.width ∧
    ∀ b c i j, b < x.batch → c < x.channels → i < x.height → j < x.width → x.pix b c i j = y.pix b c i j

/-- The flow has the shape of the image. -/
def Fits (image : Images K) (flow : Flow K) : Prop :=
  flow.batch = image.batch ∧ flow.height = image.height ∧ flow.width = image.width ∧ flow.comps = 2 ∧
    0 < image.height ∧ 0 < image.width

theorem warp_ok {image : Images K} {flow : Flow K} (hf : Fits image flow) (mode : Mode) (pm : Padding) (ac : Bool) :
    ∃ out, denseImageWarp image flow mode pm ac = .ok out ∧ out.batch = image.batch ∧
      out.channels = image.channels ∧ out.height = image.height ∧ out.width = image.width ∧
      ∀ b c i j, out.pix b c i j = gridSample mode pm ac image.height image.width (image.pix b c)
        (linspace image.width j + flow.val b i j 0) (linspace image.height i + flow.val b i j 1) := by
  obtain ⟨h1, h2, h3, h4, h5, h6⟩ := hf
  have e : denseImageWarp image flow mode pm ac = .ok ⟨image.batch, image.channels, flow.height, flow.width,
      fun b c i j => gridSample mode pm ac image.height image.width (image.pix b c)
        (linspace flow.width j + flow.val b i j 0) (linspace flow.height i + flow.val b i j 1)⟩ := by
    unfold denseImageWarp
    rw [if_neg (by simp), if_neg (by simp [h4]), if_neg (by simp [h1]; omega)]
  exact ⟨_, e, rfl, rfl, h2, h3, fun b c i j => by simp only [h2, h3]⟩

/-- **C43 (integer flow, partial).** With `align_corners=True`, in all interpolation and padding modes: a flow
that displaces pixel `(i, j)` of batch element `b` by `dx b i j` columns and `dy b i j` rows (in the
normalised units `2 dx / (width - 1)`, `2 dy / (height - 1)`) returns the image's pixel at the displaced
position, for every pixel whose displaced position is inside the image. Missing: the default
`align_corners=False` (`C43_violated`). -/
theorem C43_shift_partial {image : Images K} {flow : Flow K} (hf : Fits image flow) (mode : Mode) (pm : Padding)
    (dx dy : ℕ → ℕ → ℕ → ℤ) (h2 : 2 ≤ image.height) (w2 : 2 ≤ image.width)
    (hx : ∀ b i j, flow.val b i j 0 = 2 * (dx b i j : K) / (image.width - 1))
    (hy : ∀ b i j, flow.val b i j 1 = 2 * (dy b i j : K) / (image.height - 1)) :
    ∃ out, denseImageWarp image flow mode pm true = .ok out ∧ out.batch = image.batch ∧
      out.channels = image.channels ∧ out.height = image.height ∧ out.width = image.width ∧
      ∀ b c i j (i' j' : ℕ), i < image.height → j < image.width → i' < image.height → j' < image.width →
        (i' : ℤ) = i + dy b i j → (j' : ℤ) = j + dx b i j → out.pix b c i j = image.pix b c i' j' := by
  obtain ⟨out, ho, e1, e2, e3, e4, hpix⟩ := warp_ok hf mode pm true
  refine ⟨out, ho, e1, e2, e3, e4, ?_⟩
  intro b c i j i' j' hi hj hi' hj' ei ej
  rw [hpix, hx, hy]
  refine gridSample_nat mode pm true _ hi' hj' _ _ ?_ ?_
  · rw [unnormalize_shift hj _ (Or.inl w2)]
    exact_mod_cast ej.symm
  · rw [unnormalize_shift hi _ (Or.inl h2)]
    exact_mod_cast ei.symm

/-- **C43 (zero flow, partial).** With `align_corners=True`, the zero flow returns the image, in all modes
and for all sizes. Missing: the default arguments, which do so if height and width are at most three
(`C43_identity_small`), but not beyond (`C43_violated`). -/
theorem C43_identity_partial {image : Images K} {flow : Flow K} (hf : Fits image flow) (mode : Mode) (pm : Padding)
    (h0 : ∀ b i j k, flow.val b i j k = 0) :
    ∃ out, denseImageWarp image flow mode pm true = .ok out ∧ out.Same image := by
  obtain ⟨out, ho, e1, e2, e3, e4, hpix⟩ := warp_ok hf mode pm true
  refine ⟨out, ho, e1, e2, e3, e4, ?_⟩
  intro b c i j _ _ hi hj
  rw [hpix, h0, h0]
  rw [e3] at hi
  rw [e4] at hj
  refine gridSample_nat mode pm true _ hi hj _ _ ?_ ?_
  · have := unnormalize_shift (K := K) hj 0 (Or.inr rfl)
    simpa using this
  · have := unnormalize_shift (K := K) hi 0 (Or.inr rfl)
    simpa using this

theorem clip_small {n j : ℕ} (hj : j < n) (hn : n ≤ 3) :
    clip (unnormalize false (linspace n j + 0 : K) n) n = j := by
  unfold clip unnormalize linspace
  have : (n = 1 ∧ j = 0) ∨ (n = 2 ∧ j = 0) ∨ (n = 2 ∧ j = 1) ∨ (n = 3 ∧ j = 0) ∨ (n = 3 ∧ j = 1) ∨ (n = 3 ∧ j = 2) := by
    omega
  rcases this with ⟨rfl, rfl⟩ | ⟨rfl, rfl⟩ | ⟨rfl, rfl⟩ | ⟨rfl, rfl⟩ | ⟨rfl, rfl⟩ | ⟨rfl, rfl⟩ <;> norm_num

/-- The default case for tiny images: see `C43_identity_partial`. -/
theorem C43_identity_small {image : Images K} {flow : Flow K} (hf : Fits image flow)
    (hh : image.height ≤ 3) (hw : image.width ≤ 3) (h0 : ∀ b i j k, flow.val b i j k = 0) :
    ∃ out, denseImageWarp image flow = .ok out ∧ out.Same image := by
  obtain ⟨out, ho, e1, e2, e3, e4, hpix⟩ := warp_ok hf .bilinear .border false
  refine ⟨out, ho, e1, e2, e3, e4, ?_⟩
  intro b c i j _ _ hi hj
  rw [hpix, h0, h0]
  rw [e3] at hi
  rw [e4] at hj
  simp only [gridSample, padCoord]
  rw [clip_small hi hh, clip_small hj hw]
  exact bilinear_nat _ hi hj

/-- Non-vacuity: a two by three image shifted by one column. -/
example : (match denseImageWarp (K := ℚ) ⟨1, 1, 2, 3, fun _ _ i j => 10 * i + j⟩
      ⟨1, 2, 3, 2, fun _ _ _ k => if k = 0 then 1 else 0⟩ .bilinear .zeros true with
    | .ok out => [out.pix 0 0 0 0, out.pix 0 0 0 1, out.pix 0 0 0 2, out.pix 0 0 1 0]
    | .error _ => []) = [1, 2, 0, 11] := by decide +kernel

/-! ### Range -/

omit [IsStrictOrderedRing K] [FloorRing K] in
theorem pixelAt_range {h w : ℕ} {pix : ℕ → ℕ → K} {lo hi : K}
    (hp : ∀ i j, i < h → j < w → lo ≤ pix i j ∧ pix i j ≤ hi) (hz : lo ≤ 0 ∧ 0 ≤ hi) (i j : ℤ) :
    lo ≤ pixelAt h w pix i j ∧ pixelAt h w pix i j ≤ hi := by
  unfold pixelAt
  split_ifs with h1
  · exact hp _ _ (by omega) (by omega)
  · exact hz

omit [IsStrictOrderedRing K] [FloorRing K] in
theorem pixelAt_inside {h w : ℕ} {pix : ℕ → ℕ → K} {lo hi : K}
    (hp : ∀ i j, i < h → j < w → lo ≤ pix i j ∧ pix i j ≤ hi) {i j : ℤ} (h0 : 0 ≤ i) (h1 : i < h) (h2 : 0 ≤ j)
    (h3 : j < w) : lo ≤ pixelAt h w pix i j ∧ pixelAt h w pix i j ≤ hi := by
  unfold pixelAt
  rw [if_pos ⟨h0, h1, h2, h3⟩]
  exact hp _ _ (by omega) (by omega)

theorem mul_range {c p lo hi : K} (hc : 0 ≤ c) (h : c = 0 ∨ (lo ≤ p ∧ p ≤ hi)) : c * lo ≤ c * p ∧ c * p ≤ c * hi := by
  rcases h with rfl | ⟨h1, h2⟩
  · simp
  · exact ⟨mul_le_mul_of_nonneg_left h1 hc, mul_le_mul_of_nonneg_left h2 hc⟩

theorem bilinear_range {h w : ℕ} {pix : ℕ → ℕ → K} {lo hi : K} (y x : K)
    (h00 : lo ≤ pixelAt h w pix ⌊y⌋ ⌊x⌋ ∧ pixelAt h w pix ⌊y⌋ ⌊x⌋ ≤ hi)
    (h01 : x - ⌊x⌋ = 0 ∨ lo ≤ pixelAt h w pix ⌊y⌋ (⌊x⌋ + 1) ∧ pixelAt h w pix ⌊y⌋ (⌊x⌋ + 1) ≤ hi)
    (h10 : y - ⌊y⌋ = 0 ∨ lo ≤ pixelAt h w pix (⌊y⌋ + 1) ⌊x⌋ ∧ pixelAt h w pix (⌊y⌋ + 1) ⌊x⌋ ≤ hi)
    (h11 : (x - ⌊x⌋ = 0 ∨ y - ⌊y⌋ = 0) ∨
      lo ≤ pixelAt h w pix (⌊y⌋ + 1) (⌊x⌋ + 1) ∧ pixelAt h w pix (⌊y⌋ + 1) (⌊x⌋ + 1) ≤ hi) :
    lo ≤ bilinear h w pix y x ∧ bilinear h w pix y x ≤ hi := by
  unfold bilinear
  simp only
  have a0 : 0 ≤ y - ⌊y⌋ := sub_nonneg.2 (Int.floor_le y)
  have a1 : 0 ≤ 1 - (y - ⌊y⌋) := by linarith [Int.lt_floor_add_one y]
  have b0 : 0 ≤ x - ⌊x⌋ := sub_nonneg.2 (Int.floor_le x)
  have b1 : 0 ≤ 1 - (x - ⌊x⌋) := by linarith [Int.lt_floor_add_one x]
  set a := y - ⌊y⌋
  set b := x - ⌊x⌋
  have r00 := mul_range (mul_nonneg a1 b1) (Or.inr h00)
  have r01 := mul_range (p := pixelAt h w pix ⌊y⌋ (⌊x⌋ + 1)) (lo := lo) (hi := hi) (mul_nonneg a1 b0)
    (h01.imp (fun h => by rw [h, mul_zero]) id)
  have r10 := mul_range (p := pixelAt h w pix (⌊y⌋ + 1) ⌊x⌋) (lo := lo) (hi := hi) (mul_nonneg a0 b1)
    (h10.imp (fun h => by rw [h, zero_mul]) id)
  have r11 := mul_range (p := pixelAt h w pix (⌊y⌋ + 1) (⌊x⌋ + 1)) (lo := lo) (hi := hi) (mul_nonneg a0 b0)
    (h11.imp (fun h => by rcases h with h | h <;> rw [h] <;> simp) id)
  have elo : (1 - a) * (1 - b) * lo + (1 - a) * b * lo + a * (1 - b) * lo + a * b * lo = lo := by ring
  have ehi : (1 - a) * (1 - b) * hi + (1 - a) * b * hi + a * (1 - b) * hi + a * b * hi = hi := by ring
  constructor
  · linarith [r00.1, r01.1, r10.1, r11.1]
  · linarith [r00.2, r01.2, r10.2, r11.2]

theorem floor_inside {x : K} {n : ℕ} (h : 0 ≤ x ∧ x ≤ n - 1) :
    0 ≤ ⌊x⌋ ∧ ⌊x⌋ < n ∧ (x - ⌊x⌋ = 0 ∨ 0 ≤ ⌊x⌋ + 1 ∧ ⌊x⌋ + 1 < n) := by
  have h0 : 0 ≤ ⌊x⌋ := Int.floor_nonneg.2 h.1
  have h1 : ⌊x⌋ < n := by
    rw [Int.floor_lt]; push_cast; linarith [h.2]
  refine ⟨h0, h1, ?_⟩
  rcases eq_or_lt_of_le (Int.floor_le x) with e | e
  · left; rw [e, sub_self]
  · right
    refine ⟨by omega, ?_⟩
    have : (⌊x⌋ : K) < n - 1 := by linarith [h.2]
    have h2 : ((⌊x⌋ + 1 : ℤ) : K) < ((n : ℤ) : K) := by push_cast; linarith
    exact_mod_cast h2

theorem nearbyint_inside {x : K} {n : ℕ} (h : 0 ≤ x ∧ x ≤ n - 1) : 0 ≤ nearbyint x ∧ nearbyint x < n := by
  obtain ⟨h0, h1, h2⟩ := floor_inside h
  unfold nearbyint
  split_ifs with a b c
  · exact ⟨h0, h1⟩
  · rcases h2 with h2 | h2
    · rw [h2] at b; norm_num at b
    · exact h2
  · exact ⟨h0, h1⟩
  · rcases h2 with h2 | h2
    · rw [h2] at a; norm_num at a
    · exact h2

/-- **C43 (range, partial).** With bilinear or nearest interpolation the output never leaves the range of the
image's pixels (for the channel at hand): if all pixels are in `[lo, hi]` so is every output, for every
flow, also one of a different size, with border or reflection padding; with zero padding the same holds for
ranges that contain zero. Missing: bicubic interpolation, which overshoots (`C43_violated`). -/
theorem C43_range_partial {image : Images K} {flow : Flow K} {mode : Mode} (hm : mode ≠ .bicubic) (pm : Padding)
    (ac : Bool) (out : Images K) (ho : denseImageWarp image flow mode pm ac = .ok out) (b c : ℕ) (lo hi : K)
    (hp : ∀ i j, i < image.height → j < image.width → lo ≤ image.pix b c i j ∧ image.pix b c i j ≤ hi)
    (hz : pm = .zeros → lo ≤ 0 ∧ 0 ≤ hi) (i j : ℕ) : lo ≤ out.pix b c i j ∧ out.pix b c i j ≤ hi := by
  unfold denseImageWarp at ho
  split_ifs at ho with h1 h2 h3
  · cases ho
    push Not at h3
    obtain ⟨-, hh, hw⟩ := h3
    simp only [gridSample]
    generalize unnormalize ac (linspace flow.width j + flow.val b i j 0) image.width = x
    generalize unnormalize ac (linspace flow.height i + flow.val b i j 1) image.height = y
    by_cases hpm : pm = .zeros
    · have hz' := hz hpm
      have hall := fun i j : ℤ => pixelAt_range hp hz' i j
      cases mode with
      | bicubic => exact absurd rfl hm
      | bilinear => exact bilinear_range _ _ (hall _ _) (Or.inr (hall _ _)) (Or.inr (hall _ _)) (Or.inr (hall _ _))
      | nearest => exact hall _ _
    · have ry := padCoord_range hpm ac y (Nat.pos_of_ne_zero hh)
      have rx := padCoord_range hpm ac x (Nat.pos_of_ne_zero hw)
      cases mode with
      | bicubic => exact absurd rfl hm
      | nearest =>
        obtain ⟨y0, y1⟩ := nearbyint_inside ry
        obtain ⟨x0, x1⟩ := nearbyint_inside rx
        exact pixelAt_inside hp y0 y1 x0 x1
      | bilinear =>
        obtain ⟨y0, y1, y2⟩ := floor_inside ry
        obtain ⟨x0, x1, x2⟩ := floor_inside rx
        refine bilinear_range _ _ (pixelAt_inside hp y0 y1 x0 x1) ?_ ?_ ?_
        · exact x2.imp id fun h => pixelAt_inside hp y0 y1 h.1 h.2
        · exact y2.imp id fun h => pixelAt_inside hp h.1 h.2 x0 x1
        · rcases x2 with hx | hx
          · exact Or.inl (Or.inl hx)
          · rcases y2 with hy | hy
            · exact Or.inl (Or.inr hy)
            · exact Or.inr (pixelAt_inside hp hy.1 hy.2 hx.1 hx.2)

/-! ### Violation -/

/-- **C43, accepted inputs.** A call succeeds exactly when the two tensors have the same type, the flow has two
components, the batch sizes agree and the image is not empty; then the result has the size of the flow. -/
theorem C43_accepts (image : Images K) (flow : Flow K) (mode : Mode) (pm : Padding) (ac same : Bool) :
    ((∃ out, denseImageWarp image flow mode pm ac same = .ok out) ↔
      same = true ∧ flow.comps = 2 ∧ image.batch = flow.batch ∧ image.height ≠ 0 ∧ image.width ≠ 0) ∧
      ∀ out, denseImageWarp image flow mode pm ac same = .ok out →
        out.batch = image.batch ∧ out.channels = image.channels ∧ out.height = flow.height ∧
          out.width = flow.width := by
  unfold denseImageWarp
  by_cases h1 : same = true
  · by_cases h2 : flow.comps = 2
    · by_cases h3 : image.batch ≠ flow.batch ∨ image.height = 0 ∨ image.width = 0
      · rw [if_neg (by simpa using h1), if_neg (by simpa using h2), if_pos h3]
        refine ⟨⟨fun ⟨_, h⟩ => by simp at h, ?_⟩, fun _ h => by simp at h⟩
        rintro ⟨-, -, h4, h5, h6⟩
        rcases h3 with h | h | h
        · exact absurd h4 h
        · exact absurd h h5
        · exact absurd h h6
      · rw [if_neg (by simpa using h1), if_neg (by simpa using h2), if_neg h3]
        push Not at h3
        refine ⟨⟨fun _ => ⟨h1, h2, h3.1, h3.2.1, h3.2.2⟩, fun _ => ⟨_, rfl⟩⟩, ?_⟩
        intro out h
        cases h
        exact ⟨rfl, rfl, rfl, rfl⟩
    · rw [if_neg (by simpa using h1), if_pos h2]
      exact ⟨⟨fun ⟨_, h⟩ => by simp at h, fun h => absurd h.2.1 h2⟩, fun _ h => by simp at h⟩
  · rw [if_pos (by simpa using h1)]
    exact ⟨⟨fun ⟨_, h⟩ => by simp at h, fun h => absurd h.1 h1⟩, fun _ h => by simp at h⟩

/-- **C43 is violated.**
1. With the default `align_corners=False` the zero flow is not the identity, for any image four or more pixels
   wide that differs between its first two columns: the base grid spans the pixel centres from corner to
   corner, but is interpreted as spanning the pixel edges, which stretches the image.
2. Bicubic interpolation leaves the range of the pixels. -/
theorem C43_violated :
    (∀ (image : Images K) (flow : Flow K), Fits image flow → (∀ b i j k, flow.val b i j k = 0) →
      4 ≤ image.width → ∀ b c, (∀ i, i < image.height → image.pix b c i 0 = 0 ∧ image.pix b c i 1 = 1) →
      ∃ out, denseImageWarp image flow = .ok out ∧ out.pix b c 0 1 ≠ image.pix b c 0 1) ∧
    ∃ (image : Images ℚ) (flow : Flow ℚ) (out : Images ℚ),
      denseImageWarp image flow .bicubic = .ok out ∧
      (∀ i j, i < image.height → j < image.width → 0 ≤ image.pix 0 0 i j ∧ image.pix 0 0 i j ≤ 1) ∧
      out.pix 0 0 0 1 < 0 := by
  constructor
  · intro image flow hf h0 hw b c hp
    obtain ⟨out, ho, e1, e2, e3, e4, hpix⟩ := warp_ok hf .bilinear .border false
    refine ⟨out, ho, ?_⟩
    obtain ⟨-, -, -, -, hh, -⟩ := hf
    rw [hpix, h0, h0, (hp 0 hh).2]
    simp only [gridSample, padCoord]
    have ry := clip_range (unnormalize false (linspace image.height 0 + 0 : K) image.height) hh
    generalize clip (unnormalize false (linspace image.height 0 + 0 : K) image.height) image.height = y at ry
    obtain ⟨y0, y1, y2⟩ := floor_inside ry
    have hn : (4 : K) ≤ image.width := by exact_mod_cast hw
    have hn1 : (0 : K) < (image.width : K) - 1 := by linarith
    have ex : clip (unnormalize false (linspace image.width 1 + 0 : K) image.width) image.width =
        image.width / (image.width - 1) - 1 / 2 := by
      have e : unnormalize false (linspace image.width 1 + 0 : K) image.width =
          image.width / (image.width - 1) - 1 / 2 := by
        unfold unnormalize linspace
        rw [if_neg (by simp), if_neg (by omega)]
        field_simp
        push_cast
        ring
      rw [e]
      have g1 : (1 : K) ≤ image.width / (image.width - 1) := by rw [le_div_iff₀ hn1]; linarith
      have g2 : (image.width : K) / (image.width - 1) ≤ 2 := by rw [div_le_iff₀ hn1]; linarith
      unfold clip
      rw [max_eq_left (by linarith), min_eq_right (by linarith)]
    rw [ex]
    set x : K := image.width / (image.width - 1) - 1 / 2 with hx
    have g1 : (1 : K) ≤ image.width / (image.width - 1) := by rw [le_div_iff₀ hn1]; linarith
    have g2 : (image.width : K) / (image.width - 1) < 3 / 2 := by rw [div_lt_iff₀ hn1]; linarith
    have hx0 : 0 < x := by rw [hx]; linarith
    have hx1 : x < 1 := by rw [hx]; linarith
    have hfl : ⌊x⌋ = 0 := by rw [Int.floor_eq_iff]; push_cast; constructor <;> linarith
    have p0 : ∀ i : ℤ, 0 ≤ i → i < image.height → pixelAt image.height image.width (image.pix b c) i 0 = 0 := by
      intro i hi hi'
      unfold pixelAt
      rw [if_pos ⟨hi, hi', by omega, by omega⟩]
      exact (hp _ (by omega)).1
    have p1 : ∀ i : ℤ, 0 ≤ i → i < image.height → pixelAt image.height image.width (image.pix b c) i (0 + 1) = 1 := by
      intro i hi hi'
      unfold pixelAt
      rw [if_pos ⟨hi, hi', by omega, by omega⟩]
      exact (hp _ (by omega)).2
    unfold bilinear
    simp only [hfl]
    rw [p0 _ y0 y1, p1 _ y0 y1]
    rcases y2 with h | ⟨h, h'⟩
    · rw [h]
      push_cast
      intro h2
      linarith
    · rw [p0 _ h h', p1 _ h h']
      push_cast
      intro h2
      linarith
  · refine ⟨⟨1, 1, 1, 4, fun _ _ _ j => if j < 2 then 0 else 1⟩, ⟨1, 1, 4, 2, fun _ _ _ _ => 0⟩, _, rfl, ?_, ?_⟩
    · intro i j _ _
      simp only
      split_ifs <;> norm_num
    · decide +kernel

/-- Non-vacuity: the violation on a concrete one by four image. -/
example : (match denseImageWarp (K := ℚ) ⟨1, 1, 1, 4, fun _ _ _ j => 10 * j⟩ ⟨1, 1, 4, 2, fun _ _ _ _ => 0⟩ with
    | .ok out => [out.pix 0 0 0 0, out.pix 0 0 0 1, out.pix 0 0 0 2, out.pix 0 0 0 3]
    | .error _ => []) = [0, 25 / 3, 65 / 3, 30] := by decide +kernel

end Verif.Functional.Warp
