import Verif.Functional.WarpGrad
import Mathlib.Analysis.Calculus.Deriv.Mul
import Mathlib.Analysis.Calculus.Deriv.Comp
import Mathlib.Analysis.Calculus.Deriv.Add
import Mathlib.Algebra.Order.Archimedean.Real.Basic
import Mathlib.Tactic.Ring
import Mathlib.Tactic.NormNum

/-!
C147: the gradients of warping an image.
-/

namespace Verif.Functional.Warp

open Finset Filter Topology

/-! ### Specification -/

/-- A number computed from the warped image of which `g` is the gradient by the warped image. -/
def total (g : ℕ → ℕ → ℕ → ℕ → ℝ) (out : Images ℝ) : ℝ :=
  ∑ b ∈ range out.batch, ∑ c ∈ range out.channels, ∑ i ∈ range out.height, ∑ j ∈ range out.width, g b c i j * out.pix b c i j

/-- The flow with `t` at one place. -/
def withFlow (flow : Flow ℝ) (b i j k : ℕ) (t : ℝ) : Flow ℝ :=
  { flow with val := fun b' i' j' k' => if (b', i', j', k') = (b, i, j, k) then t else flow.val b' i' j' k' }

/-- The image with `t` at one place. -/
def withPixel (image : Images ℝ) (b c p q : ℕ) (t : ℝ) : Images ℝ :=
  { image with pix := fun b' c' p' q' => if (b', c', p', q') = (b, c, p, q) then t else image.pix b' c' p' q' }

/-- Where output number `j` of `n` looks along an axis of `N` pixels if the flow is `v`, counted in pixels: the outputs are spread
evenly over `[-1, 1]`, which are the centres of the outer pixels or, without `align_corners`, their outer edges. -/
noncomputable def looksAt (alignCorners : Bool) (n N j : ℕ) (v : ℝ) : ℝ :=
  let u := (if n = 1 then -1 else -1 + 2 * (j : ℝ) / (n - 1)) + v
  if alignCorners then (u + 1) / 2 * (N - 1) else (u + 1) / 2 * N - 1 / 2

/-- The same for a component of the flow: 0 along the rows, 1 along the columns. -/
noncomputable def looks (alignCorners : Bool) (image : Images ℝ) (flow : Flow ℝ) (b i j k : ℕ) : ℝ :=
  if k = 0 then looksAt alignCorners flow.width image.width j (flow.val b i j 0)
  else looksAt alignCorners flow.height image.height i (flow.val b i j 1)

/-! ### One axis -/

theorem unnormalize_looks (ac : Bool) (n N j : ℕ) (v : ℝ) : unnormalize ac (linspace n j + v) N = looksAt ac n N j v := by
  unfold unnormalize looksAt linspace
  cases ac <;> simp <;> ring

theorem looksAt_deriv (ac : Bool) (n N j : ℕ) (v : ℝ) : HasDerivAt (looksAt ac n N j) (unnormalizeMult ac N) v := by
  unfold looksAt unnormalizeMult
  set e : ℝ := if n = 1 then -1 else -1 + 2 * (j : ℝ) / (n - 1)
  cases ac
  · have := ((((hasDerivAt_id v).const_add e).add_const 1).div_const 2).mul_const (N : ℝ) |>.sub_const (1 / 2)
    refine (this.congr_deriv ?_)
    simp; ring
  · have := ((((hasDerivAt_id v).const_add e).add_const 1).div_const 2).mul_const ((N : ℝ) - 1)
    refine (this.congr_deriv ?_)
    simp; ring

theorem mult_nonneg (ac : Bool) {N : ℕ} (hN : N ≠ 0) : 0 ≤ (unnormalizeMult ac N : ℝ) := by
  have : (1 : ℝ) ≤ N := by exact_mod_cast Nat.one_le_iff_ne_zero.2 hN
  unfold unnormalizeMult
  cases ac <;> simp <;> linarith

theorem looksAt_mono (ac : Bool) (n : ℕ) {N : ℕ} (hN : N ≠ 0) (j : ℕ) : Monotone (looksAt ac n N j) := by
  have : (1 : ℝ) ≤ N := by exact_mod_cast Nat.one_le_iff_ne_zero.2 hN
  intro a b h
  unfold looksAt
  cases ac
  · simp only [Bool.false_eq_true, if_false]
    have := mul_le_mul_of_nonneg_right h (show (0 : ℝ) ≤ N / 2 by positivity)
    nlinarith
  · simp only [if_true]
    have := mul_le_mul_of_nonneg_right h (show (0 : ℝ) ≤ (N - 1) / 2 by linarith)
    nlinarith

/-- A function of the position that has a right derivative everywhere, and a derivative between pixels. -/
structure Smooth (φ D : ℝ → ℝ) : Prop where
  right : ∀ x : ℝ, HasDerivWithinAt φ (D x) (Set.Ici x) x
  off : ∀ x : ℝ, (∀ z : ℤ, x ≠ z) → HasDerivAt φ (D x) x

theorem floor_near {x : ℝ} (hx : ∀ z : ℤ, x ≠ z) : ∀ᶠ s in 𝓝 x, ⌊s⌋ = ⌊x⌋ := by
  have h1 : (⌊x⌋ : ℝ) < x := lt_of_le_of_ne (Int.floor_le x) fun h => hx _ h.symm
  filter_upwards [Ioo_mem_nhds h1 (Int.lt_floor_add_one x)] with s hs
  exact Int.floor_eq_iff.2 ⟨hs.1.le, hs.2⟩

theorem floor_near_right (x : ℝ) : ∀ᶠ s in 𝓝[Set.Ici x] x, ⌊s⌋ = ⌊x⌋ := by
  have := nhdsWithin_le_nhds (s := Set.Ici x) (Iio_mem_nhds (Int.lt_floor_add_one x))
  filter_upwards [this, self_mem_nhdsWithin] with s hs hs'
  exact Int.floor_eq_iff.2 ⟨(Int.floor_le x).trans hs', hs⟩

theorem bilinear_smooth (h w : ℕ) (pix : ℕ → ℕ → ℝ) (y : ℝ) : Smooth (bilinear h w pix y) (gradX h w pix y) := by
  have key : ∀ x, HasDerivAt (fun s : ℝ => (1 - (y - ⌊y⌋)) * (1 - (s - ⌊x⌋)) * pixelAt h w pix ⌊y⌋ ⌊x⌋ +
      (1 - (y - ⌊y⌋)) * (s - ⌊x⌋) * pixelAt h w pix ⌊y⌋ (⌊x⌋ + 1) + (y - ⌊y⌋) * (1 - (s - ⌊x⌋)) * pixelAt h w pix (⌊y⌋ + 1) ⌊x⌋ +
        (y - ⌊y⌋) * (s - ⌊x⌋) * pixelAt h w pix (⌊y⌋ + 1) (⌊x⌋ + 1)) (gradX h w pix y x) x := fun x => by
    have hb : HasDerivAt (fun s : ℝ => s - (⌊x⌋ : ℝ)) 1 x := (hasDerivAt_id x).sub_const _
    have := ((((hb.const_sub 1).const_mul (1 - (y - ⌊y⌋))).mul_const (pixelAt h w pix ⌊y⌋ ⌊x⌋)).add
      ((hb.const_mul (1 - (y - ⌊y⌋))).mul_const (pixelAt h w pix ⌊y⌋ (⌊x⌋ + 1)))).add
      (((hb.const_sub 1).const_mul (y - ⌊y⌋)).mul_const (pixelAt h w pix (⌊y⌋ + 1) ⌊x⌋)) |>.add
      ((hb.const_mul (y - ⌊y⌋)).mul_const (pixelAt h w pix (⌊y⌋ + 1) (⌊x⌋ + 1)))
    refine this.congr_deriv ?_
    simp only [gradX]
    push_cast
    ring
  refine ⟨fun x => ?_, fun x hx => ?_⟩
  · refine ((key x).hasDerivWithinAt).congr_of_eventuallyEq ?_ rfl
    filter_upwards [floor_near_right x] with s hs
    simp only [bilinear, hs]
  · refine (key x).congr_of_eventuallyEq ?_
    filter_upwards [floor_near hx] with s hs
    simp only [bilinear, hs]

theorem bilinear_swap (h w : ℕ) (pix : ℕ → ℕ → ℝ) (y x : ℝ) :
    bilinear h w pix y x = bilinear w h (fun a b => pix b a) x y := by
  have : ∀ i j, pixelAt h w pix i j = pixelAt w h (fun a b => pix b a) j i := fun i j => by
    unfold pixelAt
    refine if_congr ?_ rfl rfl
    tauto
  simp only [bilinear, this]
  ring

theorem gradY_swap (h w : ℕ) (pix : ℕ → ℕ → ℝ) (y x : ℝ) : gradY h w pix y x = gradX w h (fun a b => pix b a) x y := by
  have : ∀ i j, pixelAt h w pix i j = pixelAt w h (fun a b => pix b a) j i := fun i j => by
    unfold pixelAt
    refine if_congr ?_ rfl rfl
    tauto
  simp only [gradY, gradX, this]

theorem clip_low {N : ℕ} (hN : N ≠ 0) {x : ℝ} (hx : x ≤ 0) : clip x N = 0 := by
  have : (1 : ℝ) ≤ N := by exact_mod_cast Nat.one_le_iff_ne_zero.2 hN
  rw [clip, max_eq_right hx, min_eq_right (by linarith)]

theorem clip_high {N : ℕ} (hN : N ≠ 0) {x : ℝ} (hx : (N : ℝ) - 1 ≤ x) : clip x N = N - 1 := by
  have : (1 : ℝ) ≤ N := by exact_mod_cast Nat.one_le_iff_ne_zero.2 hN
  rw [clip, min_eq_left (le_max_of_le_left hx)]

theorem clip_mid {N : ℕ} {x : ℝ} (h0 : 0 ≤ x) (hx : x ≤ (N : ℝ) - 1) : clip x N = x := by
  rw [clip, max_eq_left h0, min_eq_right hx]

theorem clip_at {φ D : ℝ → ℝ} (hs : Smooth φ D) {N : ℕ} (hN : N ≠ 0) {x : ℝ} (hx : ∀ z : ℤ, x ≠ z) :
    HasDerivAt (fun s => φ (clip s N)) (clipMult x N * D (clip x N)) x := by
  unfold clipMult
  rcases lt_trichotomy x 0 with h | h | h
  · rw [if_pos h.le, zero_mul]
    refine (hasDerivAt_const x (φ 0)).congr_of_eventuallyEq ?_
    filter_upwards [Iio_mem_nhds h] with s hs
    rw [clip_low hN (le_of_lt hs)]
  · exact absurd h (by have := hx 0; simpa using this)
  · rw [if_neg (not_le.2 h)]
    have hne : x ≠ (N : ℝ) - 1 := by have := hx ((N : ℤ) - 1); simpa using this
    rcases lt_or_gt_of_ne hne with h' | h'
    · rw [if_neg (not_le.2 h'), one_mul, clip_mid h.le h'.le]
      refine (hs.off x hx).congr_of_eventuallyEq ?_
      filter_upwards [Ioo_mem_nhds h h'] with s hs
      rw [clip_mid hs.1.le hs.2.le]
    · rw [if_pos h'.le, zero_mul]
      refine (hasDerivAt_const x (φ (N - 1))).congr_of_eventuallyEq ?_
      filter_upwards [Ioi_mem_nhds h'] with s hs
      rw [clip_high hN (le_of_lt hs)]

theorem clip_sided {N : ℕ} (hN : N ≠ 0) (x : ℝ) : ∃ S : ℝ → Set ℝ, (S = Set.Ici ∨ S = Set.Iic) ∧ ∀ φ D : ℝ → ℝ, Smooth φ D →
    HasDerivWithinAt (fun s => φ (clip s N)) (clipMult x N * D (clip x N)) (S x) x := by
  unfold clipMult
  by_cases h : x ≤ 0
  · refine ⟨Set.Iic, Or.inr rfl, fun φ D hs => ?_⟩
    rw [if_pos h, zero_mul]
    refine (hasDerivWithinAt_const x _ (φ 0)).congr (fun s hs => ?_) ?_
    · rw [clip_low hN (le_trans hs h)]
    · rw [clip_low hN h]
  · refine ⟨Set.Ici, Or.inl rfl, fun φ D hs => ?_⟩
    rw [if_neg h]
    by_cases h' : (N : ℝ) - 1 ≤ x
    · rw [if_pos h', zero_mul]
      refine (hasDerivWithinAt_const x _ (φ (N - 1))).congr (fun s hs => ?_) ?_
      · rw [clip_high hN (le_trans h' hs)]
      · rw [clip_high hN h']
    · have h := not_le.1 h; have h' := not_le.1 h'
      rw [if_neg (not_le.2 h'), one_mul, clip_mid h.le h'.le]
      refine (hs.right x).congr_of_eventuallyEq ?_ (by rw [clip_mid h.le h'.le])
      filter_upwards [nhdsWithin_le_nhds (Ioo_mem_nhds h h')] with s hs
      rw [clip_mid hs.1.le hs.2.le]

/-- Away from the turning points, reflection moves positions by whole pixels, and turns them around or not. -/
theorem reflect_off (a : ℤ) {m : ℕ} (hm : m ≠ 0) {x : ℝ} (hx : ∀ z : ℤ, |x - (a : ℝ) / 2| / m ≠ z) :
    ∃ σ c : ℤ, (σ = 1 ∨ σ = -1) ∧ reflectMult x (a : ℝ) (a + 2 * m) = σ ∧
      ∀ᶠ s in 𝓝 x, reflect s (a : ℝ) (a + 2 * m) = σ * s + c := by
  have hm' : (0 : ℝ) < m := by exact_mod_cast Nat.pos_of_ne_zero hm
  have hne : (a : ℝ) ≠ a + 2 * m := by
    intro h
    linarith
  have hspan : ((a : ℝ) + 2 * m - a) / 2 = m := by ring
  have hcont : Filter.Tendsto (fun s : ℝ => |s - (a : ℝ) / 2| / m) (𝓝 x) (𝓝 (|x - (a : ℝ) / 2| / m)) :=
    (Continuous.div_const (continuous_abs.comp (continuous_id.sub continuous_const)) _).tendsto x
  have hfl := hcont.eventually (floor_near hx)
  set f := ⌊|x - (a : ℝ) / 2| / m⌋ with hf
  have hxa : x ≠ (a : ℝ) / 2 := by
    intro h
    apply hx 0
    simp [h]
  rcases lt_or_gt_of_ne hxa with h | h
  · have hsgn := Iio_mem_nhds h
    by_cases he : f % 2 = 0
    · refine ⟨-1, a - m * f, Or.inr rfl, ?_, ?_⟩
      · simp only [reflectMult, if_neg hne, hspan, ← hf, if_pos he, if_pos (sub_neg.2 h)]
        norm_num
      · filter_upwards [hfl, hsgn] with s hs1 hs2
        simp only [reflect, if_neg hne, hspan, hs1, if_pos he]
        rw [abs_of_neg (sub_neg.2 (Set.mem_Iio.1 hs2))]
        push_cast
        ring
    · refine ⟨1, m * (1 + f), Or.inl rfl, ?_, ?_⟩
      · simp only [reflectMult, if_neg hne, hspan, ← hf, if_neg he, if_pos (sub_neg.2 h)]
        norm_num
      · filter_upwards [hfl, hsgn] with s hs1 hs2
        simp only [reflect, if_neg hne, hspan, hs1, if_neg he]
        rw [abs_of_neg (sub_neg.2 (Set.mem_Iio.1 hs2))]
        push_cast
        ring
  · have hsgn := Ioi_mem_nhds h
    by_cases he : f % 2 = 0
    · refine ⟨1, -(m * f), Or.inl rfl, ?_, ?_⟩
      · simp only [reflectMult, if_neg hne, hspan, ← hf, if_pos he, if_neg (not_lt.2 (sub_nonneg.2 h.le))]
        norm_num
      · filter_upwards [hfl, hsgn] with s hs1 hs2
        simp only [reflect, if_neg hne, hspan, hs1, if_pos he]
        rw [abs_of_pos (sub_pos.2 (Set.mem_Ioi.1 hs2))]
        push_cast
        ring
    · refine ⟨-1, a + m * (1 + f), Or.inr rfl, ?_, ?_⟩
      · simp only [reflectMult, if_neg hne, hspan, ← hf, if_neg he, if_neg (not_lt.2 (sub_nonneg.2 h.le))]
        norm_num
      · filter_upwards [hfl, hsgn] with s hs1 hs2
        simp only [reflect, if_neg hne, hspan, hs1, if_neg he]
        rw [abs_of_pos (sub_pos.2 (Set.mem_Ioi.1 hs2))]
        push_cast
        ring

/-- Near a turning point at the outer edge of the outer pixels, positions are beyond the middle of those pixels. -/
theorem reflect_turn {N : ℕ} (hN : N ≠ 0) {x : ℝ} {z : ℤ} (hx : |x - ((-1 : ℤ) : ℝ) / 2| / N = z) :
    (∀ᶠ s in 𝓝 x, reflect s ((-1 : ℤ) : ℝ) (((-1 : ℤ) : ℝ) + 2 * N) < 0) ∨
    (∀ᶠ s in 𝓝 x, (N : ℝ) - 1 < reflect s ((-1 : ℤ) : ℝ) (((-1 : ℤ) : ℝ) + 2 * N)) := by
  have hN' : (0 : ℝ) < N := by exact_mod_cast Nat.pos_of_ne_zero hN
  have hN1 : (1 : ℝ) ≤ N := by exact_mod_cast Nat.one_le_iff_ne_zero.2 hN
  have hne : ((-1 : ℤ) : ℝ) ≠ ((-1 : ℤ) : ℝ) + 2 * N := by
    intro h
    linarith
  have hspan : (((-1 : ℤ) : ℝ) + 2 * N - ((-1 : ℤ) : ℝ)) / 2 = N := by ring
  have hx' : |x - ((-1 : ℤ) : ℝ) / 2| = z * N := by
    rw [← hx]
    field_simp
  have hnear : ∀ᶠ s in 𝓝 x, |s - ((-1 : ℤ) : ℝ) / 2| - z * N < 1 / 2 ∧ -(1 / 2) < |s - ((-1 : ℤ) : ℝ) / 2| - z * N := by
    have hc : Continuous fun s : ℝ => |s - ((-1 : ℤ) : ℝ) / 2| - z * N :=
      (continuous_abs.comp (continuous_id.sub continuous_const)).sub continuous_const
    have h0 : |x - ((-1 : ℤ) : ℝ) / 2| - z * N = 0 := by rw [hx']; ring
    have := hc.tendsto x
    rw [h0] at this
    exact (this.eventually (Iio_mem_nhds (by norm_num : (0 : ℝ) < 1 / 2))).and
      (this.eventually (Ioi_mem_nhds (by norm_num : (-(1 / 2) : ℝ) < 0)))
  have hfloor : ∀ s : ℝ, |s - ((-1 : ℤ) : ℝ) / 2| - z * N < 1 / 2 → -(1 / 2) < |s - ((-1 : ℤ) : ℝ) / 2| - z * N →
      (0 ≤ |s - ((-1 : ℤ) : ℝ) / 2| - z * N → ⌊|s - ((-1 : ℤ) : ℝ) / 2| / N⌋ = z) ∧
      (|s - ((-1 : ℤ) : ℝ) / 2| - z * N < 0 → ⌊|s - ((-1 : ℤ) : ℝ) / 2| / N⌋ = z - 1) := by
    intro s h1 h2
    refine ⟨fun h => Int.floor_eq_iff.2 ⟨?_, ?_⟩, fun h => Int.floor_eq_iff.2 ⟨?_, ?_⟩⟩
    · rw [le_div_iff₀ hN']; linarith
    · rw [div_lt_iff₀ hN']; nlinarith
    · rw [le_div_iff₀ hN']; push_cast; nlinarith
    · rw [div_lt_iff₀ hN']; push_cast; nlinarith
  by_cases he : z % 2 = 0
  · left
    filter_upwards [hnear] with s hs
    obtain ⟨f1, f2⟩ := hfloor s hs.1 hs.2
    by_cases h : 0 ≤ |s - ((-1 : ℤ) : ℝ) / 2| - z * N
    · simp only [reflect, if_neg hne, hspan, f1 h, if_pos he]
      push_cast at hs ⊢
      nlinarith [hs.1]
    · simp only [reflect, if_neg hne, hspan, f2 (not_le.1 h), if_neg (show ¬ (z - 1) % 2 = 0 by omega)]
      push_cast at hs ⊢
      nlinarith [hs.2]
  · right
    filter_upwards [hnear] with s hs
    obtain ⟨f1, f2⟩ := hfloor s hs.1 hs.2
    by_cases h : 0 ≤ |s - ((-1 : ℤ) : ℝ) / 2| - z * N
    · simp only [reflect, if_neg hne, hspan, f1 h, if_neg he]
      push_cast at hs ⊢
      nlinarith [hs.1]
    · simp only [reflect, if_neg hne, hspan, f2 (not_le.1 h), if_pos (show (z - 1) % 2 = 0 by omega)]
      push_cast at hs ⊢
      nlinarith [hs.2]

/-- The ends of the reflection: the outer pixels' middles or edges. -/
theorem ends (ac : Bool) {N : ℕ} (hN : N ≠ 0) : ∃ (a : ℤ) (m : ℕ), (if ac then (0 : ℝ) else -1) = a ∧
    (if ac then 2 * ((N : ℝ) - 1) else 2 * (N : ℝ) - 1) = a + 2 * m ∧ (ac = true → a = 0 ∧ m + 1 = N) ∧
    (ac = false → a = -1 ∧ m = N) := by
  cases ac
  · exact ⟨-1, N, by norm_num, by norm_num; ring, by simp, by simp⟩
  · obtain ⟨k, rfl⟩ := Nat.exists_eq_succ_of_ne_zero hN
    exact ⟨0, k, by norm_num, by push_cast; simp, by simp, by simp⟩

theorem padCoord_reflection (ac : Bool) (x : ℝ) (N : ℕ) : padCoord .reflection ac x N =
    clip (reflect x (if ac then (0 : ℝ) else -1) (if ac then 2 * ((N : ℝ) - 1) else 2 * (N : ℝ) - 1)) N := by
  cases ac <;> rfl

theorem reflect_at {φ D : ℝ → ℝ} (hs : Smooth φ D) (ac : Bool) {N : ℕ} (hN : N ≠ 0) {x : ℝ} (hx : ∀ z : ℤ, x ≠ z) :
    HasDerivAt (fun s => φ (padCoord .reflection ac s N))
      (reflectMult x (if ac then (0 : ℝ) else -1) (if ac then 2 * ((N : ℝ) - 1) else 2 * (N : ℝ) - 1) *
        clipMult (reflect x (if ac then (0 : ℝ) else -1) (if ac then 2 * ((N : ℝ) - 1) else 2 * (N : ℝ) - 1)) N *
        D (padCoord .reflection ac x N)) x := by
  obtain ⟨a, m, h1, h2, h3, h4⟩ := ends ac hN
  simp only [padCoord_reflection]
  rw [h1, h2]
  by_cases hm : m = 0
  · subst hm
    have e : ∀ s : ℝ, reflect s (a : ℝ) (a + 2 * ((0 : ℕ) : ℝ)) = 0 := fun s => by simp [reflect]
    have e' : reflectMult x (a : ℝ) (a + 2 * ((0 : ℕ) : ℝ)) = 0 := by simp [reflectMult]
    simp only [e, e', zero_mul]
    exact hasDerivAt_const _ _
  by_cases hk : ∀ z : ℤ, |x - (a : ℝ) / 2| / m ≠ z
  · obtain ⟨σ, c, hσ, hmult, hev⟩ := reflect_off a hm hk
    have hne : ∀ z : ℤ, reflect x (a : ℝ) (a + 2 * m) ≠ z := by
      intro z hz
      rw [hev.self_of_nhds] at hz
      rcases hσ with rfl | rfl
      · refine hx (z - c) ?_
        push_cast at hz ⊢
        linarith
      · refine hx (c - z) ?_
        push_cast at hz ⊢
        linarith
    have hlin : HasDerivAt (fun s : ℝ => (σ : ℝ) * s + c) σ x := by
      simpa using ((hasDerivAt_id x).const_mul (σ : ℝ)).add_const (c : ℝ)
    have hr : HasDerivAt (fun s => reflect s (a : ℝ) (a + 2 * m)) σ x := hlin.congr_of_eventuallyEq hev
    have := HasDerivAt.comp (h₂ := fun s => φ (clip s N)) x (clip_at hs hN hne) hr
    have h' : HasDerivAt (fun s => φ (clip (reflect s (a : ℝ) (a + 2 * m)) N)) _ x := this
    refine h'.congr_deriv ?_
    rw [hmult]
    ring
  · push Not at hk
    obtain ⟨z, hz⟩ := hk
    cases ac
    · obtain ⟨rfl, rfl⟩ := h4 rfl
      rcases reflect_turn hm hz with h | h
      · have h0 := h.self_of_nhds
        rw [show clipMult (reflect x ((-1 : ℤ) : ℝ) (((-1 : ℤ) : ℝ) + 2 * m)) m = 0 from if_pos h0.le]
        rw [mul_zero, zero_mul]
        refine (hasDerivAt_const x (φ 0)).congr_of_eventuallyEq ?_
        filter_upwards [h] with s hs
        rw [clip_low hm hs.le]
      · have h0 := h.self_of_nhds
        have : clipMult (reflect x ((-1 : ℤ) : ℝ) (((-1 : ℤ) : ℝ) + 2 * m)) m = 0 := by
          unfold clipMult
          split_ifs with h1 h2
          · rfl
          · rfl
          · exact absurd h0.le h2
        rw [this, mul_zero, zero_mul]
        refine (hasDerivAt_const x (φ (m - 1))).congr_of_eventuallyEq ?_
        filter_upwards [h] with s hs
        rw [clip_high hm hs.le]
    · obtain ⟨rfl, -⟩ := h3 rfl
      exfalso
      have hm' : (0 : ℝ) < m := by exact_mod_cast Nat.pos_of_ne_zero hm
      have : |x| = z * m := by
        rw [← hz]
        field_simp
        simp
      rcases abs_choice x with h | h
      · refine hx (z * m) ?_
        push_cast
        linarith
      · refine hx (-(z * m)) ?_
        push_cast
        linarith

/-- At the middle of a pixel, reflection at the edges is one-sided too. -/
theorem reflect_sided {N : ℕ} (hN : N ≠ 0) (x : ℝ) : ∃ S : ℝ → Set ℝ, (S = Set.Ici ∨ S = Set.Iic) ∧ ∀ φ D : ℝ → ℝ, Smooth φ D →
    HasDerivWithinAt (fun s => φ (padCoord .reflection false s N))
      (reflectMult x (if false then (0 : ℝ) else -1) (if false then 2 * ((N : ℝ) - 1) else 2 * (N : ℝ) - 1) *
        clipMult (reflect x (if false then (0 : ℝ) else -1) (if false then 2 * ((N : ℝ) - 1) else 2 * (N : ℝ) - 1)) N *
        D (padCoord .reflection false x N)) (S x) x := by
  by_cases hx : ∀ z : ℤ, x ≠ z
  · exact ⟨Set.Ici, Or.inl rfl, fun φ D hs => (reflect_at hs false hN hx).hasDerivWithinAt⟩
  push Not at hx
  obtain ⟨z₀, hz₀⟩ := hx
  obtain ⟨a, m, h1, h2, -, h4⟩ := ends false hN
  obtain ⟨rfl, rfl⟩ := h4 rfl
  have hk : ∀ z : ℤ, |x - ((-1 : ℤ) : ℝ) / 2| / m ≠ z := by
    intro z hz
    have hm' : (0 : ℝ) < m := by exact_mod_cast Nat.pos_of_ne_zero hN
    have h : |x - ((-1 : ℤ) : ℝ) / 2| = z * m := by
      rw [← hz]
      field_simp
    rw [hz₀] at h
    rcases abs_choice ((z₀ : ℝ) - ((-1 : ℤ) : ℝ) / 2) with h' | h'
    · rw [h'] at h
      have : (2 * z₀ + 1 : ℤ) = 2 * (z * m) := by
        have : (2 * z₀ + 1 : ℝ) = 2 * (z * m) := by push_cast at h; linarith
        exact_mod_cast this
      omega
    · rw [h'] at h
      have : (2 * z₀ + 1 : ℤ) = -(2 * (z * m)) := by
        have : (2 * z₀ + 1 : ℝ) = -(2 * (z * m)) := by push_cast at h; linarith
        exact_mod_cast this
      omega
  obtain ⟨σ, c, hσ, hmult, hev⟩ := reflect_off (-1) hN hk
  obtain ⟨S, hS, hd⟩ := clip_sided hN (reflect x ((-1 : ℤ) : ℝ) (((-1 : ℤ) : ℝ) + 2 * m))
  have hlin : HasDerivAt (fun s : ℝ => (σ : ℝ) * s + c) σ x := by
    simpa using ((hasDerivAt_id x).const_mul (σ : ℝ)).add_const (c : ℝ)
  have hex := hev.self_of_nhds
  simp only [padCoord_reflection]
  rw [h1, h2]
  have main : ∀ T : Set ℝ, Set.MapsTo (fun s : ℝ => (σ : ℝ) * s + c) T (S ((σ : ℝ) * x + c)) → ∀ φ D : ℝ → ℝ, Smooth φ D →
      HasDerivWithinAt (fun s => φ (clip (reflect s ((-1 : ℤ) : ℝ) (((-1 : ℤ) : ℝ) + 2 * m)) m))
        (reflectMult x ((-1 : ℤ) : ℝ) (((-1 : ℤ) : ℝ) + 2 * m) *
          clipMult (reflect x ((-1 : ℤ) : ℝ) (((-1 : ℤ) : ℝ) + 2 * m)) m *
          D (clip (reflect x ((-1 : ℤ) : ℝ) (((-1 : ℤ) : ℝ) + 2 * m)) m)) T x := by
    intro T hT φ D hs
    have hd' := hd φ D hs
    rw [hex] at hd' ⊢
    have := HasDerivWithinAt.comp (h₂ := fun s => φ (clip s m)) x hd' (hlin.hasDerivWithinAt (s := T)) hT
    have h' : HasDerivWithinAt (fun s : ℝ => φ (clip ((σ : ℝ) * s + c) m)) _ T x := this
    refine (h'.congr_of_eventuallyEq ?_ (by rw [hex])).congr_deriv ?_
    · filter_upwards [nhdsWithin_le_nhds hev] with s hs
      rw [hs]
    · rw [hmult]
      ring
  rcases hσ with rfl | rfl
  · refine ⟨S, hS, main _ ?_⟩
    intro s hs
    rcases hS with rfl | rfl
    · simp only [Set.mem_Ici] at hs ⊢
      push_cast
      linarith
    · simp only [Set.mem_Iic] at hs ⊢
      push_cast
      linarith
  · rcases hS with rfl | rfl
    · refine ⟨Set.Iic, Or.inr rfl, main _ ?_⟩
      intro s hs
      simp only [Set.mem_Ici, Set.mem_Iic] at hs ⊢
      push_cast
      linarith
    · refine ⟨Set.Ici, Or.inl rfl, main _ ?_⟩
      intro s hs
      simp only [Set.mem_Ici, Set.mem_Iic] at hs ⊢
      push_cast
      linarith

theorem pad_at {φ D : ℝ → ℝ} (hs : Smooth φ D) (pm : Padding) (ac : Bool) {N : ℕ} (hN : N ≠ 0) {n j : ℕ} {v : ℝ}
    (hx : ∀ z : ℤ, looksAt ac n N j v ≠ z) :
    HasDerivAt (fun t => φ (padCoord pm ac (looksAt ac n N j t) N))
      (sourceMult pm ac (looksAt ac n N j v) N * D (padCoord pm ac (looksAt ac n N j v) N)) v := by
  cases pm
  · have := (hs.off _ hx).comp v (looksAt_deriv ac n N j v)
    refine this.congr_deriv ?_
    simp only [sourceMult, padCoord]
    ring
  · have := (clip_at hs hN hx).comp v (looksAt_deriv ac n N j v)
    refine this.congr_deriv ?_
    simp only [sourceMult, padCoord]
    ring
  · have := (reflect_at hs ac hN hx).comp v (looksAt_deriv ac n N j v)
    refine this.congr_deriv ?_
    simp only [sourceMult]
    ring

theorem pad_sided {pm : Padding} (ac : Bool) (hpm : pm = .reflection → ac = false) {N : ℕ} (hN : N ≠ 0) (n j : ℕ) (v : ℝ) :
    ∃ S : ℝ → Set ℝ, (S = Set.Ici ∨ S = Set.Iic) ∧ ∀ φ D : ℝ → ℝ, Smooth φ D →
    HasDerivWithinAt (fun t => φ (padCoord pm ac (looksAt ac n N j t) N))
      (sourceMult pm ac (looksAt ac n N j v) N * D (padCoord pm ac (looksAt ac n N j v) N)) (S v) v := by
  have maps : ∀ S : ℝ → Set ℝ, (S = Set.Ici ∨ S = Set.Iic) → Set.MapsTo (looksAt ac n N j) (S v) (S (looksAt ac n N j v)) := by
    rintro S (rfl | rfl)
    · exact fun s hs => looksAt_mono ac n hN j hs
    · exact fun s hs => looksAt_mono ac n hN j hs
  cases pm
  · refine ⟨Set.Ici, Or.inl rfl, fun φ D hs => ?_⟩
    have := (hs.right _).comp v (looksAt_deriv ac n N j v).hasDerivWithinAt (s := Set.Ici v) (maps _ (Or.inl rfl))
    refine this.congr_deriv ?_
    simp only [sourceMult, padCoord]
    ring
  · obtain ⟨S, hS, h⟩ := clip_sided hN (looksAt ac n N j v)
    refine ⟨S, hS, fun φ D hs => ?_⟩
    have := (h φ D hs).comp v (looksAt_deriv ac n N j v).hasDerivWithinAt (s := S v) (maps S hS)
    refine this.congr_deriv ?_
    simp only [sourceMult, padCoord]
    ring
  · obtain rfl := hpm rfl
    obtain ⟨S, hS, h⟩ := reflect_sided hN (looksAt false n N j v)
    refine ⟨S, hS, fun φ D hs => ?_⟩
    have := (h φ D hs).comp v (looksAt_deriv false n N j v).hasDerivWithinAt (s := S v) (maps S hS)
    refine this.congr_deriv ?_
    simp only [sourceMult]
    ring

/-! ### Whole images -/

/-- A call that returns. -/
structure Callable (image : Images ℝ) (flow : Flow ℝ) : Prop where
  comps : flow.comps = 2
  batch : image.batch = flow.batch
  height : image.height ≠ 0
  width : image.width ≠ 0

/-- The warped image. -/
noncomputable def warped (pm : Padding) (ac : Bool) (image : Images ℝ) (flow : Flow ℝ) : Images ℝ where
  batch := image.batch
  channels := image.channels
  height := flow.height
  width := flow.width
  pix b c i j := bilinear image.height image.width (image.pix b c)
    (padCoord pm ac (looksAt ac flow.height image.height i (flow.val b i j 1)) image.height)
    (padCoord pm ac (looksAt ac flow.width image.width j (flow.val b i j 0)) image.width)

theorem warp_eq (pm : Padding) (ac : Bool) {image : Images ℝ} {flow : Flow ℝ} (h : Callable image flow) :
    denseImageWarp image flow .bilinear pm ac = .ok (warped pm ac image flow) := by
  unfold denseImageWarp
  rw [if_neg (by simp), if_neg (by simp [h.comps]), if_neg (by simp [h.batch, h.height, h.width])]
  simp only [gridSample, unnormalize_looks]
  rfl

theorem sum_one {ι : Type*} [DecidableEq ι] {s : Finset ι} {f : ι → ℝ} {a : ι} (ha : a ∈ s) (h : ∀ b ∈ s, b ≠ a → f b = 0) :
    ∑ b ∈ s, f b = f a := sum_eq_single a h (fun h' => absurd ha h')

/-- Only one entry of the sum depends on the flow at a place. -/
theorem total_deriv {pm : Padding} {ac : Bool} {image : Images ℝ} {flow : Flow ℝ} {g : ℕ → ℕ → ℕ → ℕ → ℝ} {b i j k : ℕ}
    (hb : b < image.batch) (hi : i < flow.height) (hj : j < flow.width) {d : ℕ → ℝ} {S : Set ℝ} {v : ℝ}
    (h : ∀ c, HasDerivWithinAt (fun t => (warped pm ac image (withFlow flow b i j k t)).pix b c i j) (d c) S v) :
    HasDerivWithinAt (fun t => total g (warped pm ac image (withFlow flow b i j k t)))
      (∑ c ∈ range image.channels, g b c i j * d c) S v := by
  have hterm : ∀ b' c' i' j', HasDerivWithinAt (fun t => g b' c' i' j' * (warped pm ac image (withFlow flow b i j k t)).pix b' c' i' j')
      (if b' = b ∧ i' = i ∧ j' = j then g b c' i j * d c' else 0) S v := fun b' c' i' j' => by
    by_cases e : b' = b ∧ i' = i ∧ j' = j
    · obtain ⟨rfl, rfl, rfl⟩ := e
      rw [if_pos ⟨rfl, rfl, rfl⟩]
      exact (h c').const_mul _
    · rw [if_neg e]
      have : ∀ t, (warped pm ac image (withFlow flow b i j k t)).pix b' c' i' j' =
          (warped pm ac image flow).pix b' c' i' j' := fun t => by
        simp only [warped, withFlow, Prod.mk.injEq]
        rw [if_neg (by tauto), if_neg (by tauto)]
      simp only [this]
      exact hasDerivWithinAt_const _ _ _
  have := HasDerivWithinAt.fun_sum (u := range image.batch) fun b' _ => HasDerivWithinAt.fun_sum (u := range image.channels) fun c' _ =>
    HasDerivWithinAt.fun_sum (u := range flow.height) fun i' _ => HasDerivWithinAt.fun_sum (u := range flow.width) fun j' _ =>
      hterm b' c' i' j'
  refine this.congr_deriv ?_
  rw [sum_one (mem_range.2 hb)]
  · refine sum_congr rfl fun c _ => ?_
    rw [sum_one (mem_range.2 hi)]
    · rw [sum_one (mem_range.2 hj)]
      · rw [if_pos ⟨rfl, rfl, rfl⟩]
      · intro j' _ hne; rw [if_neg (by tauto)]
    · intro i' _ hne; exact sum_eq_zero fun j' _ => if_neg (by tauto)
  · intro b' _ hne
    exact sum_eq_zero fun c' _ => sum_eq_zero fun i' _ => sum_eq_zero fun j' _ => if_neg (by tauto)

theorem pix_x (pm : Padding) (ac : Bool) (image : Images ℝ) (flow : Flow ℝ) (b c i j : ℕ) (t : ℝ) :
    (warped pm ac image (withFlow flow b i j 0 t)).pix b c i j =
      bilinear image.height image.width (image.pix b c)
        (padCoord pm ac (looksAt ac flow.height image.height i (flow.val b i j 1)) image.height)
        (padCoord pm ac (looksAt ac flow.width image.width j t) image.width) := by
  simp [warped, withFlow]

theorem pix_y (pm : Padding) (ac : Bool) (image : Images ℝ) (flow : Flow ℝ) (b c i j : ℕ) (t : ℝ) :
    (warped pm ac image (withFlow flow b i j 1 t)).pix b c i j =
      bilinear image.width image.height (fun p q => image.pix b c q p)
        (padCoord pm ac (looksAt ac flow.width image.width j (flow.val b i j 0)) image.width)
        (padCoord pm ac (looksAt ac flow.height image.height i t) image.height) := by
  rw [← bilinear_swap]
  simp [warped, withFlow]

theorem backward_x (pm : Padding) (ac : Bool) (image : Images ℝ) (flow : Flow ℝ) (g : ℕ → ℕ → ℕ → ℕ → ℝ) (b i j : ℕ) :
    backwardFlow pm ac image flow g b i j 0 = ∑ c ∈ range image.channels, g b c i j *
      (sourceMult pm ac (looksAt ac flow.width image.width j (flow.val b i j 0)) image.width *
        gradX image.height image.width (image.pix b c)
          (padCoord pm ac (looksAt ac flow.height image.height i (flow.val b i j 1)) image.height)
          (padCoord pm ac (looksAt ac flow.width image.width j (flow.val b i j 0)) image.width)) := by
  simp only [backwardFlow, posX, posY, unnormalize_looks, if_true, mul_sum]
  exact sum_congr rfl fun c _ => by ring

theorem backward_y (pm : Padding) (ac : Bool) (image : Images ℝ) (flow : Flow ℝ) (g : ℕ → ℕ → ℕ → ℕ → ℝ) (b i j : ℕ) :
    backwardFlow pm ac image flow g b i j 1 = ∑ c ∈ range image.channels, g b c i j *
      (sourceMult pm ac (looksAt ac flow.height image.height i (flow.val b i j 1)) image.height *
        gradX image.width image.height (fun p q => image.pix b c q p)
          (padCoord pm ac (looksAt ac flow.width image.width j (flow.val b i j 0)) image.width)
          (padCoord pm ac (looksAt ac flow.height image.height i (flow.val b i j 1)) image.height)) := by
  simp only [backwardFlow, posX, posY, unnormalize_looks, one_ne_zero, if_false, mul_sum, gradY_swap]
  exact sum_congr rfl fun c _ => by ring

theorem callable_withFlow {image : Images ℝ} {flow : Flow ℝ} (h : Callable image flow) (b i j k : ℕ) (t : ℝ) :
    Callable image (withFlow flow b i j k t) := ⟨h.comps, h.batch, h.height, h.width⟩

/-! ### Theorems -/

/-- **C147, gradient by the flow.** For all images and flows, all paddings, with and without `align_corners`: the gradient
by a component of the flow is the derivative of the result, if the place that it looks at is not exactly in the middle of a row or
column of pixels. -/
theorem C147_flow (pm : Padding) (ac : Bool) {image : Images ℝ} {flow : Flow ℝ} (h : Callable image flow) (g : ℕ → ℕ → ℕ → ℕ → ℝ)
    {b i j k : ℕ} (hb : b < image.batch) (hi : i < flow.height) (hj : j < flow.width) (hk : k < 2)
    (hz : ∀ z : ℤ, looks ac image flow b i j k ≠ z) :
    ∃ out : ℝ → Images ℝ,
      (∀ t, denseImageWarp image (withFlow flow b i j k t) .bilinear pm ac = .ok (out t)) ∧
      HasDerivAt (fun t => total g (out t)) (backwardFlow pm ac image flow g b i j k) (flow.val b i j k) := by
  refine ⟨fun t => warped pm ac image (withFlow flow b i j k t), fun t => warp_eq pm ac (callable_withFlow h b i j k t), ?_⟩
  rw [← hasDerivWithinAt_univ]
  have : k = 0 ∨ k = 1 := by omega
  rcases this with rfl | rfl
  · rw [backward_x]
    refine total_deriv hb hi hj fun c => ?_
    simp only [pix_x]
    exact (pad_at (bilinear_smooth _ _ _ _) pm ac h.width (by simpa [looks] using hz)).hasDerivWithinAt
  · rw [backward_y]
    refine total_deriv hb hi hj fun c => ?_
    simp only [pix_y]
    exact (pad_at (bilinear_smooth _ _ _ _) pm ac h.height (by simpa [looks] using hz)).hasDerivWithinAt

/-- **C147, everywhere.** Wherever it looks, the gradient is the derivative of the result from one side, but for reflection with
`align_corners`, which turns around exactly in the middle of the outer pixels. -/
theorem C147_sided {pm : Padding} (ac : Bool) (hpm : pm = .reflection → ac = false) {image : Images ℝ} {flow : Flow ℝ}
    (h : Callable image flow) (g : ℕ → ℕ → ℕ → ℕ → ℝ)
    {b i j k : ℕ} (hb : b < image.batch) (hi : i < flow.height) (hj : j < flow.width) (hk : k < 2) :
    ∃ out : ℝ → Images ℝ,
      (∀ t, denseImageWarp image (withFlow flow b i j k t) .bilinear pm ac = .ok (out t)) ∧
      (HasDerivWithinAt (fun t => total g (out t)) (backwardFlow pm ac image flow g b i j k) (Set.Ici (flow.val b i j k))
        (flow.val b i j k) ∨
      HasDerivWithinAt (fun t => total g (out t)) (backwardFlow pm ac image flow g b i j k) (Set.Iic (flow.val b i j k))
        (flow.val b i j k)) := by
  refine ⟨fun t => warped pm ac image (withFlow flow b i j k t), fun t => warp_eq pm ac (callable_withFlow h b i j k t), ?_⟩
  have : k = 0 ∨ k = 1 := by omega
  rcases this with rfl | rfl
  · rw [backward_x]
    obtain ⟨S, hS, hd⟩ := pad_sided ac hpm h.width flow.width j (flow.val b i j 0)
    have := total_deriv (g := g) (pm := pm) (ac := ac) (k := 0) hb hi hj (S := S (flow.val b i j 0)) fun c => by
      simp only [pix_x]
      exact hd _ _ (bilinear_smooth image.height image.width (image.pix b c)
        (padCoord pm ac (looksAt ac flow.height image.height i (flow.val b i j 1)) image.height))
    rcases hS with rfl | rfl
    · exact Or.inl this
    · exact Or.inr this
  · rw [backward_y]
    obtain ⟨S, hS, hd⟩ := pad_sided ac hpm h.height flow.height i (flow.val b i j 1)
    have := total_deriv (g := g) (pm := pm) (ac := ac) (k := 1) hb hi hj (S := S (flow.val b i j 1)) fun c => by
      simp only [pix_y]
      exact hd _ _ (bilinear_smooth image.width image.height (fun p q => image.pix b c q p)
        (padCoord pm ac (looksAt ac flow.width image.width j (flow.val b i j 0)) image.width))
    rcases hS with rfl | rfl
    · exact Or.inl this
    · exact Or.inr this

/-- **C147, outside.** With border padding (the default) a component of the flow gets no gradient if it looks at or beyond the middle
of the outer pixels, whatever the images and the loss. -/
theorem C147_outside (ac : Bool) (image : Images ℝ) (flow : Flow ℝ) (g : ℕ → ℕ → ℕ → ℕ → ℝ) (b i j : ℕ) :
    ((looks ac image flow b i j 0 ≤ 0 ∨ (image.width : ℝ) - 1 ≤ looks ac image flow b i j 0) →
      backwardFlow .border ac image flow g b i j 0 = 0) ∧
    ((looks ac image flow b i j 1 ≤ 0 ∨ (image.height : ℝ) - 1 ≤ looks ac image flow b i j 1) →
      backwardFlow .border ac image flow g b i j 1 = 0) := by
  have hm : ∀ (x : ℝ) (N : ℕ), x ≤ 0 ∨ (N : ℝ) - 1 ≤ x → sourceMult .border ac x N = 0 := fun x N h => by
    unfold sourceMult clipMult
    rcases h with h | h
    · simp [h]
    · by_cases h' : x ≤ 0 <;> simp [h, h']
  constructor
  · intro hl
    rw [backward_x]
    refine sum_eq_zero fun c _ => ?_
    rw [hm _ _ (by simpa [looks] using hl), zero_mul, mul_zero]
  · intro hl
    rw [backward_y]
    refine sum_eq_zero fun c _ => ?_
    rw [hm _ _ (by simpa [looks] using hl), zero_mul, mul_zero]

/-- **C147 is violated at the border with reflection too.** At zero flow, with and without `align_corners`: reflection turns around
where the outer pixels look, so that they get no gradient, whatever the images and the loss. -/
theorem C147_violated_reflection (ac : Bool) (image : Images ℝ) (flow : Flow ℝ) (g : ℕ → ℕ → ℕ → ℕ → ℝ) (b i j : ℕ)
    (hw : flow.width = image.width) (hh : flow.height = image.height) (h0 : ∀ k, flow.val b i j k = 0)
    (h2 : 2 ≤ image.width) (h2' : 2 ≤ image.height) :
    (j = 0 ∨ j + 1 = image.width → backwardFlow .reflection ac image flow g b i j 0 = 0) ∧
    (i = 0 ∨ i + 1 = image.height → backwardFlow .reflection ac image flow g b i j 1 = 0) := by
  have key : ∀ (N j : ℕ), 2 ≤ N → j = 0 ∨ j + 1 = N → sourceMult .reflection ac (looksAt ac N N j 0) N = 0 := by
    intro N j hN h
    have h1 : N ≠ 1 := by omega
    have hN2 : (2 : ℝ) ≤ N := by exact_mod_cast hN
    have hN1 : (N : ℝ) - 1 ≠ 0 := by linarith
    have hN0 : (N : ℝ) ≠ 0 := by linarith
    have hz : ∀ y : ℝ, y ≤ 0 ∨ (N : ℝ) - 1 ≤ y → clipMult y N = 0 := fun y h => by
      unfold clipMult
      rcases h with h | h
      · simp [h]
      · by_cases h' : y ≤ 0 <;> simp [h, h']
    simp only [sourceMult]
    rw [hz, mul_zero, mul_zero]
    cases ac
    · have hne : ¬ (-1 : ℝ) = 2 * N - 1 := by intro h; linarith
      have hsp : (2 * (N : ℝ) - 1 - -1) / 2 = N := by ring
      rcases h with rfl | h
      · left
        have hl : looksAt false N N 0 0 = -1 / 2 := by simp [looksAt, h1]; norm_num
        simp only [hl, reflect, Bool.false_eq_true, if_false, if_neg hne]
        norm_num
      · right
        have hj : (j : ℝ) = N - 1 := by rw [← h]; push_cast; ring
        have hl : looksAt false N N j 0 = N + -1 / 2 := by
          simp only [looksAt, h1, if_false, hj, Bool.false_eq_true, add_zero]
          rw [mul_div_assoc, div_self hN1]
          ring
        simp only [hl, reflect, Bool.false_eq_true, if_false, if_neg hne, hsp]
        rw [show (N : ℝ) + -1 / 2 - -1 / 2 = N by ring, abs_of_pos (by linarith : (0 : ℝ) < N), div_self hN0]
        norm_num
        linarith
    · have hne : ¬ (0 : ℝ) = 2 * ((N : ℝ) - 1) := by intro h; linarith
      have hsp : (2 * ((N : ℝ) - 1) - 0) / 2 = (N : ℝ) - 1 := by ring
      rcases h with rfl | h
      · left
        have hl : looksAt true N N 0 0 = 0 := by simp [looksAt, h1]
        simp only [hl, reflect, if_true, if_neg hne]
        norm_num
      · right
        have hj : (j : ℝ) = N - 1 := by rw [← h]; push_cast; ring
        have hl : looksAt true N N j 0 = N - 1 := by
          simp only [looksAt, h1, if_false, hj, if_true, add_zero]
          rw [mul_div_assoc, div_self hN1]
          ring
        simp only [hl, reflect, if_true, if_neg hne, hsp]
        rw [show (N : ℝ) - 1 - 0 / 2 = N - 1 by ring, abs_of_pos (by linarith : (0 : ℝ) < N - 1), div_self hN1]
        norm_num
  constructor
  · intro h
    rw [backward_x]
    refine sum_eq_zero fun c _ => ?_
    rw [hw, h0, key _ _ h2 h, zero_mul, mul_zero]
  · intro h
    rw [backward_y]
    refine sum_eq_zero fun c _ => ?_
    rw [hh, h0, key _ _ h2' h, zero_mul, mul_zero]

/-- **C147 is violated at the border.** With the default arguments and zero flow, as at the start of the flow estimation, the
horizontal flow of the first and last column, and the vertical flow of the first and last row, get no gradient, whatever the images
and the loss: the outer pixels look half a pixel beyond the middle of the image's outer pixels. -/
theorem C147_violated_border (image : Images ℝ) (flow : Flow ℝ) (g : ℕ → ℕ → ℕ → ℕ → ℝ) (b i j : ℕ)
    (hw : flow.width = image.width) (hh : flow.height = image.height) (h0 : ∀ k, flow.val b i j k = 0)
    (h2 : 2 ≤ image.width) (h2' : 2 ≤ image.height) :
    (j = 0 ∨ j + 1 = image.width → backwardFlow .border false image flow g b i j 0 = 0) ∧
    (i = 0 ∨ i + 1 = image.height → backwardFlow .border false image flow g b i j 1 = 0) := by
  have key : ∀ (N j : ℕ), 2 ≤ N → j = 0 ∨ j + 1 = N → looksAt false N N j 0 ≤ 0 ∨ (N : ℝ) - 1 ≤ looksAt false N N j 0 := by
    intro N j hN h
    have h1 : N ≠ 1 := by omega
    rcases h with rfl | h
    · left; simp [looksAt, h1]
    · right
      have hj : (j : ℝ) = N - 1 := by rw [← h]; push_cast; ring
      have : (N : ℝ) - 1 ≠ 0 := by
        have : (2 : ℝ) ≤ N := by exact_mod_cast hN
        linarith
      simp only [looksAt, h1, if_false, hj, Bool.false_eq_true, add_zero]
      rw [mul_div_assoc, div_self this]
      ring_nf
      linarith
  constructor
  · intro h
    refine (C147_outside false image flow g b i j).1 ?_
    simp only [looks, if_true, hw, h0]
    exact key _ _ h2 h
  · intro h
    refine (C147_outside false image flow g b i j).2 ?_
    simp only [looks, one_ne_zero, if_false, hh, h0]
    exact key _ _ h2' h

/-- Between two columns of pixels the derivative along the rows is a mean of differences of neighbours. -/
theorem gradX_mean {h w : ℕ} (pix : ℕ → ℕ → ℝ) {y x : ℝ} (hy0 : 0 ≤ y) (hy : y ≤ (h : ℝ) - 1) (hx0 : 0 ≤ x)
    (hx : x < (w : ℝ) - 1) {lo hi : ℝ}
    (hd : ∀ p < h, lo ≤ pix p (⌊x⌋.toNat + 1) - pix p ⌊x⌋.toNat ∧ pix p (⌊x⌋.toNat + 1) - pix p ⌊x⌋.toNat ≤ hi) :
    lo ≤ gradX h w pix y x ∧ gradX h w pix y x ≤ hi := by
  have j0 : 0 ≤ ⌊x⌋ := Int.floor_nonneg.2 hx0
  have j1 : ⌊x⌋ + 1 < (w : ℤ) := by
    have : ((⌊x⌋ + 1 : ℤ) : ℝ) < (w : ℤ) := by push_cast; linarith [Int.floor_le x]
    exact_mod_cast this
  have i0 : 0 ≤ ⌊y⌋ := Int.floor_nonneg.2 hy0
  have i1 : ⌊y⌋ < (h : ℤ) := by
    have : (⌊y⌋ : ℝ) < (h : ℤ) := by push_cast; linarith [Int.floor_le y]
    exact_mod_cast this
  have ej : (⌊x⌋ + 1).toNat = ⌊x⌋.toNat + 1 := by omega
  have row : ∀ i : ℤ, 0 ≤ i → i < h → pixelAt h w pix i (⌊x⌋ + 1) - pixelAt h w pix i ⌊x⌋ =
      pix i.toNat (⌊x⌋.toNat + 1) - pix i.toNat ⌊x⌋.toNat := by
    intro i hi0 hi1
    unfold pixelAt
    rw [if_pos (by omega), if_pos (by omega), ej]
  have e : gradX h w pix y x = (1 - (y - ⌊y⌋)) * (pixelAt h w pix ⌊y⌋ (⌊x⌋ + 1) - pixelAt h w pix ⌊y⌋ ⌊x⌋) +
      (y - ⌊y⌋) * (pixelAt h w pix (⌊y⌋ + 1) (⌊x⌋ + 1) - pixelAt h w pix (⌊y⌋ + 1) ⌊x⌋) := by
    simp only [gradX]
    push_cast
    ring
  have t0 : 0 ≤ y - ⌊y⌋ := by linarith [Int.floor_le y]
  have t1 : y - ⌊y⌋ < 1 := by linarith [Int.lt_floor_add_one y]
  rw [e, row _ i0 i1]
  obtain ⟨a1, a2⟩ := hd ⌊y⌋.toNat (by omega)
  by_cases hl : ⌊y⌋ + 1 < (h : ℤ)
  · rw [row _ (by omega) hl]
    obtain ⟨b1, b2⟩ := hd (⌊y⌋ + 1).toNat (by omega)
    constructor <;> nlinarith
  · have : y - ⌊y⌋ = 0 := by
      have : (⌊y⌋ : ℝ) + 1 = h := by
        have : ⌊y⌋ + 1 = (h : ℤ) := by omega
        exact_mod_cast this
      linarith
    rw [this]
    constructor <;> linarith

theorem clip_mem_range {N : ℕ} (hN : N ≠ 0) (x : ℝ) : 0 ≤ clip x N ∧ clip x N ≤ (N : ℝ) - 1 := by
  have : (1 : ℝ) ≤ N := by exact_mod_cast Nat.one_le_iff_ne_zero.2 hN
  exact ⟨le_min (by linarith) (le_max_right _ _), min_le_left _ _⟩

theorem mult_inside (ac : Bool) {N : ℕ} {x : ℝ} (h0 : 0 < x) (h1 : x < (N : ℝ) - 1) :
    sourceMult .border ac x N = (if ac then (N : ℝ) - 1 else N) / 2 ∧ padCoord .border ac x N = x := by
  refine ⟨?_, ?_⟩
  · rw [sourceMult, clipMult, if_neg (not_le.2 h0), if_neg (not_le.2 h1), unnormalizeMult]
    cases ac <;> simp
  · simp only [padCoord]
    exact clip_mid h0.le h1.le

/-- **C147, slope.** With border padding (the default), where the horizontal flow looks between the outer columns, wherever it looks
vertically: its gradient lies between the smallest and the largest product of a gradient by the result and the difference of the two
columns that it looks between, times the number of channels and the size of a normalised unit in pixels. So it has their sign if they
agree, as for every image with a slope. The same for the vertical flow. -/
theorem C147_slope (ac : Bool) {image : Images ℝ} (flow : Flow ℝ) (hh : image.height ≠ 0) (hw : image.width ≠ 0)
    (g : ℕ → ℕ → ℕ → ℕ → ℝ) (b i j : ℕ) (lo hi : ℝ) :
    (0 < looks ac image flow b i j 0 → looks ac image flow b i j 0 < (image.width : ℝ) - 1 → ∀ q : ℕ,
      (q : ℝ) ≤ looks ac image flow b i j 0 → looks ac image flow b i j 0 < q + 1 →
      (∀ c < image.channels, ∀ p < image.height, lo ≤ g b c i j * (image.pix b c p (q + 1) - image.pix b c p q) ∧
        g b c i j * (image.pix b c p (q + 1) - image.pix b c p q) ≤ hi) →
      (if ac then (image.width : ℝ) - 1 else image.width) / 2 * (image.channels * lo) ≤ backwardFlow .border ac image flow g b i j 0 ∧
      backwardFlow .border ac image flow g b i j 0 ≤ (if ac then (image.width : ℝ) - 1 else image.width) / 2 * (image.channels * hi)) ∧
    (0 < looks ac image flow b i j 1 → looks ac image flow b i j 1 < (image.height : ℝ) - 1 → ∀ p : ℕ,
      (p : ℝ) ≤ looks ac image flow b i j 1 → looks ac image flow b i j 1 < p + 1 →
      (∀ c < image.channels, ∀ q < image.width, lo ≤ g b c i j * (image.pix b c (p + 1) q - image.pix b c p q) ∧
        g b c i j * (image.pix b c (p + 1) q - image.pix b c p q) ≤ hi) →
      (if ac then (image.height : ℝ) - 1 else image.height) / 2 * (image.channels * lo) ≤
        backwardFlow .border ac image flow g b i j 1 ∧
      backwardFlow .border ac image flow g b i j 1 ≤
        (if ac then (image.height : ℝ) - 1 else image.height) / 2 * (image.channels * hi)) := by
  have key : ∀ (N M : ℕ) (x y : ℝ) (pix : ℕ → ℕ → ℕ → ℝ) (w : ℕ → ℝ), M ≠ 0 → 0 < x → x < (N : ℝ) - 1 → ∀ q : ℕ,
      (q : ℝ) ≤ x → x < q + 1 → (∀ c < image.channels, ∀ p < M, lo ≤ w c * (pix c p (q + 1) - pix c p q) ∧
        w c * (pix c p (q + 1) - pix c p q) ≤ hi) →
      (if ac then (N : ℝ) - 1 else N) / 2 * (image.channels * lo) ≤ ∑ c ∈ range image.channels, w c *
        (sourceMult .border ac x N * gradX M N (pix c) (padCoord .border ac y M) (padCoord .border ac x N)) ∧
      ∑ c ∈ range image.channels, w c *
        (sourceMult .border ac x N * gradX M N (pix c) (padCoord .border ac y M) (padCoord .border ac x N)) ≤
        (if ac then (N : ℝ) - 1 else N) / 2 * (image.channels * hi) := by
    intro N M x y pix w hM h0 h1 q hq hq' hd
    obtain ⟨m1, m2⟩ := mult_inside ac h0 h1
    have hf : ⌊x⌋.toNat = q := by
      have : ⌊x⌋ = (q : ℤ) := Int.floor_eq_iff.2 ⟨by exact_mod_cast hq, by exact_mod_cast hq'⟩
      omega
    have hy : padCoord .border ac y M = clip y M := by simp only [padCoord]
    rw [m1, m2, hy]
    obtain ⟨c0, c1⟩ := clip_mem_range hM y
    have hpos : 0 ≤ (if ac then (N : ℝ) - 1 else N) / 2 := by
      cases ac
      · simp only [Bool.false_eq_true, if_false]; positivity
      · simp only [if_true]; linarith
    have hg : ∀ c ∈ range image.channels, lo ≤ w c * gradX M N (pix c) (clip y M) x ∧ w c * gradX M N (pix c) (clip y M) x ≤ hi := by
      intro c hc
      have hs : w c * gradX M N (pix c) (clip y M) x = gradX M N (fun p q => w c * pix c p q) (clip y M) x := by
        have : ∀ i j, pixelAt M N (fun p q => w c * pix c p q) i j = w c * pixelAt M N (pix c) i j := by
          intro i j
          unfold pixelAt
          split <;> simp
        simp only [gradX, this]
        ring
      rw [hs]
      refine gradX_mean _ c0 c1 h0.le h1 fun p hp => ?_
      rw [hf]
      have := hd c (mem_range.1 hc) p hp
      rw [mul_sub] at this
      exact this
    have e : ∑ c ∈ range image.channels, w c * ((if ac then (N : ℝ) - 1 else N) / 2 * gradX M N (pix c) (clip y M) x) =
        (if ac then (N : ℝ) - 1 else N) / 2 * ∑ c ∈ range image.channels, w c * gradX M N (pix c) (clip y M) x := by
      rw [mul_sum]
      exact sum_congr rfl fun c _ => by ring
    rw [e]
    constructor
    · refine mul_le_mul_of_nonneg_left ?_ hpos
      have := card_nsmul_le_sum (range image.channels) _ lo fun c hc => (hg c hc).1
      simpa using this
    · refine mul_le_mul_of_nonneg_left ?_ hpos
      have := sum_le_card_nsmul (range image.channels) _ hi fun c hc => (hg c hc).2
      simpa using this
  constructor
  · intro h0 h1 q hq hq' hd
    rw [backward_x]
    simp only [looks, if_true] at h0 h1 hq hq'
    exact key image.width image.height _ _ (fun c => image.pix b c) (fun c => g b c i j) hh h0 h1 q hq hq' hd
  · intro h0 h1 q hq hq' hd
    rw [backward_y]
    simp only [looks, one_ne_zero, if_false] at h0 h1 hq hq'
    exact key image.height image.width _ _ (fun c p q => image.pix b c q p) (fun c => g b c i j) hw h0 h1 q hq hq' hd

/-- **C147, inside.** At zero flow with the default arguments all columns but the first and the last look between the outer columns, and
all rows but the first and the last between the outer rows, so that they get the gradients of `C147_slope`. -/
theorem C147_inside (image : Images ℝ) (flow : Flow ℝ) (b i j : ℕ) (hw : flow.width = image.width) (hh : flow.height = image.height)
    (h0 : ∀ k, flow.val b i j k = 0) :
    (0 < j → j + 1 < image.width → 0 < looks false image flow b i j 0 ∧ looks false image flow b i j 0 < (image.width : ℝ) - 1) ∧
    (0 < i → i + 1 < image.height →
      0 < looks false image flow b i j 1 ∧ looks false image flow b i j 1 < (image.height : ℝ) - 1) := by
  have key : ∀ (N j : ℕ), 0 < j → j + 1 < N → 0 < looksAt false N N j 0 ∧ looksAt false N N j 0 < (N : ℝ) - 1 := by
    intro N j hj hN
    have h1 : N ≠ 1 := by omega
    have a1 : (1 : ℝ) ≤ j := by exact_mod_cast hj
    have a2 : (j : ℝ) + 2 ≤ N := by exact_mod_cast hN
    have hp : 0 < (N : ℝ) - 1 := by linarith
    have e : looksAt false N N j 0 = (j * N) / (N - 1) - 1 / 2 := by
      simp only [looksAt, h1, if_false, Bool.false_eq_true]
      field_simp
      ring
    rw [e]
    constructor
    · have : 1 ≤ (j * N : ℝ) / (N - 1) := by rw [le_div_iff₀ hp]; nlinarith
      linarith
    · have : (j * N : ℝ) / (N - 1) < N - 1 + 1 / 2 := by rw [div_lt_iff₀ hp]; nlinarith
      linarith
  constructor
  · intro h1 h2
    simp only [looks, if_true, hw, h0]
    exact key _ _ h1 h2
  · intro h1 h2
    simp only [looks, one_ne_zero, if_false, hh, h0]
    exact key _ _ h1 h2

theorem pixelAt_deriv (image : Images ℝ) (b c p q b' c' : ℕ) (i j : ℤ) (v : ℝ) :
    HasDerivAt (fun t => pixelAt image.height image.width ((withPixel image b c p q t).pix b' c') i j)
      (if b' = b ∧ c' = c then corner image.height image.width i j p q else 0) v := by
  unfold pixelAt corner withPixel
  simp only [Prod.mk.injEq]
  by_cases h : 0 ≤ i ∧ i < image.height ∧ 0 ≤ j ∧ j < image.width
  · simp only [if_pos h]
    by_cases e : b' = b ∧ c' = c ∧ i.toNat = p ∧ j.toNat = q
    · simp only [if_pos e]
      rw [if_pos ⟨e.1, e.2.1⟩, if_pos (by tauto)]
      exact hasDerivAt_id v
    · simp only [if_neg e]
      have : (if b' = b ∧ c' = c then (if 0 ≤ i ∧ i < image.height ∧ 0 ≤ j ∧ j < image.width ∧ i.toNat = p ∧ j.toNat = q then
          (1 : ℝ) else 0) else 0) = 0 := by
        split_ifs with h1 h2 <;> first | rfl | (exact absurd ⟨h1.1, h1.2, h2.2.2.2.2⟩ e)
      rw [this]
      exact hasDerivAt_const _ _
  · simp only [if_neg h]
    have : (if b' = b ∧ c' = c then (if 0 ≤ i ∧ i < image.height ∧ 0 ≤ j ∧ j < image.width ∧ i.toNat = p ∧ j.toNat = q then
        (1 : ℝ) else 0) else 0) = 0 := by
      split_ifs with h1 h2 <;> first | rfl | (exact absurd ⟨h2.1, h2.2.1, h2.2.2.1, h2.2.2.2.1⟩ h)
    rw [this]
    exact hasDerivAt_const _ _

/-- **C147, gradient by the image.** The gradient by a pixel is the derivative of the result, for all images and flows. -/
theorem C147_image (pm : Padding) (ac : Bool) {image : Images ℝ} {flow : Flow ℝ} (h : Callable image flow) (g : ℕ → ℕ → ℕ → ℕ → ℝ)
    {b c : ℕ} (p q : ℕ) (hb : b < image.batch) (hc : c < image.channels) :
    ∃ out : ℝ → Images ℝ,
      (∀ t, denseImageWarp (withPixel image b c p q t) flow .bilinear pm ac = .ok (out t)) ∧
      HasDerivAt (fun t => total g (out t)) (backwardImage pm ac image flow g b c p q) (image.pix b c p q) := by
  refine ⟨fun t => warped pm ac (withPixel image b c p q t) flow, fun t => warp_eq pm ac ⟨h.comps, h.batch, h.height, h.width⟩, ?_⟩
  have hterm : ∀ b' c' i j, HasDerivAt (fun t => g b' c' i j * (warped pm ac (withPixel image b c p q t) flow).pix b' c' i j)
      (if b' = b ∧ c' = c then gradPixel image.height image.width
        (padCoord pm ac (looksAt ac flow.height image.height i (flow.val b i j 1)) image.height)
        (padCoord pm ac (looksAt ac flow.width image.width j (flow.val b i j 0)) image.width) p q * g b c i j else 0)
      (image.pix b c p q) := fun b' c' i j => by
    have e : (fun t => (warped pm ac (withPixel image b c p q t) flow).pix b' c' i j) = fun t =>
        bilinear image.height image.width ((withPixel image b c p q t).pix b' c')
          (padCoord pm ac (looksAt ac flow.height image.height i (flow.val b' i j 1)) image.height)
          (padCoord pm ac (looksAt ac flow.width image.width j (flow.val b' i j 0)) image.width) := rfl
    set y := padCoord pm ac (looksAt ac flow.height image.height i (flow.val b' i j 1)) image.height with hy
    set x := padCoord pm ac (looksAt ac flow.width image.width j (flow.val b' i j 0)) image.width with hx
    have d := fun i j => pixelAt_deriv image b c p q b' c' i j (image.pix b c p q)
    have := (((d ⌊y⌋ ⌊x⌋).const_mul ((1 - (y - ⌊y⌋)) * (1 - (x - ⌊x⌋)))).add
      ((d ⌊y⌋ (⌊x⌋ + 1)).const_mul ((1 - (y - ⌊y⌋)) * (x - ⌊x⌋)))).add
      ((d (⌊y⌋ + 1) ⌊x⌋).const_mul ((y - ⌊y⌋) * (1 - (x - ⌊x⌋)))) |>.add
      ((d (⌊y⌋ + 1) (⌊x⌋ + 1)).const_mul ((y - ⌊y⌋) * (x - ⌊x⌋))) |>.const_mul (g b' c' i j)
    refine this.congr_deriv ?_
    by_cases e : b' = b ∧ c' = c
    · obtain ⟨rfl, rfl⟩ := e
      simp only [and_self, if_true, gradPixel, ← hy, ← hx]
      push_cast
      ring
    · simp only [if_neg e]
      ring
  have := HasDerivAt.fun_sum (u := range image.batch) fun b' _ => HasDerivAt.fun_sum (u := range image.channels) fun c' _ =>
    HasDerivAt.fun_sum (u := range flow.height) fun i' _ => HasDerivAt.fun_sum (u := range flow.width) fun j' _ =>
      hterm b' c' i' j'
  refine this.congr_deriv ?_
  rw [sum_one (mem_range.2 hb)]
  · rw [sum_one (mem_range.2 hc)]
    · simp only [and_self, if_true, backwardImage, posX, posY, unnormalize_looks]
    · intro c' _ hne
      exact sum_eq_zero fun i' _ => sum_eq_zero fun j' _ => if_neg (by tauto)
  · intro b' _ hne
    exact sum_eq_zero fun c' _ => sum_eq_zero fun i' _ => sum_eq_zero fun j' _ => if_neg (by tauto)

/-! ### The hypotheses can be met -/

/-- Four by four pixels and zero flow: the second column looks at a place between pixels, and its gradient is a real slope. -/
example : ∃ (image : Images ℝ) (flow : Flow ℝ), Callable image flow ∧ (∀ z : ℤ, looks false image flow 0 0 1 0 ≠ z) ∧
    backwardFlow .border false image flow (fun _ _ _ _ => 1) 0 0 1 0 = 2 := by
  refine ⟨⟨1, 1, 4, 4, fun _ _ _ q => q⟩, ⟨1, 4, 4, 2, fun _ _ _ _ => 0⟩, ⟨rfl, rfl, by simp, by simp⟩, ?_, ?_⟩
  · intro z hz
    simp only [looks, looksAt] at hz
    norm_num at hz
    have h1 : ((6 * z : ℤ) : ℝ) = (5 : ℤ) := by push_cast; linarith
    have h2 : 6 * z = 5 := by exact_mod_cast h1
    omega
  · have f1 : ⌊(5 / 6 : ℝ)⌋ = 0 := by rw [Int.floor_eq_iff]; norm_num
    norm_num [backwardFlow, posX, posY, unnormalize, linspace, padCoord, clip, sourceMult, unnormalizeMult, clipMult, gradX,
      pixelAt, f1]

/-- The same with reflection, for a first column that looks outside, into the mirror image: there the slope is the other way around. -/
example : ∃ (image : Images ℝ) (flow : Flow ℝ), Callable image flow ∧ (∀ z : ℤ, looks false image flow 0 0 0 0 ≠ z) ∧
    backwardFlow .reflection false image flow (fun _ _ _ _ => 1) 0 0 0 0 = -2 := by
  refine ⟨⟨1, 1, 4, 4, fun _ _ _ q => q⟩, ⟨1, 4, 4, 2, fun _ _ _ _ => -2 / 5⟩, ⟨rfl, rfl, by simp, by simp⟩, ?_, ?_⟩
  · intro z hz
    simp only [looks, looksAt] at hz
    norm_num at hz
    have h1 : ((10 * z : ℤ) : ℝ) = (-13 : ℤ) := by push_cast; linarith
    have h2 : 10 * z = -13 := by exact_mod_cast h1
    omega
  · have f1 : ⌊(1 / 5 : ℝ)⌋ = 0 := by rw [Int.floor_eq_iff]; norm_num
    have f2 : ⌊(3 / 10 : ℝ)⌋ = 0 := by rw [Int.floor_eq_iff]; norm_num
    norm_num [backwardFlow, posX, posY, unnormalize, linspace, padCoord, clip, reflect, sourceMult, unnormalizeMult, reflectMult, clipMult,
      gradX, pixelAt, f1, f2]

/-- The slope of a picture of four by four pixels at zero flow: the second column of every row gets the gradient 4 / 2 times 1. -/
example (i : ℕ) : backwardFlow (K := ℝ) .border false ⟨1, 1, 4, 4, fun _ _ _ q => q⟩ ⟨1, 4, 4, 2, fun _ _ _ _ => 0⟩ (fun _ _ _ _ => 1) 0 i 1 0
    = 2 := by
  have h := (C147_inside ⟨1, 1, 4, 4, fun _ _ _ q => q⟩ ⟨1, 4, 4, 2, fun _ _ _ _ => 0⟩ 0 i 1 rfl rfl fun _ => rfl).1
    (by norm_num) (by norm_num)
  have := (C147_slope false (image := ⟨1, 1, 4, 4, fun _ _ _ q => q⟩) ⟨1, 4, 4, 2, fun _ _ _ _ => 0⟩ (by norm_num) (by norm_num)
    (fun _ _ _ _ => 1) 0 i 1 1 1).1 h.1 h.2 0 (by simpa using h.1.le) (by norm_num [looks, looksAt]) (by intros; norm_num)
  norm_num at this
  exact le_antisymm this.2 this.1

end Verif.Functional.Warp
