import Verif.Functional.Color
import Mathlib.Tactic.IntervalCases

/-!
C42: colour conversion stays in gamut.
-/

namespace Verif.Functional

open Real

/-! ### Specification: the textbook conversion by sectors of 60 degrees -/

/-- The conversion from hue, saturation and value by sector: sector `i` of the colour wheel and the position
`f` in it, with `p = v (1 - s)`, `q = v (1 - s f)`, `t = v (1 - s (1 - f))`. -/
noncomputable def sectorRgb (i : ℕ) (f s v : ℝ) : Rgb :=
  let p := v * (1 - s)
  let q := v * (1 - s * f)
  let t := v * (1 - s * (1 - f))
  match i with
  | 0 => ⟨v, t, p⟩
  | 1 => ⟨q, v, p⟩
  | 2 => ⟨p, v, t⟩
  | 3 => ⟨p, q, v⟩
  | 4 => ⟨t, p, v⟩
  | _ => ⟨v, p, q⟩

/-- Every number of the pixel satisfies `P`. -/
def Rgb.All (c : Rgb) (P : ℝ → Prop) : Prop := P c.r ∧ P c.g ∧ P c.b

/-! ### Proofs -/

theorem fmod_lt {a : ℝ} (h0 : 0 ≤ a) (h : a < 6) : fmod a 6 = a := by
  unfold fmod
  rw [if_pos h0]
  have : ⌊a / 6⌋ = 0 := by rw [Int.floor_eq_iff]; constructor <;> norm_num <;> linarith
  rw [this]; simp

theorem fmod_ge {a : ℝ} (h0 : 6 ≤ a) (h : a < 12) : fmod a 6 = a - 6 := by
  unfold fmod
  rw [if_pos (by linarith)]
  have : ⌊a / 6⌋ = 1 := by rw [Int.floor_eq_iff]; constructor <;> norm_num <;> linarith
  rw [this]; simp

theorem tri (k : ℝ) : max 0 (min (min k (4 - k)) 1) =
    if k ≤ 0 then 0 else if k ≤ 1 then k else if k ≤ 3 then 1 else if k ≤ 4 then 4 - k else 0 := by
  split_ifs with a b c d
  · rw [max_eq_left]; exact (min_le_left _ _).trans ((min_le_left _ _).trans a)
  · rw [min_eq_left (by linarith : k ≤ 4 - k), min_eq_left b, max_eq_right (by linarith)]
  · rw [min_eq_right (le_min (by linarith) (by linarith)), max_eq_right (by norm_num)]
  · rw [min_eq_right (by linarith : 4 - k ≤ k), min_eq_left (by linarith), max_eq_right (by linarith)]
  · rw [max_eq_left]; exact (min_le_left _ _).trans ((min_le_right _ _).trans (by linarith))

/-- The weight of one channel as a function of its position `x` on the (unrolled) wheel. -/
noncomputable def weight (x : ℝ) : ℝ := max 0 (min (min (fmod x 6) (4 - fmod x 6)) 1)

theorem convertFn_weight (p : Hsv) (n : ℝ) : convertFn p n = p.v - p.v * p.s * weight (n + p.h / 60) := rfl

theorem weight_zero {x : ℝ} (h : 4 ≤ x) (h' : x ≤ 6) : weight x = 0 := by
  unfold weight
  rw [tri]
  rcases lt_or_eq_of_le h' with h6 | h6
  · rw [fmod_lt (by linarith) h6, if_neg (by linarith), if_neg (by linarith), if_neg (by linarith)]
    split_ifs <;> linarith
  · rw [fmod_ge (by linarith) (by linarith), if_pos (by linarith)]

theorem weight_up {x : ℝ} (h : 0 ≤ x) (h' : x ≤ 1) : weight x = x := by
  unfold weight
  rw [tri, fmod_lt h (by linarith)]
  split_ifs <;> linarith

theorem weight_one {x : ℝ} (h : 1 ≤ x) (h' : x ≤ 3) : weight x = 1 := by
  unfold weight
  rw [tri, fmod_lt (by linarith) (by linarith)]
  split_ifs <;> linarith

theorem weight_down {x : ℝ} (h : 3 ≤ x) (h' : x ≤ 4) : weight x = 4 - x := by
  unfold weight
  rw [tri, fmod_lt (by linarith) (by linarith)]
  split_ifs <;> linarith

theorem weight_shift {x : ℝ} (h : 0 ≤ x) (h' : x < 6) : weight (x + 6) = weight x := by
  unfold weight
  rw [fmod_ge (by linarith) (by linarith), fmod_lt h h', add_sub_cancel_right]

theorem hsvPixel_sector {i : ℕ} (hi : i < 6) {f : ℝ} (h0 : 0 ≤ f) (h1 : f ≤ 1) (h s v : ℝ)
    (hh : h = 60 * (i + f)) : hsvPixel ⟨h, s, v⟩ = sectorRgb i f s v := by
  have e : h / 60 = i + f := by rw [hh]; ring
  unfold hsvPixel
  simp only [convertFn_weight, e]
  clear hh e
  interval_cases i <;> simp only [sectorRgb, Nat.cast_ofNat, Nat.cast_zero, Nat.cast_one, Rgb.mk.injEq]
  · rw [weight_zero (by linarith) (by linarith), weight_down (by linarith) (by linarith),
      weight_one (by linarith) (by linarith)]
    refine ⟨?_, ?_, ?_⟩ <;> ring
  · rw [show (5 : ℝ) + (1 + f) = f + 6 by ring, weight_shift (by linarith) (by linarith),
      weight_up (by linarith) (by linarith), weight_zero (by linarith) (by linarith),
      weight_one (by linarith) (by linarith)]
    refine ⟨?_, ?_, ?_⟩ <;> ring
  · rw [show (5 : ℝ) + (2 + f) = (1 + f) + 6 by ring, weight_shift (by linarith) (by linarith),
      weight_one (by linarith) (by linarith), weight_zero (by linarith) (by linarith),
      weight_down (by linarith) (by linarith)]
    refine ⟨?_, ?_, ?_⟩ <;> ring
  · rw [show (5 : ℝ) + (3 + f) = (2 + f) + 6 by ring, weight_shift (by linarith) (by linarith),
      weight_one (by linarith) (by linarith), show (3 : ℝ) + (3 + f) = f + 6 by ring,
      weight_shift (by linarith) (by linarith), weight_up (by linarith) (by linarith),
      weight_zero (by linarith) (by linarith)]
    refine ⟨?_, ?_, ?_⟩ <;> ring
  · rw [show (5 : ℝ) + (4 + f) = (3 + f) + 6 by ring, weight_shift (by linarith) (by linarith),
      weight_down (by linarith) (by linarith), show (3 : ℝ) + (4 + f) = (1 + f) + 6 by ring,
      weight_shift (by linarith) (by linarith), weight_one (by linarith) (by linarith),
      weight_zero (by linarith) (by linarith)]
    refine ⟨?_, ?_, ?_⟩ <;> ring
  · rw [show (5 : ℝ) + (5 + f) = (4 + f) + 6 by ring, weight_shift (by linarith) (by linarith),
      weight_zero (by linarith) (by linarith), show (3 : ℝ) + (5 + f) = (2 + f) + 6 by ring,
      weight_shift (by linarith) (by linarith), weight_one (by linarith) (by linarith),
      show (1 : ℝ) + (5 + f) = f + 6 by ring,
      weight_shift (by linarith) (by linarith), weight_up (by linarith) (by linarith)]
    refine ⟨?_, ?_, ?_⟩ <;> ring

theorem sector_exists {h : ℝ} (h0 : 0 ≤ h) (h1 : h ≤ 360) :
    ∃ i : ℕ, i < 6 ∧ ∃ f : ℝ, 0 ≤ f ∧ f ≤ 1 ∧ h = 60 * (i + f) := by
  by_cases h6 : h < 360
  · have hn : 0 ≤ h / 60 := by positivity
    refine ⟨⌊h / 60⌋₊, ?_, h / 60 - ⌊h / 60⌋₊, ?_, ?_, by ring⟩
    · rw [Nat.floor_lt hn]; norm_num; linarith
    · linarith [Nat.floor_le hn]
    · linarith [Nat.lt_floor_add_one (h / 60)]
  · exact ⟨5, by norm_num, 1, by norm_num, by norm_num, by norm_num; linarith⟩

/-- A valid HSV pixel. -/
def Hsv.Valid (p : Hsv) : Prop := 0 ≤ p.h ∧ p.h ≤ 360 ∧ 0 ≤ p.s ∧ p.s ≤ 1 ∧ 0 ≤ p.v ∧ p.v ≤ 1

theorem hsvToRgb_ok {img : List Hsv} (hne : img ≠ []) (h : ∀ p ∈ img, p.Valid) :
    hsvToRgb img = .ok (img.map hsvPixel) := by
  unfold hsvToRgb
  rw [if_neg (by simpa using hne), if_neg, if_neg]
  · rintro (⟨p, hp, h1 | h1⟩ | ⟨p, hp, h1 | h1⟩) <;> obtain ⟨_, _, a, b, c, d⟩ := h p hp <;> linarith
  · rintro (⟨p, hp, h1⟩ | ⟨p, hp, h1⟩) <;> obtain ⟨a, b, _⟩ := h p hp <;> linarith

/-- **C42 (hsv_to_rgb).** A non-empty image is accepted exactly if every pixel is valid, everything else
raises `ValueError`. The result is, pixel by pixel, the textbook conversion of the sector the hue lies in
(both sectors, if it lies on the border of two). -/
theorem C42_sectors (img : List Hsv) (hne : img ≠ []) :
    ((∃ out, hsvToRgb img = .ok out) ↔ ∀ p ∈ img, p.Valid) ∧
    ((¬ ∀ p ∈ img, p.Valid) → hsvToRgb img = .error .value) ∧
    ∀ out, hsvToRgb img = .ok out → ∃ conv : Hsv → Rgb, out = img.map conv ∧
      ∀ p, p.Valid → ∀ i : ℕ, i < 6 → ∀ f : ℝ, 0 ≤ f → f ≤ 1 → p.h = 60 * (i + f) →
        conv p = sectorRgb i f p.s p.v := by
  have hbad : (¬ ∀ p ∈ img, p.Valid) → hsvToRgb img = .error .value := by
    intro h
    unfold hsvToRgb
    rw [if_neg (by simpa using hne)]
    split_ifs with a b
    · rfl
    · rfl
    · exfalso
      push Not at a b
      exact h fun p hp => ⟨a.1 p hp, a.2 p hp, (b.1 p hp).1, (b.2 p hp).1, (b.1 p hp).2, (b.2 p hp).2⟩
  refine ⟨⟨?_, fun h => ⟨_, hsvToRgb_ok hne h⟩⟩, hbad, ?_⟩
  · rintro ⟨out, ho⟩
    by_contra h
    rw [hbad h] at ho
    cases ho
  · intro out ho
    by_cases h : ∀ p ∈ img, p.Valid
    · rw [hsvToRgb_ok hne h] at ho
      exact ⟨hsvPixel, (Except.ok.inj ho).symm, fun p _ i hi f h0 h1 he => hsvPixel_sector hi h0 h1 _ _ _ he⟩
    · rw [hbad h] at ho
      cases ho

theorem hsvPixel_gamut {p : Hsv} (hv : p.Valid) :
    (hsvPixel p).All (fun c => p.v * (1 - p.s) ≤ c ∧ c ≤ p.v) ∧
      ((hsvPixel p).r = p.v ∨ (hsvPixel p).g = p.v ∨ (hsvPixel p).b = p.v) ∧
      ((hsvPixel p).r = p.v * (1 - p.s) ∨ (hsvPixel p).g = p.v * (1 - p.s) ∨
        (hsvPixel p).b = p.v * (1 - p.s)) := by
  obtain ⟨h0, h1, s0, s1, v0, v1⟩ := hv
  obtain ⟨i, hi, f, f0, f1, hf⟩ := sector_exists h0 h1
  have hvs : 0 ≤ p.v * p.s := mul_nonneg v0 s0
  have hvf : 0 ≤ p.v * p.s * f := mul_nonneg hvs f0
  have hvf1 : p.v * p.s * f ≤ p.v * p.s := mul_le_of_le_one_right hvs f1
  rw [show p = ⟨p.h, p.s, p.v⟩ from rfl, hsvPixel_sector hi f0 f1 _ _ _ hf]
  interval_cases i <;> simp only [sectorRgb, Rgb.All, true_or, or_true, and_true] <;>
    refine ⟨⟨?_, ?_⟩, ⟨?_, ?_⟩, ?_, ?_⟩ <;> nlinarith

/-- **C42 (gamut).** For every accepted image, every channel of every pixel is between `v (1 - s)` and `v`,
hence in `[0, 1]`; the largest of the three is `v` and the smallest is `v (1 - s)`. -/
theorem C42_gamut (img : List Hsv) (out : List Rgb) (ho : hsvToRgb img = .ok out) :
    out.length = img.length ∧ ∀ (k : ℕ) (hk : k < img.length) (hk' : k < out.length),
      out[k].All (fun c => 0 ≤ c ∧ c ≤ 1) ∧
      max out[k].r (max out[k].g out[k].b) = img[k].v ∧
      min out[k].r (min out[k].g out[k].b) = img[k].v * (1 - img[k].s) := by
  have hne : img ≠ [] := by
    rintro rfl
    simp [hsvToRgb] at ho
  have hval := ((C42_sectors img hne).1).1 ⟨out, ho⟩
  rw [hsvToRgb_ok hne hval, Except.ok.injEq] at ho
  subst ho
  refine ⟨by simp, fun k hk hk' => ?_⟩
  simp only [List.getElem_map]
  have hv := hval _ (List.getElem_mem hk)
  obtain ⟨⟨⟨r1, r2⟩, ⟨g1, g2⟩, b1, b2⟩, hmax, hmin⟩ := hsvPixel_gamut hv
  obtain ⟨-, -, s0, s1, v0, v1⟩ := hv
  have hp : 0 ≤ img[k].v * (1 - img[k].s) := mul_nonneg v0 (by linarith)
  refine ⟨⟨⟨by linarith, by linarith⟩, ⟨by linarith, by linarith⟩, by linarith, by linarith⟩, ?_, ?_⟩
  · refine le_antisymm (max_le r2 (max_le g2 b2)) ?_
    rcases hmax with h | h | h
    · exact h.symm.le.trans (le_max_left _ _)
    · exact h.symm.le.trans ((le_max_left _ _).trans (le_max_right _ _))
    · exact h.symm.le.trans ((le_max_right _ _).trans (le_max_right _ _))
  · refine le_antisymm ?_ (le_min r1 (le_min g1 b1))
    rcases hmin with h | h | h
    · exact (min_le_left _ _).trans h.le
    · exact ((min_le_right _ _).trans (min_le_left _ _)).trans h.le
    · exact ((min_le_right _ _).trans (min_le_right _ _)).trans h.le

/-- Non-vacuity: pure orange. -/
example : (⟨30, 1, 1⟩ : Hsv).Valid ∧ hsvToRgb [⟨30, 1, 1⟩] = .ok [⟨1, 1 / 2, 0⟩] := by
  have hv : (⟨30, 1, 1⟩ : Hsv).Valid := by norm_num [Hsv.Valid]
  refine ⟨hv, ?_⟩
  rw [hsvToRgb_ok (by simp) (by simpa using hv)]
  rw [List.map_singleton, hsvPixel_sector (i := 0) (f := 1 / 2) (by norm_num) (by norm_num) (by norm_num)
    30 1 1 (by norm_num)]
  norm_num [sectorRgb]

/-! ### Optical flow -/

theorem angle360_range (y x : ℝ) : 0 ≤ angle360 y x ∧ angle360 y x < 360 := by
  unfold angle360
  have h1 := Complex.neg_pi_lt_arg ⟨x, y⟩
  have h2 := Complex.arg_le_pi ⟨x, y⟩
  have hp := pi_pos
  simp only
  split_ifs with h
  · constructor
    · exact mul_nonneg (by positivity) (by linarith)
    · have : 180 / π * (2 * π + Complex.arg ⟨x, y⟩) < 180 / π * (2 * π) :=
        mul_lt_mul_of_pos_left (by linarith) (by positivity)
      refine this.trans_eq ?_
      field_simp; norm_num
  · constructor
    · exact mul_nonneg (by positivity) (not_lt.1 h)
    · have : 180 / π * Complex.arg ⟨x, y⟩ ≤ 180 / π * π := mul_le_mul_of_nonneg_left h2 (by positivity)
      refine this.trans_lt ?_
      field_simp; norm_num

theorem foldl_min_le (l : List ℝ) (a : ℝ) : l.foldl min a ≤ a ∧ ∀ x ∈ l, l.foldl min a ≤ x := by
  induction l generalizing a with
  | nil => simp
  | cons b l ih =>
    obtain ⟨h1, h2⟩ := ih (min a b)
    refine ⟨h1.trans (min_le_left _ _), fun x hx => ?_⟩
    rcases List.mem_cons.1 hx with rfl | hx
    · exact h1.trans (min_le_right _ _)
    · exact h2 x hx

theorem le_foldl_max (l : List ℝ) (a : ℝ) : a ≤ l.foldl max a ∧ ∀ x ∈ l, x ≤ l.foldl max a := by
  induction l generalizing a with
  | nil => simp
  | cons b l ih =>
    obtain ⟨h1, h2⟩ := ih (max a b)
    refine ⟨(le_max_left _ _).trans h1, fun x hx => ?_⟩
    rcases List.mem_cons.1 hx with rfl | hx
    · exact (le_max_right _ _).trans h1
    · exact h2 x hx

theorem minOf_le {l : List ℝ} {x : ℝ} (hx : x ∈ l) : minOf l ≤ x := by
  cases l with
  | nil => simp at hx
  | cons a l =>
    rcases List.mem_cons.1 hx with rfl | hx
    · exact (foldl_min_le l x).1
    · exact (foldl_min_le l a).2 x hx

theorem le_maxOf {l : List ℝ} {x : ℝ} (hx : x ∈ l) : x ≤ maxOf l := by
  cases l with
  | nil => simp at hx
  | cons a l =>
    rcases List.mem_cons.1 hx with rfl | hx
    · exact (le_foldl_max l x).1
    · exact (le_foldl_max l a).2 x hx

theorem flowHsv_valid (flow : List (ℝ × ℝ)) {eps : ℝ} (he : 0 < eps) :
    (flowHsv flow eps).length = flow.length ∧ ∀ p ∈ flowHsv flow eps, p.Valid := by
  constructor
  · simp [flowHsv]
  · intro p hp
    unfold flowHsv at hp
    simp only [List.map_map] at hp
    rw [List.zipWith_map_right, List.zipWith_self] at hp
    obtain ⟨f, hf, rfl⟩ := List.mem_map.1 hp
    have ha := angle360_range f.1 f.2
    refine ⟨ha.1, ha.2.le, by norm_num, by norm_num, ?_, ?_⟩
    all_goals simp only [Function.comp]
    all_goals set lo := minOf (flow.map fun f => √(f.1 ^ 2 + f.2 ^ 2)) with hlo
    all_goals
      have h1 : lo ≤ √(f.1 ^ 2 + f.2 ^ 2) := minOf_le (List.mem_map_of_mem (f := fun f : ℝ × ℝ => √(f.1 ^ 2 + f.2 ^ 2)) hf)
    all_goals
      set hi := maxOf (flow.map ((fun x => x - lo) ∘ fun f => √(f.1 ^ 2 + f.2 ^ 2))) with hhi
    all_goals
      have h2 : √(f.1 ^ 2 + f.2 ^ 2) - lo ≤ hi :=
        le_maxOf (List.mem_map_of_mem (f := (fun x => x - lo) ∘ fun f : ℝ × ℝ => √(f.1 ^ 2 + f.2 ^ 2)) hf)
    · exact div_nonneg (by linarith) (by linarith)
    · rw [div_le_one (by linarith)]; linarith

/-- **C42 (optical flow).** For every non-empty flow field and positive tolerance,
`optical_flow_to_color` feeds `hsv_to_rgb` a valid image: it returns one pixel per flow vector, and every
channel is in `[0, 1]`. -/
theorem C42_flow (flow : List (ℝ × ℝ)) (hne : flow ≠ []) {eps : ℝ} (he : 0 < eps) :
    ∃ out, opticalFlowToColor flow eps = .ok out ∧ out.length = flow.length ∧
      ∀ c ∈ out, c.All fun x => 0 ≤ x ∧ x ≤ 1 := by
  obtain ⟨hlen, hval⟩ := flowHsv_valid flow he
  have hne' : flowHsv flow eps ≠ [] := by
    intro h
    rw [h] at hlen
    exact hne (List.length_eq_zero_iff.1 hlen.symm)
  have hok := hsvToRgb_ok hne' hval
  have hg := C42_gamut _ _ hok
  refine ⟨_, ?_, hg.1.trans hlen, ?_⟩
  · unfold opticalFlowToColor
    rw [if_neg (by simpa using hne), hok]
  · intro c hc
    obtain ⟨k, hk, rfl⟩ := List.mem_iff_getElem.1 hc
    exact (hg.2 k (by simpa using hk) hk).1

/-- Non-vacuity: two flow vectors, the default tolerance. -/
example : ∃ out, opticalFlowToColor [(1, 0), (-3, 4)] = .ok out ∧ out.length = 2 := by
  obtain ⟨out, h1, h2, -⟩ := C42_flow [(1, 0), (-3, 4)] (by simp) (show (0 : ℝ) < 1e-5 by norm_num)
  exact ⟨out, h1, h2⟩

theorem foldl_min_mem (l : List ℝ) (a : ℝ) : l.foldl min a ∈ a :: l := by
  induction l generalizing a with
  | nil => simp
  | cons b l ih =>
    rw [List.foldl_cons]
    rcases List.mem_cons.1 (ih (min a b)) with h | h
    · rw [h]
      rcases min_choice a b with h' | h' <;> rw [h'] <;> simp
    · simp [h]

theorem foldl_max_mem (l : List ℝ) (a : ℝ) : l.foldl max a ∈ a :: l := by
  induction l generalizing a with
  | nil => simp
  | cons b l ih =>
    rw [List.foldl_cons]
    rcases List.mem_cons.1 (ih (max a b)) with h | h
    · rw [h]
      rcases max_choice a b with h' | h' <;> rw [h'] <;> simp
    · simp [h]

theorem minOf_mem {l : List ℝ} (h : l ≠ []) : minOf l ∈ l := by
  cases l with
  | nil => exact absurd rfl h
  | cons a l => exact foldl_min_mem l a

theorem maxOf_mem {l : List ℝ} (h : l ≠ []) : maxOf l ∈ l := by
  cases l with
  | nil => exact absurd rfl h
  | cons a l => exact foldl_max_mem l a

theorem angle360_polar {r : ℝ} (hr : 0 < r) {t : ℝ} (h0 : 0 ≤ t) (h1 : t < 2 * π) :
    angle360 (r * sin t) (r * cos t) = 180 / π * t := by
  have key : ∀ s : ℝ, (⟨r * cos s, r * sin s⟩ : ℂ) = r * (Complex.cos s + Complex.sin s * Complex.I) := by
    intro s
    apply Complex.ext <;> simp [← Complex.ofReal_cos, ← Complex.ofReal_sin]
  unfold angle360
  by_cases h : t ≤ π
  · rw [key t, Complex.arg_mul_cos_add_sin_mul_I hr ⟨by linarith [Real.pi_pos], h⟩]
    simp only [if_neg (not_lt.2 h0)]
  · push Not at h
    have e1 : cos t = cos (t - 2 * π) := (Real.cos_sub_two_pi t).symm
    have e2 : sin t = sin (t - 2 * π) := (Real.sin_sub_two_pi t).symm
    rw [e1, e2, key (t - 2 * π), Complex.arg_mul_cos_add_sin_mul_I hr ⟨by linarith, by linarith⟩]
    simp only [if_pos (show t - 2 * π < 0 by linarith)]
    ring

/-- **C42 (what the colours mean).** The hue shows the direction of the flow and the brightness its size: a vector of
length `r` whose angle to the second axis is `(i + f)` sixths of the full turn becomes the saturated colour at that
place of the colour wheel, with the brightness that grows linearly from zero for the shortest vector of the field to
(all but the tolerance) one for the longest. -/
theorem C42_direction (flow : List (ℝ × ℝ)) {eps : ℝ} (he : 0 < eps) (lo hi : ℝ)
    (hlo : IsLeast {m | ∃ v ∈ flow, m = √(v.1 ^ 2 + v.2 ^ 2)} lo)
    (hhi : IsGreatest {m | ∃ v ∈ flow, m = √(v.1 ^ 2 + v.2 ^ 2)} hi)
    (out : List Rgb) (ho : opticalFlowToColor flow eps = .ok out) (k : ℕ) (r : ℝ) (hr : 0 < r) (i : ℕ) (hi6 : i < 6)
    (f : ℝ) (f0 : 0 ≤ f) (f1 : f < 1)
    (hk : flow[k]? = some (r * sin ((i + f) * (π / 3)), r * cos ((i + f) * (π / 3)))) :
    out[k]? = some (sectorRgb i f 1 ((r - lo) / (hi - lo + eps))) := by
  have hne : flow ≠ [] := by rintro rfl; simp at hk
  obtain ⟨hlen, hval⟩ := flowHsv_valid flow he
  have hne' : flowHsv flow eps ≠ [] := by
    intro h
    rw [h] at hlen
    exact hne (List.length_eq_zero_iff.1 hlen.symm)
  unfold opticalFlowToColor at ho
  rw [if_neg (by simpa using hne), hsvToRgb_ok hne' hval] at ho
  cases ho
  have emin : minOf (flow.map fun f => √(f.1 ^ 2 + f.2 ^ 2)) = lo := by
    apply le_antisymm
    · obtain ⟨v, hv, e⟩ := hlo.1
      rw [e]
      exact minOf_le (List.mem_map_of_mem (f := fun f : ℝ × ℝ => √(f.1 ^ 2 + f.2 ^ 2)) hv)
    · obtain ⟨v, hv, e⟩ := List.mem_map.1 (minOf_mem (l := flow.map fun f => √(f.1 ^ 2 + f.2 ^ 2)) (by simpa using hne))
      rw [← e]
      exact hlo.2 ⟨v, hv, rfl⟩
  have emax : maxOf (flow.map ((fun x => x - lo) ∘ fun f : ℝ × ℝ => √(f.1 ^ 2 + f.2 ^ 2))) = hi - lo := by
    apply le_antisymm
    · obtain ⟨v, hv, e⟩ := List.mem_map.1 (maxOf_mem
        (l := flow.map ((fun x => x - lo) ∘ fun f : ℝ × ℝ => √(f.1 ^ 2 + f.2 ^ 2))) (by simpa using hne))
      rw [← e]
      exact sub_le_sub_right (hhi.2 ⟨v, hv, rfl⟩) lo
    · obtain ⟨v, hv, e⟩ := hhi.1
      rw [e]
      exact le_maxOf (List.mem_map_of_mem (f := (fun x => x - lo) ∘ fun f : ℝ × ℝ => √(f.1 ^ 2 + f.2 ^ 2)) hv)
  have hi6' : (i : ℝ) ≤ 5 := by exact_mod_cast Nat.lt_succ_iff.1 hi6
  have ht0 : 0 ≤ (i + f) * (π / 3) := by positivity
  have ht1 : (i + f) * (π / 3) < 2 * π := by nlinarith [Real.pi_pos]
  have hmag : √((r * sin ((i + f) * (π / 3))) ^ 2 + (r * cos ((i + f) * (π / 3))) ^ 2) = r := by
    rw [mul_pow, mul_pow, ← mul_add, Real.sin_sq_add_cos_sq, mul_one, Real.sqrt_sq hr.le]
  unfold flowHsv
  simp only [List.map_map, emin]
  rw [List.zipWith_map_right, List.zipWith_self, List.map_map, List.getElem?_map, hk]
  simp only [Option.map_some, Function.comp, emax, hmag]
  congr 1
  refine hsvPixel_sector hi6 f0 f1.le _ _ _ ?_
  rw [angle360_polar hr ht0 ht1]
  field_simp
  ring

/-- Non-vacuity: of two vectors along the two axes, the longer one along the first, the first one is a quarter of the turn
away from the second axis: between yellow and green. -/
example (out : List Rgb) (ho : opticalFlowToColor [(3, 0), (0, 1)] 1 = .ok out) :
    out[0]? = some (sectorRgb 1 (1 / 2) 1 (2 / 3)) := by
  have e1 : √((3 : ℝ) ^ 2 + 0 ^ 2) = 3 := by rw [show (3 : ℝ) ^ 2 + 0 ^ 2 = 3 ^ 2 by norm_num, Real.sqrt_sq (by norm_num)]
  have e2 : √((0 : ℝ) ^ 2 + 1 ^ 2) = 1 := by norm_num
  have h := C42_direction [(3, 0), (0, 1)] one_pos 1 3 ?_ ?_ out ho 0 3 (by norm_num) 1 (by norm_num) (1 / 2)
    (by norm_num) (by norm_num) ?_
  · rw [h]; norm_num
  · refine ⟨⟨(0, 1), by simp, e2.symm⟩, ?_⟩
    rintro m ⟨v, hv, rfl⟩
    simp only [List.mem_cons, List.not_mem_nil, or_false] at hv
    rcases hv with rfl | rfl
    · simp only [e1]; norm_num
    · simp only [e2]; norm_num
  · refine ⟨⟨(3, 0), by simp, e1.symm⟩, ?_⟩
    rintro m ⟨v, hv, rfl⟩
    simp only [List.mem_cons, List.not_mem_nil, or_false] at hv
    rcases hv with rfl | rfl
    · simp only [e1]; norm_num
    · simp only [e2]; norm_num
  · have : (((1 : ℕ) : ℝ) + 1 / 2) * (π / 3) = π / 2 := by push_cast; ring
    rw [this, Real.sin_pi_div_two, Real.cos_pi_div_two]
    simp

end Verif.Functional
