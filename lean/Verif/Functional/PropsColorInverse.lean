import Verif.Functional.PropsColor
import Mathlib.Tactic.IntervalCases

/-!
C42, what a colour tells: the conversion to RGB can be undone wherever there is a colour to see, every RGB colour is
reached, and the flow can be read off its picture except for the shortest vectors, which are black.
-/

namespace Verif.Functional

open Real

/-- A pixel of which every part can be seen: it is not black and not grey, and its hue is not the second name of red. -/
def Hsv.Visible (p : Hsv) : Prop := 0 < p.s ∧ 0 < p.v ∧ p.h < 360

/-- Every hue below 360 is in one of the six sectors. -/
theorem exists_sector {h : ℝ} (h0 : 0 ≤ h) (h1 : h < 360) :
    ∃ (i : ℕ) (f : ℝ), i < 6 ∧ 0 ≤ f ∧ f < 1 ∧ h = 60 * (i + f) := by
  have hn : (0 : ℝ) ≤ h / 60 := by positivity
  refine ⟨⌊h / 60⌋₊, h / 60 - ⌊h / 60⌋₊, ?_, ?_, ?_, by ring⟩
  · rw [Nat.floor_lt hn]
    norm_num
    linarith
  · linarith [Nat.floor_le hn]
  · linarith [Nat.lt_floor_add_one (h / 60)]

/-- The sector, the position in it, saturation and value can be read off the colour. -/
theorem sectorRgb_injective {i i' : ℕ} (hi : i < 6) (hi' : i' < 6) {f f' s s' v v' : ℝ} (f0 : 0 ≤ f) (f1 : f < 1)
    (f0' : 0 ≤ f') (f1' : f' < 1) (hs : 0 < s) (hs' : 0 < s') (hv : 0 < v) (hv' : 0 < v')
    (h : sectorRgb i f s v = sectorRgb i' f' s' v') : i = i' ∧ f = f' ∧ s = s' ∧ v = v' := by
  obtain ⟨c, hc⟩ : ∃ c, c = v * s := ⟨_, rfl⟩
  obtain ⟨c', hc'⟩ : ∃ c, c = v' * s' := ⟨_, rfl⟩
  obtain ⟨g, hg⟩ : ∃ g, g = c * f := ⟨_, rfl⟩
  obtain ⟨g', hg'⟩ : ∃ g, g = c' * f' := ⟨_, rfl⟩
  have c0 : 0 < c := by rw [hc]; positivity
  have c0' : 0 < c' := by rw [hc']; positivity
  have g0 : 0 ≤ g := by rw [hg]; positivity
  have g0' : 0 ≤ g' := by rw [hg']; positivity
  have g1 : g < c := by rw [hg]; nlinarith
  have g1' : g' < c' := by rw [hg']; nlinarith
  have p : v * (1 - s) = v - c := by rw [hc]; ring
  have p' : v' * (1 - s') = v' - c' := by rw [hc']; ring
  have q : v * (1 - s * f) = v - g := by rw [hg, hc]; ring
  have q' : v' * (1 - s' * f') = v' - g' := by rw [hg', hc']; ring
  have t : v * (1 - s * (1 - f)) = v - c + g := by rw [hg, hc]; ring
  have t' : v' * (1 - s' * (1 - f')) = v' - c' + g' := by rw [hg', hc']; ring
  have main : i = i' ∧ v = v' ∧ c = c' ∧ g = g' := by
    interval_cases i <;> interval_cases i' <;>
      simp only [sectorRgb, Rgb.mk.injEq, p, p', q, q', t, t'] at h <;>
      obtain ⟨h1, h2, h3⟩ := h <;>
      first
        | (exfalso; linarith)
        | exact ⟨rfl, by linarith, by linarith, by linarith⟩
  obtain ⟨m1, m2, m3, m4⟩ := main
  refine ⟨m1, ?_, ?_, m2⟩
  · have : c * f = c * f' := by rw [← hg, m4, hg', m3]
    exact mul_left_cancel₀ c0.ne' this
  · have : v * s = v * s' := by rw [← hc, m3, hc', m2]
    exact mul_left_cancel₀ hv.ne' this

theorem hsvPixel_injective {p p' : Hsv} (hp : p.Valid) (hp' : p'.Valid) (hv : p.Visible) (hv' : p'.Visible)
    (h : hsvPixel p = hsvPixel p') : p = p' := by
  obtain ⟨ph, ps, pv⟩ := p
  obtain ⟨ph', ps', pv'⟩ := p'
  obtain ⟨i, f, hi, f0, f1, e⟩ := exists_sector hp.1 hv.2.2
  obtain ⟨i', f', hi', f0', f1', e'⟩ := exists_sector hp'.1 hv'.2.2
  dsimp only at e e'
  rw [hsvPixel_sector hi f0 f1.le ph ps pv e, hsvPixel_sector hi' f0' f1'.le ph' ps' pv' e'] at h
  obtain ⟨a, b, c, d⟩ := sectorRgb_injective hi hi' f0 f1 f0' f1' hv.1 hv'.1 hv.2.1 hv'.2.1 h
  subst a b c d
  rw [e, e']

/-- **C42 (nothing is lost).** Two accepted images without black, grey and hue 360 that are converted to the same
image are the same. -/
theorem C42_injective (img img' : List Hsv) (hv : ∀ p ∈ img, p.Visible) (hv' : ∀ p ∈ img', p.Visible) (out : List Rgb)
    (ho : hsvToRgb img = .ok out) (ho' : hsvToRgb img' = .ok out) : img = img' := by
  have hne : img ≠ [] := by
    rintro rfl
    simp [hsvToRgb] at ho
  have hne' : img' ≠ [] := by
    rintro rfl
    simp [hsvToRgb] at ho'
  have h := ((C42_sectors img hne).1).1 ⟨out, ho⟩
  have h' := ((C42_sectors img' hne').1).1 ⟨out, ho'⟩
  rw [hsvToRgb_ok hne h, Except.ok.injEq] at ho
  rw [hsvToRgb_ok hne' h', Except.ok.injEq] at ho'
  have hlen : img.length = img'.length := by
    have := congrArg List.length (ho.trans ho'.symm)
    simpa using this
  apply List.ext_getElem hlen
  intro k hk hk'
  have e : hsvPixel img[k] = hsvPixel img'[k] := by
    have h1 : (img.map hsvPixel)[k]? = (img'.map hsvPixel)[k]? := by rw [ho, ho']
    rw [List.getElem?_map, List.getElem?_map, List.getElem?_eq_getElem hk, List.getElem?_eq_getElem hk'] at h1
    exact Option.some.inj h1
  exact hsvPixel_injective (h _ (List.getElem_mem hk)) (h' _ (List.getElem_mem hk')) (hv _ (List.getElem_mem hk))
    (hv' _ (List.getElem_mem hk')) e

/-- A colour in order of its channels: sector `i` and the numbers `p ≤ m ≤ v`. -/
theorem exists_hsv_aux {p m v : ℝ} (h0 : 0 ≤ p) (h1 : p ≤ m) (h2 : m ≤ v) (h3 : v ≤ 1) :
    ∃ s f, 0 ≤ s ∧ s ≤ 1 ∧ 0 ≤ f ∧ f ≤ 1 ∧ v * (1 - s) = p ∧ v * (1 - s * (1 - f)) = m := by
  rcases eq_or_lt_of_le (h1.trans h2) with h | h
  · refine ⟨0, 0, le_rfl, zero_le_one, le_rfl, zero_le_one, by linarith, by linarith⟩
  · have hv : 0 < v := by linarith
    have hc : 0 < v - p := by linarith
    refine ⟨(v - p) / v, (m - p) / (v - p), by positivity, ?_, div_nonneg (by linarith) hc.le, ?_, ?_, ?_⟩
    · rw [div_le_one hv]; linarith
    · rw [div_le_one hc]; linarith
    · field_simp; ring
    · field_simp; ring

/-- **C42 (every colour is reached).** Every image with RGB values in the unit interval is the conversion of a valid
image. -/
theorem C42_onto (out : List Rgb) (hne : out ≠ []) (h : ∀ c ∈ out, c.All fun x => 0 ≤ x ∧ x ≤ 1) :
    ∃ img, hsvToRgb img = .ok out := by
  have key : ∀ c : Rgb, c.All (fun x => 0 ≤ x ∧ x ≤ 1) → ∃ p : Hsv, p.Valid ∧ hsvPixel p = c := by
    rintro ⟨r, g, b⟩ ⟨⟨r0, r1⟩, ⟨g0, g1⟩, b0, b1⟩
    dsimp only at r0 r1 g0 g1 b0 b1
    have build : ∀ (i : ℕ) (s f v : ℝ), i < 6 → 0 ≤ s → s ≤ 1 → 0 ≤ f → f ≤ 1 → 0 ≤ v → v ≤ 1 →
        sectorRgb i f s v = ⟨r, g, b⟩ → ∃ p : Hsv, p.Valid ∧ hsvPixel p = ⟨r, g, b⟩ := by
      intro i s f v hi s0 s1 f0 f1 v0 v1 e
      have hi5 : (i : ℝ) ≤ 5 := by exact_mod_cast Nat.lt_succ_iff.1 hi
      have hi0 : (0 : ℝ) ≤ i := Nat.cast_nonneg i
      refine ⟨⟨60 * (i + f), s, v⟩, ⟨?_, ?_, s0, s1, v0, v1⟩, ?_⟩
      · show 0 ≤ 60 * ((i : ℝ) + f); linarith
      · show 60 * ((i : ℝ) + f) ≤ 360; linarith
      · rw [hsvPixel_sector hi f0 f1 _ s v rfl, e]
    have flip : ∀ v s f : ℝ, v * (1 - s * (1 - (1 - f))) = v * (1 - s * f) := fun v s f => by ring
    rcases le_total r g with rg | rg <;> rcases le_total g b with gb | gb <;> rcases le_total r b with rb | rb
    · obtain ⟨s, f, s0, s1, f0, f1, e1, e2⟩ := exists_hsv_aux r0 rg gb b1
      exact build 3 s (1 - f) b (by norm_num) s0 s1 (by linarith) (by linarith) b0 b1 (by
        simp only [sectorRgb, e1]; rw [e2])
    · obtain ⟨s, f, s0, s1, f0, f1, e1, e2⟩ := exists_hsv_aux r0 rg gb b1
      exact build 3 s (1 - f) b (by norm_num) s0 s1 (by linarith) (by linarith) b0 b1 (by
        simp only [sectorRgb, e1]; rw [e2])
    · obtain ⟨s, f, s0, s1, f0, f1, e1, e2⟩ := exists_hsv_aux r0 rb gb g1
      exact build 2 s f g (by norm_num) s0 s1 f0 f1 g0 g1 (by simp only [sectorRgb, e1, e2])
    · obtain ⟨s, f, s0, s1, f0, f1, e1, e2⟩ := exists_hsv_aux b0 rb rg g1
      exact build 1 s (1 - f) g (by norm_num) s0 s1 (by linarith) (by linarith) g0 g1 (by
        simp only [sectorRgb, e1]; rw [e2])
    · obtain ⟨s, f, s0, s1, f0, f1, e1, e2⟩ := exists_hsv_aux g0 rg rb b1
      exact build 4 s f b (by norm_num) s0 s1 f0 f1 b0 b1 (by simp only [sectorRgb, e1, e2])
    · obtain ⟨s, f, s0, s1, f0, f1, e1, e2⟩ := exists_hsv_aux g0 gb rb r1
      exact build 5 s (1 - f) r (by norm_num) s0 s1 (by linarith) (by linarith) r0 r1 (by
        simp only [sectorRgb, e1]; rw [e2])
    · obtain ⟨s, f, s0, s1, f0, f1, e1, e2⟩ := exists_hsv_aux b0 gb rg r1
      exact build 0 s f r (by norm_num) s0 s1 f0 f1 r0 r1 (by simp only [sectorRgb, e1, e2])
    · obtain ⟨s, f, s0, s1, f0, f1, e1, e2⟩ := exists_hsv_aux b0 gb rg r1
      exact build 0 s f r (by norm_num) s0 s1 f0 f1 r0 r1 (by simp only [sectorRgb, e1, e2])
  haveI : Inhabited Hsv := ⟨⟨0, 0, 0⟩⟩
  choose! conv h1 h2 using key
  refine ⟨out.map conv, ?_⟩
  rw [hsvToRgb_ok (by simpa using hne) (by
    intro p hp
    obtain ⟨c, hc, rfl⟩ := List.mem_map.1 hp
    exact h1 c (h c hc)), List.map_map]
  congr 1
  conv_rhs => rw [← List.map_id out]
  exact List.map_congr_left fun c hc => h2 c (h c hc)

/-! ### Pictures of a flow -/

theorem sector_le_max (i : ℕ) (f s v : ℝ) :
    v ≤ max (sectorRgb i f s v).r (max (sectorRgb i f s v).g (sectorRgb i f s v).b) := by
  unfold sectorRgb
  split <;> simp

theorem sector_black (i : ℕ) (f s : ℝ) : sectorRgb i f s 0 = ⟨0, 0, 0⟩ := by
  unfold sectorRgb
  split <;> simp

/-- Polar form of a vector, by sixths of the turn. -/
theorem exists_polar (v : ℝ × ℝ) (hv : v ≠ 0) : ∃ (r : ℝ) (i : ℕ) (f : ℝ), 0 < r ∧ i < 6 ∧ 0 ≤ f ∧ f < 1 ∧
    v = (r * sin ((i + f) * (π / 3)), r * cos ((i + f) * (π / 3))) ∧ r = √(v.1 ^ 2 + v.2 ^ 2) := by
  have hz : (⟨v.2, v.1⟩ : ℂ) ≠ 0 := by
    intro h
    apply hv
    have h1 := congrArg Complex.re h
    have h2 := congrArg Complex.im h
    simp only [Complex.zero_re, Complex.zero_im] at h1 h2
    exact Prod.ext h2 h1
  set z : ℂ := ⟨v.2, v.1⟩ with hzd
  obtain ⟨t, ht0, ht1, hc, hs⟩ : ∃ t : ℝ, 0 ≤ t ∧ t < 2 * π ∧ ‖z‖ * cos t = v.2 ∧ ‖z‖ * sin t = v.1 := by
    have e1 : ‖z‖ * cos z.arg = z.re := by rw [Complex.cos_arg hz]; field_simp
    have e2 : ‖z‖ * sin z.arg = z.im := by rw [Complex.sin_arg]; field_simp
    by_cases ha : 0 ≤ z.arg
    · exact ⟨z.arg, ha, by linarith [Complex.arg_le_pi z, Real.pi_pos], e1, e2⟩
    · push Not at ha
      refine ⟨z.arg + 2 * π, by linarith [Complex.neg_pi_lt_arg z, Real.pi_pos], by linarith, ?_, ?_⟩
      · rw [Real.cos_add_two_pi, e1]
      · rw [Real.sin_add_two_pi, e2]
  obtain ⟨i, f, hi, f0, f1, e⟩ := exists_sector (h := 180 / π * t) (by positivity) (by
    have := Real.pi_pos
    calc 180 / π * t < 180 / π * (2 * π) := mul_lt_mul_of_pos_left ht1 (by positivity)
      _ = 360 := by field_simp; norm_num)
  have et : t = (i + f) * (π / 3) := by
    have := Real.pi_pos
    field_simp at e
    linarith
  refine ⟨‖z‖, i, f, norm_pos_iff.2 hz, hi, f0, f1, ?_, ?_⟩
  · rw [← et, hc, hs]
  · rw [Complex.norm_eq_sqrt_sq_add_sq, add_comm]

/-- The lengths of the vectors of a field are between `lo` and `hi`, and both occur. -/
def Range (flow : List (ℝ × ℝ)) (lo hi : ℝ) : Prop :=
  IsLeast {m | ∃ v ∈ flow, m = √(v.1 ^ 2 + v.2 ^ 2)} lo ∧ IsGreatest {m | ∃ v ∈ flow, m = √(v.1 ^ 2 + v.2 ^ 2)} hi

theorem range_bounds {flow : List (ℝ × ℝ)} {lo hi : ℝ} (h : Range flow lo hi) : 0 ≤ lo ∧ lo ≤ hi := by
  obtain ⟨v, hv, e⟩ := h.1.1
  exact ⟨by rw [e]; exact Real.sqrt_nonneg _, h.2.2 ⟨v, hv, e⟩⟩

/-- **C42 (reading a flow picture).** Two fields with the same shortest and longest length whose pictures are the same have
the same vector wherever one of them is longer than the shortest. -/
theorem C42_readable (flow flow' : List (ℝ × ℝ)) {eps : ℝ} (he : 0 < eps) (lo hi : ℝ) (hr : Range flow lo hi)
    (hr' : Range flow' lo hi) (out : List Rgb) (ho : opticalFlowToColor flow eps = .ok out)
    (ho' : opticalFlowToColor flow' eps = .ok out) (k : ℕ) (v v' : ℝ × ℝ) (hk : flow[k]? = some v)
    (hk' : flow'[k]? = some v') (hv : lo < √(v.1 ^ 2 + v.2 ^ 2)) : v = v' := by
  obtain ⟨lo0, lohi⟩ := range_bounds hr
  have hd : 0 < hi - lo + eps := by linarith
  have vne : v ≠ 0 := by
    rintro rfl
    simp at hv
    linarith
  obtain ⟨r, i, f, r0, hi6, f0, f1, ev, er⟩ := exists_polar v vne
  have c := C42_direction flow he lo hi hr.1 hr.2 out ho k r r0 i hi6 f f0 f1 (by rw [hk, ev])
  have hb : 0 < (r - lo) / (hi - lo + eps) := div_pos (by rw [er]; linarith) hd
  by_cases vne' : v' = 0
  · -- the colour of a zero vector is black
    exfalso
    subst vne'
    have hlo : lo = 0 := le_antisymm (by
      have := hr'.1.2 ⟨(0, 0), List.mem_of_getElem? hk', rfl⟩
      simpa using this) lo0
    have hmax : max (sectorRgb i f 1 ((r - lo) / (hi - lo + eps))).r
        (max (sectorRgb i f 1 ((r - lo) / (hi - lo + eps))).g (sectorRgb i f 1 ((r - lo) / (hi - lo + eps))).b) = 0 := by
      obtain ⟨hlen, hval⟩ := flowHsv_valid flow' he
      have hne : flow' ≠ [] := by rintro rfl; simp at hk'
      have hne' : flowHsv flow' eps ≠ [] := by
        intro h
        rw [h] at hlen
        exact hne (List.length_eq_zero_iff.1 hlen.symm)
      unfold opticalFlowToColor at ho'
      rw [if_neg (by simpa using hne)] at ho'
      obtain ⟨l1, l2⟩ := C42_gamut _ _ ho'
      obtain ⟨hkl, e⟩ := List.getElem?_eq_some_iff.1 c
      obtain ⟨hkl', e'⟩ := List.getElem?_eq_some_iff.1 hk'
      have hkh : k < (flowHsv flow' eps).length := by rw [hlen]; exact hkl'
      have := (l2 k hkh hkl).2.1
      rw [e] at this
      rw [this]
      have hmin : minOf (flow'.map fun f => √(f.1 ^ 2 + f.2 ^ 2)) = 0 := by
        refine le_antisymm ?_ ?_
        · have h0 : (0 : ℝ) ∈ flow'.map fun f => √(f.1 ^ 2 + f.2 ^ 2) :=
            List.mem_map.2 ⟨(0, 0), List.mem_of_getElem? hk', by simp⟩
          exact minOf_le h0
        · obtain ⟨w, _, ew⟩ := List.mem_map.1
            (minOf_mem (l := flow'.map fun f => √(f.1 ^ 2 + f.2 ^ 2)) (by simpa using hne))
          rw [← ew]
          exact Real.sqrt_nonneg _
      have e2 : flow'[k] = (0, 0) := e'
      unfold flowHsv
      simp only [List.getElem_zipWith, List.getElem_map, hmin, e2]
      simp
    have hx := sector_le_max i f 1 ((r - lo) / (hi - lo + eps))
    linarith
  · obtain ⟨r', i', f', r0', hi6', f0', f1', ev', er'⟩ := exists_polar v' vne'
    have c' := C42_direction flow' he lo hi hr'.1 hr'.2 out ho' k r' r0' i' hi6' f' f0' f1' (by rw [hk', ev'])
    rw [c, Option.some.injEq] at c'
    have hb' : 0 < (r' - lo) / (hi - lo + eps) := by
      by_contra hcon
      have hle : r' = lo := by
        have h1 : lo ≤ r' := by rw [er']; exact hr'.1.2 ⟨v', List.mem_of_getElem? hk', rfl⟩
        have h2 : ¬ lo < r' := fun h => hcon (div_pos (by linarith) hd)
        linarith
      rw [hle, sub_self, zero_div] at c'
      rw [sector_black] at c'
      have := sector_le_max i f 1 ((r - lo) / (hi - lo + eps))
      rw [c'] at this
      simp only [max_self] at this
      linarith
    obtain ⟨a1, a2, -, a4⟩ := sectorRgb_injective hi6 hi6' f0 f1 f0' f1' one_pos one_pos hb hb' c'
    have : r = r' := by
      field_simp at a4
      linarith
    rw [ev, ev', this, a1, a2]

/-- **C42 (what a flow picture does not show).** The shortest vectors of a field are black, whatever their direction; where
all vectors have the same length, as when the camera moves, the whole picture is black. -/
theorem C42_black (flow : List (ℝ × ℝ)) {eps : ℝ} (he : 0 < eps) (lo hi : ℝ) (hr : Range flow lo hi) (out : List Rgb)
    (ho : opticalFlowToColor flow eps = .ok out) :
    (∀ (k : ℕ) (v : ℝ × ℝ), flow[k]? = some v → √(v.1 ^ 2 + v.2 ^ 2) = lo → out[k]? = some ⟨0, 0, 0⟩) ∧
    (lo = hi → out = List.replicate flow.length ⟨0, 0, 0⟩) := by
  have hlen : out.length = flow.length := by
    have hne : flow ≠ [] := by rintro rfl; obtain ⟨v, hv, _⟩ := hr.1.1; simp at hv
    obtain ⟨o, h1, h2, _⟩ := C42_flow flow hne he
    rw [ho, Except.ok.injEq] at h1
    rw [h1, h2]
  have first : ∀ (k : ℕ) (v : ℝ × ℝ), flow[k]? = some v → √(v.1 ^ 2 + v.2 ^ 2) = lo → out[k]? = some ⟨0, 0, 0⟩ := by
    intro k v hk hv
    have hne : flow ≠ [] := by rintro rfl; simp at hk
    obtain ⟨hl, hval⟩ := flowHsv_valid flow he
    obtain ⟨hkl, ek⟩ := List.getElem?_eq_some_iff.1 hk
    unfold opticalFlowToColor at ho
    rw [if_neg (by simpa using hne)] at ho
    have hkh : k < (flowHsv flow eps).length := by rw [hl]; exact hkl
    have hko : k < out.length := by rw [hlen]; exact hkl
    obtain ⟨⟨r0, g0, b0⟩, m, -⟩ := (C42_gamut _ _ ho).2 k hkh hko
    have hmin : minOf (flow.map fun f => √(f.1 ^ 2 + f.2 ^ 2)) = lo := by
      refine le_antisymm ?_ ?_
      · rw [← hv]
        exact minOf_le (List.mem_map_of_mem (f := fun f : ℝ × ℝ => √(f.1 ^ 2 + f.2 ^ 2)) (List.mem_of_getElem? hk))
      · obtain ⟨w, hw, ew⟩ := List.mem_map.1
          (minOf_mem (l := flow.map fun f => √(f.1 ^ 2 + f.2 ^ 2)) (by simpa using hne))
        rw [← ew]
        exact hr.1.2 ⟨w, hw, rfl⟩
    have hv0 : (flowHsv flow eps)[k].v = 0 := by
      unfold flowHsv
      simp only [List.getElem_zipWith, List.getElem_map, hmin, ek, hv, sub_self, zero_div]
    rw [hv0] at m
    rw [List.getElem?_eq_getElem hko]
    have e1 : out[k].r = 0 := le_antisymm (by rw [← m]; exact le_max_left _ _) r0.1
    have e2 : out[k].g = 0 := le_antisymm (by rw [← m]; exact (le_max_left _ _).trans (le_max_right _ _)) g0.1
    have e3 : out[k].b = 0 := le_antisymm (by rw [← m]; exact (le_max_right _ _).trans (le_max_right _ _)) b0.1
    congr 1
    have : out[k] = ⟨out[k].r, out[k].g, out[k].b⟩ := rfl
    rw [this, e1, e2, e3]
  refine ⟨first, fun h => ?_⟩
  rw [List.eq_replicate_iff]
  refine ⟨hlen, fun c hc => ?_⟩
  obtain ⟨k, hk, rfl⟩ := List.getElem_of_mem hc
  have hkl : k < flow.length := by rw [← hlen]; exact hk
  have := first k flow[k] (List.getElem?_eq_getElem hkl) (le_antisymm (by
    rw [h]; exact hr.2.2 ⟨_, List.getElem_mem hkl, rfl⟩) (hr.1.2 ⟨_, List.getElem_mem hkl, rfl⟩))
  rw [List.getElem?_eq_getElem hk] at this
  exact Option.some.inj this

/-! ### Non-trivial cases -/

/-- A dull green is visible and valid. -/
example : (⟨120, 1 / 2, 1 / 2⟩ : Hsv).Valid ∧ (⟨120, 1 / 2, 1 / 2⟩ : Hsv).Visible := by
  norm_num [Hsv.Valid, Hsv.Visible]

/-- The field of a camera that moves, and of one with an object. -/
example : Range [((1 : ℝ), 0), (1, 0)] 1 1 ∧ Range [((0 : ℝ), 0), (3, 4)] 0 5 := by
  have e : √((3 : ℝ) ^ 2 + 4 ^ 2) = 5 := by
    rw [show (3 : ℝ) ^ 2 + 4 ^ 2 = 5 ^ 2 by norm_num, Real.sqrt_sq (by norm_num)]
  constructor
  · constructor
    · exact ⟨⟨(1, 0), by simp, by simp⟩, by rintro m ⟨v, hv, rfl⟩; simp at hv; simp [hv]⟩
    · exact ⟨⟨(1, 0), by simp, by simp⟩, by rintro m ⟨v, hv, rfl⟩; simp at hv; simp [hv]⟩
  · constructor
    · exact ⟨⟨(0, 0), by simp, by simp⟩, by rintro m ⟨v, _, rfl⟩; exact Real.sqrt_nonneg _⟩
    · refine ⟨⟨(3, 4), by simp, e.symm⟩, ?_⟩
      rintro m ⟨v, hv, rfl⟩
      simp only [List.mem_cons, List.not_mem_nil, or_false] at hv
      rcases hv with rfl | rfl
      · simp
      · exact e.le

end Verif.Functional
