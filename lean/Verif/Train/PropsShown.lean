import Verif.Train.Shown
import Verif.Functional.PropsColor

/-!
**C137.** The images that the training scripts send to the logger: mosaics with the clips from top to bottom and time from
left to right, and grids.
-/

namespace Verif.Train.Shown

open Real
open Verif.Functional (Rgb opticalFlowToColor)

/-- Every picture of `rows` rows and `cols` columns of cells of size `h × w`: pixel `(y, x)` of the cell in row `r` and column
`i` has the value `cell r i ch y x`, cut to `[0, 1]`. -/
def IsMosaic (rows cols c h w : ℕ) (cell : ℕ → ℕ → ℕ → ℕ → ℕ → ℝ) (m : Image) : Prop :=
  m.c = c ∧ m.h = rows * h ∧ m.w = cols * w ∧
    ∀ r < rows, ∀ i < cols, ∀ ch < c, ∀ y < h, ∀ x < w,
      m.px ch (r * h + y) (i * w + x) = min 1 (max 0 (cell r i ch y x))

/-! ### Concatenation -/

/-- The sizes of a batch of images. -/
def Images.Sized (t : Images) (n c h w : ℕ) : Prop := t.n = n ∧ t.c = c ∧ t.h = h ∧ t.w = w

theorem catWidth_spec (n c h w : ℕ) : ∀ (l : List Images), l ≠ [] → (∀ t ∈ l, t.Sized n c h w) →
    ∃ m, catWidth l = .ok m ∧ m.Sized n c h (l.length * w) ∧
      ∀ i (hi : i < l.length) b ch y, ∀ x < w, m.px b ch y (i * w + x) = (l[i]).px b ch y x
  | [], hne, _ => absurd rfl hne
  | [a], _, hs => ⟨a, rfl, by
      obtain ⟨h1, h2, h3, h4⟩ := hs a (by simp)
      exact ⟨h1, h2, h3, by simp [h4]⟩, by
      intro i hi b ch y x _
      have : i = 0 := by simpa using hi
      subst this
      simp⟩
  | a :: a' :: l, _, hs => by
    obtain ⟨m, e, ⟨m1, m2, m3, m4⟩, hm⟩ := catWidth_spec n c h w (a' :: l) (by simp)
      (fun t ht => hs t (by simp at ht ⊢; tauto))
    obtain ⟨h1, h2, h3, h4⟩ := hs a (by simp)
    refine ⟨⟨n, c, h, w + (a' :: l).length * w, fun b ch y x =>
        if x < w then a.px b ch y x else m.px b ch y (x - w)⟩, ?_, ?_, ?_⟩
    · rw [catWidth, e]
      · simp only [bind, Except.bind]
        rw [if_pos ⟨h1.trans m1.symm, h2.trans m2.symm, h3.trans m3.symm⟩, h1, h2, h3, h4, m4]
      · simp
    · refine ⟨rfl, rfl, rfl, ?_⟩
      simp only [List.length_cons]
      ring
    · intro i hi b ch y x hx
      rcases i with _ | i
      · simp [hx]
      · have hi' : i < (a' :: l).length := by simpa using hi
        have : ¬ ((i + 1) * w + x < w) := by nlinarith
        simp only [this, if_false, List.getElem_cons_succ]
        rw [← hm i hi' b ch y x hx]
        congr 1
        have : (i + 1) * w = i * w + w := by ring
        omega

theorem catHeight_spec (c h w : ℕ) : ∀ (l : List Image), l ≠ [] → (∀ t ∈ l, t.c = c ∧ t.h = h ∧ t.w = w) →
    ∃ m, catHeight l = .ok m ∧ (m.c = c ∧ m.h = l.length * h ∧ m.w = w) ∧
      ∀ i (hi : i < l.length) ch, ∀ y < h, ∀ x, m.px ch (i * h + y) x = (l[i]).px ch y x
  | [], hne, _ => absurd rfl hne
  | [a], _, hs => ⟨a, rfl, by
      obtain ⟨h2, h3, h4⟩ := hs a (by simp)
      exact ⟨h2, by simp [h3], h4⟩, by
      intro i hi ch y _ x
      have : i = 0 := by simpa using hi
      subst this
      simp⟩
  | a :: a' :: l, _, hs => by
    obtain ⟨m, e, ⟨m2, m3, m4⟩, hm⟩ := catHeight_spec c h w (a' :: l) (by simp)
      (fun t ht => hs t (by simp at ht ⊢; tauto))
    obtain ⟨h2, h3, h4⟩ := hs a (by simp)
    refine ⟨⟨c, h + (a' :: l).length * h, w, fun ch y x =>
        if y < h then a.px ch y x else m.px ch (y - h) x⟩, ?_, ?_, ?_⟩
    · rw [catHeight, e]
      · simp only [bind, Except.bind]
        rw [if_pos ⟨h2.trans m2.symm, h4.trans m4.symm⟩, h2, h3, h4, m3]
      · simp
    · refine ⟨rfl, ?_, rfl⟩
      simp only [List.length_cons]
      ring
    · intro i hi ch y hy x
      rcases i with _ | i
      · simp [hy]
      · have hi' : i < (a' :: l).length := by simpa using hi
        have : ¬ ((i + 1) * h + y < h) := by nlinarith
        simp only [this, if_false, List.getElem_cons_succ]
        rw [← hm i hi' ch y hy x]
        congr 1
        have : (i + 1) * h = i * h + h := by ring
        omega

/-- The two concatenations: clip `r` of the images of time `i` is in row `r` and column `i`. -/
theorem joined_spec (n c h w : ℕ) (l : List Images) (hn : 0 < n) (hne : l ≠ []) (hs : ∀ t ∈ l, t.Sized n c h w) :
    ∃ wide m, catWidth l = .ok wide ∧ catHeight wide.toList = .ok m ∧ m.c = c ∧ m.h = n * h ∧ m.w = l.length * w ∧
      ∀ r < n, ∀ i (hi : i < l.length) ch, ∀ y < h, ∀ x < w,
        m.px ch (r * h + y) (i * w + x) = (l[i]).px r ch y x := by
  obtain ⟨wide, e1, ⟨w1, w2, w3, w4⟩, hw⟩ := catWidth_spec n c h w l hne hs
  have hl : wide.toList.length = n := by simp [Images.toList, w1]
  obtain ⟨m, e2, ⟨m1, m2, m3⟩, hm⟩ := catHeight_spec c h (l.length * w) wide.toList
    (by intro e; rw [e] at hl; simp at hl; omega)
    (by
      intro t ht
      obtain ⟨k, -, rfl⟩ := List.mem_map.1 ht
      exact ⟨w2, w3, w4⟩)
  refine ⟨wide, m, e1, e2, m1, by rw [m2, hl], m3, ?_⟩
  intro r hr i hi ch y hy x hx
  rw [hm r (by omega) ch y hy]
  simp only [Images.toList, List.getElem_map, List.getElem_range]
  exact hw i hi r ch y x hx

/-! ### The colours of the flow -/

/-- The lengths of the flow vectors of all clips and times. -/
def lengths (n cols h w : ℕ) (flow : ℕ → Images) : Set ℝ :=
  {s | ∃ r < n, ∃ i < cols, ∃ y < h, ∃ x < w,
    s = √((flow i).px r 0 y x ^ 2 + (flow i).px r 1 y x ^ 2)}

theorem clip01_eq (x : ℝ) : clip01 x = min 1 (max 0 x) := by
  unfold clip01
  rw [min_comm, max_comm]

theorem vectors_mem (m : Image) (v : ℝ × ℝ) :
    v ∈ vectors m ↔ ∃ y < m.h, ∃ x < m.w, v = (m.px 0 y x, m.px 1 y x) := by
  unfold vectors
  constructor
  · intro h
    obtain ⟨k, hk, rfl⟩ := List.mem_map.1 h
    rw [List.mem_range] at hk
    have hw : 0 < m.w := Nat.pos_of_ne_zero (by rintro e; rw [e] at hk; omega)
    exact ⟨k / m.w, Nat.div_lt_of_lt_mul (by rwa [mul_comm] at hk), k % m.w, Nat.mod_lt _ hw, rfl⟩
  · rintro ⟨y, hy, x, hx, rfl⟩
    refine List.mem_map.2 ⟨y * m.w + x, List.mem_range.2 ?_, ?_⟩
    · nlinarith
    · have e1 : (y * m.w + x) / m.w = y := by
        rw [mul_comm, Nat.mul_add_div (by omega), Nat.div_eq_of_lt hx, add_zero]
      have e2 : (y * m.w + x) % m.w = x := by
        rw [mul_comm, Nat.mul_add_mod, Nat.mod_eq_of_lt hx]
      rw [e1, e2]

theorem vectors_get (m : Image) {y x : ℕ} (hy : y < m.h) (hx : x < m.w) :
    (vectors m)[y * m.w + x]? = some (m.px 0 y x, m.px 1 y x) := by
  have e1 : (y * m.w + x) / m.w = y := by
    rw [mul_comm, Nat.mul_add_div (by omega), Nat.div_eq_of_lt hx, add_zero]
  have e2 : (y * m.w + x) % m.w = x := by
    rw [mul_comm, Nat.mul_add_mod, Nat.mod_eq_of_lt hx]
  unfold vectors
  rw [List.getElem?_map, List.getElem?_range (by nlinarith)]
  simp [e1, e2]

/-- One colour map for the whole mosaic. -/
theorem colour_spec (m : Image) (hc : 2 ≤ m.c) (hh : 0 < m.h) (hw : 0 < m.w) (lo hi : ℝ)
    (hlo : IsLeast {s | ∃ v ∈ vectors m, s = √(v.1 ^ 2 + v.2 ^ 2)} lo)
    (hhi : IsGreatest {s | ∃ v ∈ vectors m, s = √(v.1 ^ 2 + v.2 ^ 2)} hi) :
    ∃ o, colour m = .ok o ∧ o.c = 3 ∧ o.h = m.h ∧ o.w = m.w ∧
      (∀ ch < 3, ∀ y < m.h, ∀ x < m.w, 0 ≤ o.px ch y x ∧ o.px ch y x ≤ 1) ∧
      ∀ y < m.h, ∀ x < m.w, ∀ (r : ℝ), 0 < r → ∀ i < 6, ∀ (f : ℝ), 0 ≤ f → f < 1 →
        m.px 0 y x = r * sin (((i : ℕ) + f) * (π / 3)) → m.px 1 y x = r * cos ((i + f) * (π / 3)) →
        ∀ ch, o.px ch y x = channel (Verif.Functional.sectorRgb i f 1 ((r - lo) / (hi - lo + 1e-5))) ch := by
  have hne : vectors m ≠ [] := by
    intro e
    have := (vectors_mem m _).2 ⟨0, hh, 0, hw, rfl⟩
    rw [e] at this
    simp at this
  have heps : (0 : ℝ) < 1e-5 := by norm_num
  obtain ⟨out, ho, hlen, hr⟩ := Verif.Functional.C42_flow (vectors m) hne heps
  have hlen' : out.length = m.h * m.w := by rw [hlen]; simp [vectors]
  refine ⟨⟨3, m.h, m.w, fun ch y x => channelAt out (y * m.w + x) ch⟩, by simp only [colour, if_neg (show ¬ m.c < 2 by omega), ho], rfl, rfl, rfl, ?_, ?_⟩
  · intro ch hch y hy x hx
    have hk : y * m.w + x < out.length := by rw [hlen']; nlinarith
    simp only [channelAt, List.getElem?_eq_getElem hk, Option.map_some, Option.getD_some]
    have h := hr _ (List.getElem_mem hk)
    unfold channel
    obtain ⟨h1, h2, h3⟩ := h
    split_ifs <;> assumption
  · intro y hy x hx r hr' i hi' f f0 f1 e0 e1 ch
    have := Verif.Functional.C42_direction (vectors m) heps lo hi hlo hhi out ho (y * m.w + x) r hr' i hi' f f0 f1
      (by rw [vectors_get m hy hx, e0, e1])
    simp only [channelAt, this, Option.map_some, Option.getD_some]

/-! ### The callback of the deep video compression project -/

/-- What has been appended for the first `i` P-frames. -/
def collected (flow ref : ℕ → Images) (frame : ℕ → Images) (i : ℕ) : ImageDict := fun key =>
  if i = 0 then none else some ((List.range i).map fun j => match key with
    | .flow => flow j
    | .image1 => ref j
    | .image2 => frame (j + 1)
    | .image2Est => ref (j + 1))

theorem append_collected (flow ref frame : ℕ → Images) (i : ℕ) :
    appendImages (collected flow ref frame i) [some (flow i), some (ref i), some (frame (i + 1)), some (ref (i + 1))] =
      .ok (collected flow ref frame (i + 1)) := by
  simp only [appendImages, keys, List.zipIdx_cons, List.zipIdx_nil, List.foldlM_cons, List.foldlM_nil, bind, Except.bind,
    List.getElem?_cons_zero, List.getElem?_cons_succ, zero_add, Nat.reduceAdd, pure, Except.pure]
  congr 1
  funext key
  cases i with
  | zero => cases key <;> simp [ImageDict.append, collected]
  | succ i => cases key <;> simp [ImageDict.append, collected, List.range_succ]

theorem pframes_collected (stage : Images → Images → Except Err (Images × Images)) (b : Clips)
    (flow ref frame : ℕ → Images) (P : ℕ)
    (hf : ∀ i < P, b.frame (i + 1) = .ok (frame (i + 1)))
    (hs : ∀ i < P, stage (ref i) (frame (i + 1)) = .ok (flow i, ref (i + 1))) :
    ∀ k i, i + k = P → pframes stage b (List.range' i k) (ref i) (collected flow ref frame i) =
      .ok (collected flow ref frame P)
  | 0, i, e => by
    have : i = P := by omega
    subst this
    rfl
  | k + 1, i, e => by
    rw [List.range'_succ, pframes]
    simp only [bind, Except.bind]
    rw [hf i (by omega)]
    simp only
    rw [hs i (by omega)]
    simp only
    rw [append_collected]
    exact pframes_collected stage b flow ref frame P hf hs k (i + 1) (by omega)

/-- The mosaic of one of the three kinds of images. -/
theorem mosaic_plain (key : Key) (hk : key ≠ .flow) (n c h w P : ℕ) (hn : 0 < n) (hP : 0 < P) (im : ℕ → Images)
    (hs : ∀ i < P, (im i).Sized n c h w) :
    ∃ m, mosaic key ((List.range P).map im) = .ok m ∧ IsMosaic n P c h w (fun r i => (im i).px r) m := by
  obtain ⟨wide, m, e1, e2, m1, m2, m3, hm⟩ := joined_spec n c h w ((List.range P).map im) hn
    (by simp; omega) (by
      intro t ht
      obtain ⟨i, hi, rfl⟩ := List.mem_map.1 ht
      exact hs i (List.mem_range.1 hi))
  refine ⟨⟨m.c, m.h, m.w, fun ch y x => clip01 (m.px ch y x)⟩, ?_, m1, m2, ?_, ?_⟩
  · simp only [mosaic, e1, e2, bind, Except.bind, if_neg hk, pure, Except.pure]
  · simpa using m3
  · intro r hr i hi ch hch y hy x hx
    simp only
    rw [clip01_eq, hm r hr i (by simpa using hi) ch y hy x hx]
    simp

/-- The mosaic of the flow. -/
theorem mosaic_flow (n h w P : ℕ) (hn : 0 < n) (hP : 0 < P) (hh : 0 < h) (hw : 0 < w) (flow : ℕ → Images)
    (hs : ∀ i < P, (flow i).Sized n 2 h w) (lo hi : ℝ) (hlo : IsLeast (lengths n P h w flow) lo)
    (hhi : IsGreatest (lengths n P h w flow) hi) :
    ∃ m, mosaic .flow ((List.range P).map flow) = .ok m ∧ m.c = 3 ∧ m.h = n * h ∧ m.w = P * w ∧
      ∀ r < n, ∀ i < P, ∀ y < h, ∀ x < w, ∀ (s : ℝ), 0 < s → ∀ k < 6, ∀ (f : ℝ), 0 ≤ f → f < 1 →
        (flow i).px r 0 y x = s * sin (((k : ℕ) + f) * (π / 3)) → (flow i).px r 1 y x = s * cos ((k + f) * (π / 3)) →
        ∀ ch < 3, m.px ch (r * h + y) (i * w + x) =
          channel (Verif.Functional.sectorRgb k f 1 ((s - lo) / (hi - lo + 1e-5))) ch := by
  obtain ⟨wide, m, e1, e2, m1, m2, m3, hm⟩ := joined_spec n 2 h w ((List.range P).map flow) hn
    (by simp; omega) (by
      intro t ht
      obtain ⟨i, hi, rfl⟩ := List.mem_map.1 ht
      exact hs i (List.mem_range.1 hi))
  simp only [List.length_map, List.length_range, List.getElem_map, List.getElem_range] at m3 hm
  have hset : {s | ∃ v ∈ vectors m, s = √(v.1 ^ 2 + v.2 ^ 2)} = lengths n P h w flow := by
    ext s
    constructor
    · rintro ⟨v, hv, rfl⟩
      obtain ⟨y, hy, x, hx, rfl⟩ := (vectors_mem m v).1 hv
      rw [m2] at hy
      rw [m3] at hx
      have hr : y / h < n := Nat.div_lt_of_lt_mul (by rwa [mul_comm] at hy)
      have hi' : x / w < P := Nat.div_lt_of_lt_mul (by rwa [mul_comm] at hx)
      refine ⟨y / h, hr, x / w, hi', y % h, Nat.mod_lt _ hh, x % w, Nat.mod_lt _ hw, ?_⟩
      have g := fun ch => hm (y / h) hr (x / w) hi' ch (y % h) (Nat.mod_lt _ hh) (x % w) (Nat.mod_lt _ hw)
      have ey : y / h * h + y % h = y := by rw [mul_comm]; exact Nat.div_add_mod y h
      have ex : x / w * w + x % w = x := by rw [mul_comm]; exact Nat.div_add_mod x w
      rw [ey, ex] at g
      rw [← g 0, ← g 1]
    · rintro ⟨r, hr, i, hi', y, hy, x, hx, rfl⟩
      refine ⟨_, (vectors_mem m _).2 ⟨r * h + y, ?_, i * w + x, ?_, rfl⟩, ?_⟩
      · rw [m2]; nlinarith
      · rw [m3]; nlinarith
      · simp only [hm r hr i hi' _ y hy x hx]
  obtain ⟨o, eo, o1, o2, o3, hr01, hcol⟩ := colour_spec m (by omega) (by rw [m2]; positivity) (by rw [m3]; positivity) lo hi
    (by rw [hset]; exact hlo) (by rw [hset]; exact hhi)
  refine ⟨⟨o.c, o.h, o.w, fun ch y x => clip01 (o.px ch y x)⟩, ?_, o1, o2.trans m2, o3.trans m3, ?_⟩
  · simp only [mosaic, e1, e2, bind, Except.bind, if_pos, eo, pure, Except.pure]
  · intro r hr i hi' y hy x hx s hs' k hk f f0 f1 e0 e1' ch hch
    have hy' : r * h + y < m.h := by rw [m2]; nlinarith
    have hx' : i * w + x < m.w := by rw [m3]; nlinarith
    have := hcol (r * h + y) hy' (i * w + x) hx' s hs' k hk f f0 f1
      (by rw [hm r hr i hi' 0 y hy x hx, e0]) (by rw [hm r hr i hi' 1 y hy x hx, e1']) ch
    simp only
    rw [← this]
    obtain ⟨g0, g1⟩ := hr01 ch hch _ hy' _ hx'
    rw [clip01, max_eq_left g0, min_eq_left g1]

/-- **C137, mosaics.** After every validation of a training stage of deep video compression, four pictures are sent, with the
number of the step.  In three of them clip `r` is in row `r` and P-frame `i` in column `i`, values cut to `[0, 1]`: the
references, the frames to be coded and their estimates.  The first reference is the first frame as the pretrained model codes
it, and every later reference is the estimate of the frame before.  The fourth shows the flow by one colour map for all clips
and times: hue by direction, brightness by length, from the shortest to the longest vector of the whole picture. -/
theorem C137_mosaics (iframe : Images → Images) (stage : Images → Images → Except Err (Images × Images))
    (stageName : String) (P : ℕ) (b : Clips) (step : ℕ) (hP : 0 < P) (ht : P < b.t) (hn : 0 < b.n) (hh : 0 < b.h)
    (hw : 0 < b.w) (flow ref : ℕ → Images)
    (h0 : ref 0 = iframe ⟨b.n, b.c, b.h, b.w, fun n => b.px n 0⟩)
    (hrun : ∀ i < P, stage (ref i) ⟨b.n, b.c, b.h, b.w, fun n => b.px n (i + 1)⟩ = .ok (flow i, ref (i + 1)))
    (href : ∀ i ≤ P, (ref i).Sized b.n b.c b.h b.w) (hflow : ∀ i < P, (flow i).Sized b.n 2 b.h b.w) (lo hi : ℝ)
    (hlo : IsLeast (lengths b.n P b.h b.w flow) lo) (hhi : IsGreatest (lengths b.n P b.h b.w flow) hi) :
    ∃ shownFlow shown1 shown2 shownEst,
      dvcValidationEnd iframe stage stageName P b step = .ok
        [⟨"log_images_stage_" ++ stageName ++ "/" ++ "flow", shownFlow, step⟩,
          ⟨"log_images_stage_" ++ stageName ++ "/" ++ "image1", shown1, step⟩,
          ⟨"log_images_stage_" ++ stageName ++ "/" ++ "image2", shown2, step⟩,
          ⟨"log_images_stage_" ++ stageName ++ "/" ++ "image2_est", shownEst, step⟩] ∧
      IsMosaic b.n P b.c b.h b.w (fun r i => (ref i).px r) shown1 ∧
      IsMosaic b.n P b.c b.h b.w (fun r i => b.px r (i + 1)) shown2 ∧
      IsMosaic b.n P b.c b.h b.w (fun r i => (ref (i + 1)).px r) shownEst ∧
      shownFlow.c = 3 ∧ shownFlow.h = b.n * b.h ∧ shownFlow.w = P * b.w ∧
      ∀ r < b.n, ∀ i < P, ∀ y < b.h, ∀ x < b.w, ∀ (s : ℝ), 0 < s → ∀ k < 6, ∀ (f : ℝ), 0 ≤ f → f < 1 →
        (flow i).px r 0 y x = s * sin (((k : ℕ) + f) * (π / 3)) → (flow i).px r 1 y x = s * cos ((k + f) * (π / 3)) →
        let rgb := Verif.Functional.sectorRgb k f 1 ((s - lo) / (hi - lo + 1e-5))
        shownFlow.px 0 (r * b.h + y) (i * b.w + x) = rgb.r ∧ shownFlow.px 1 (r * b.h + y) (i * b.w + x) = rgb.g ∧
          shownFlow.px 2 (r * b.h + y) (i * b.w + x) = rgb.b := by
  obtain ⟨s1, s2, s3, s4⟩ := href 0 (by omega)
  obtain ⟨mf, ef, f1, f2, f3, hf⟩ := mosaic_flow b.n b.h b.w P hn hP hh hw flow hflow lo hi hlo hhi
  obtain ⟨m1, e1, hm1⟩ := mosaic_plain .image1 (by simp) b.n b.c b.h b.w P hn hP ref (fun i hi => href i (by omega))
  obtain ⟨m2, e2, hm2⟩ := mosaic_plain .image2 (by simp) b.n b.c b.h b.w P hn hP
    (fun i => ⟨b.n, b.c, b.h, b.w, fun n => b.px n (i + 1)⟩) (fun i _ => ⟨rfl, rfl, rfl, rfl⟩)
  obtain ⟨m3, e3, hm3⟩ := mosaic_plain .image2Est (by simp) b.n b.c b.h b.w P hn hP (fun i => ref (i + 1))
    (fun i hi => href (i + 1) (by omega))
  refine ⟨mf, m1, m2, m3, ?_, hm1, hm2, hm3, f1, f2, f3, ?_⟩
  rotate_left
  · intro r hr i hi' y hy x hx s hs k hk f f0 f1 e0 e1
    have := hf r hr i hi' y hy x hx s hs k hk f f0 f1 e0 e1
    exact ⟨this 0 (by norm_num), this 1 (by norm_num), this 2 (by norm_num)⟩
  have hpf := pframes_collected stage { b with px := fun n i => if i = 0 then (ref 0).px n else b.px n i } flow ref
    (fun i => ⟨b.n, b.c, b.h, b.w, fun n => b.px n i⟩) P
    (fun i hi => by simp [Clips.frame, show i + 1 < b.t by omega]) hrun P 0 (by omega)
  have hc0 : collected flow ref (fun i => ⟨b.n, b.c, b.h, b.w, fun n => b.px n i⟩) 0 = fun _ => none := rfl
  rw [hc0, ← List.range_eq_range'] at hpf
  have hfirst : (⟨b.n, b.c, b.h, b.w, fun n => (ref 0).px n⟩ : Images) = ref 0 := by
    rw [← s1, ← s2, ← s3, ← s4]
  have hci : compressIframe iframe b = .ok { b with px := fun n i => if i = 0 then (ref 0).px n else b.px n i } := by
    simp only [compressIframe, Clips.frame, if_pos (show 0 < b.t by omega), bind, Except.bind]
    rw [← h0, if_pos ⟨s1, s2, s3, s4⟩]
  have hfr : Clips.frame { b with px := fun n i => if i = 0 then (ref 0).px n else b.px n i } 0 = .ok (ref 0) := by
    simp only [Clips.frame, if_pos (show 0 < b.t by omega), if_true]
    rw [hfirst]
  simp only [dvcValidationEnd, hci, bind, Except.bind]
  rw [hfr]
  simp only [hpf]
  simp only [logImages, keys, List.foldlM_cons, List.foldlM_nil, collected, if_neg (show P ≠ 0 by omega), bind, Except.bind,
    ef, e1, e2, e3, pure, Except.pure, List.nil_append, List.cons_append, Key.name]

/-- **C137, no P-frames, too few frames.** Without P-frames nothing is sent; clips with fewer frames than P-frames are coded
raise `IndexError`, and nothing is sent. -/
theorem C137_frames (iframe : Images → Images) (stage : Images → Images → Except Err (Images × Images))
    (stageName : String) (b : Clips) (step : ℕ)
    (hi : ∀ t : Images, (iframe t).Sized t.n t.c t.h t.w) :
    (0 < b.t → dvcValidationEnd iframe stage stageName 0 b step = .ok []) ∧
      ∀ P, b.t ≤ P → (∀ s t : Images, ∃ r, stage s t = .ok r) →
        dvcValidationEnd iframe stage stageName P b step = .error .index := by
  have hci : 0 < b.t → ∃ b', compressIframe iframe b = .ok b' ∧ b'.t = b.t := by
    intro h
    obtain ⟨h1, h2, h3, h4⟩ := hi ⟨b.n, b.c, b.h, b.w, fun n => b.px n 0⟩
    refine ⟨{ b with px := fun n i =>
      if i = 0 then (iframe ⟨b.n, b.c, b.h, b.w, fun n => b.px n 0⟩).px n else b.px n i }, ?_, ?_⟩
    · simp only [compressIframe, Clips.frame, if_pos h, bind, Except.bind]
      rw [if_pos ⟨h1, h2, h3, h4⟩]
    · rfl
  constructor
  · intro h
    obtain ⟨b', e, ht⟩ := hci h
    simp only [dvcValidationEnd, e, bind, Except.bind, Clips.frame, if_pos (show 0 < b'.t by omega), List.range_zero, pframes,
      logImages, keys, List.foldlM_cons, List.foldlM_nil, pure, Except.pure]
  · intro P hP hs
    by_cases h : 0 < b.t
    · obtain ⟨b', e, ht⟩ := hci h
      have loop : ∀ k i image1 d, i + k = P → i < b'.t → pframes stage b' (List.range' i k) image1 d = .error .index := by
        intro k
        induction k with
        | zero => intro i _ _ h1 h2; omega
        | succ k ih =>
          intro i image1 d h1 h2
          rw [List.range'_succ, pframes]
          simp only [bind, Except.bind]
          by_cases hi' : i + 1 < b'.t
          · obtain ⟨⟨f, est⟩, es⟩ := hs image1 ⟨b'.n, b'.c, b'.h, b'.w, fun n => b'.px n (i + 1)⟩
            have ea : ∃ d', appendImages d [some f, some image1,
                some ⟨b'.n, b'.c, b'.h, b'.w, fun n => b'.px n (i + 1)⟩, some est] = .ok d' := by
              simp only [appendImages, keys, List.zipIdx_cons, List.zipIdx_nil, List.foldlM_cons, List.foldlM_nil, bind,
                Except.bind, List.getElem?_cons_zero, List.getElem?_cons_succ, zero_add, Nat.reduceAdd, pure, Except.pure]
              exact ⟨_, rfl⟩
            obtain ⟨d', ed⟩ := ea
            simp only [Clips.frame, if_pos hi', es, ed]
            exact ih (i + 1) est d' (by omega) hi'
          · simp only [Clips.frame, if_neg hi']
      simp only [dvcValidationEnd, e, bind, Except.bind, Clips.frame, if_pos (show 0 < b'.t by omega)]
      rw [List.range_eq_range', loop P 0 _ _ (by omega) (by omega)]
    · simp only [dvcValidationEnd, compressIframe, Clips.frame, if_neg h, bind, Except.bind]

/-! ### Grids -/

/-- The grid of `n` images of size `h × w` in `cols` columns, with a border of two zeros around every image: image `k` is in row
`k / cols` and column `k % cols`, there are as many rows as needed, and all other pixels are zero. -/
def IsGrid (cols n c h w : ℕ) (image : ℕ → ℕ → ℕ → ℕ → ℝ) (m : Image) : Prop :=
  ∃ rows, n ≤ rows * cols ∧ rows * cols < n + cols ∧
    m.c = c ∧ m.h = rows * (h + 2) + 2 ∧ m.w = cols * (w + 2) + 2 ∧
    (∀ k < n, ∀ ch < c, ∀ y < h, ∀ x < w,
      m.px ch (k / cols * (h + 2) + 2 + y) (k % cols * (w + 2) + 2 + x) = image k ch y x) ∧
    ∀ ch Y X, (∀ k < n, ∀ y < h, ∀ x < w, ¬ (Y = k / cols * (h + 2) + 2 + y ∧ X = k % cols * (w + 2) + 2 + x)) →
      m.px ch Y X = 0

theorem cells_eq (xmaps : ℕ) (hx : 0 < xmaps) : ∀ ymaps : ℕ,
    ((List.range ymaps).flatMap fun y => (List.range xmaps).map fun x => (y, x)) =
      (List.range (ymaps * xmaps)).map fun j => (j / xmaps, j % xmaps)
  | 0 => by simp
  | y + 1 => by
    rw [List.range_succ, List.flatMap_append, cells_eq xmaps hx y, Nat.succ_mul, List.range_add, List.map_append]
    congr 1
    rw [List.flatMap_cons, List.flatMap_nil, List.append_nil, List.map_map]
    apply List.map_congr_left
    intro x hxm
    have hxm := List.mem_range.1 hxm
    simp only [Function.comp, Prod.mk.injEq]
    constructor
    · rw [mul_comm, Nat.mul_add_div hx, Nat.div_eq_of_lt hxm, add_zero]
    · rw [mul_comm, Nat.mul_add_mod, Nat.mod_eq_of_lt hxm]

/-- A cell of the grid is determined by any of its rows. -/
theorem cell_unique {h r r' y : ℕ} (h1 : r * (h + 2) + 2 ≤ r' * (h + 2) + 2 + y) (h2 : r' * (h + 2) + 2 + y < r * (h + 2) + 2 + h)
    (hy : y < h) : r = r' := by
  rcases lt_trichotomy r r' with hl | hl | hl
  · have : (r + 1) * (h + 2) ≤ r' * (h + 2) := Nat.mul_le_mul_right _ hl
    nlinarith
  · exact hl
  · have : (r' + 1) * (h + 2) ≤ r * (h + 2) := Nat.mul_le_mul_right _ hl
    nlinarith

/-- The state of the loops after `j` cells. -/
theorem fill_inv (t : Images) (xmaps : ℕ) (hx : 0 < xmaps) : ∀ j : ℕ,
    let s := ((List.range j).map fun j => (j / xmaps, j % xmaps)).foldl (fillCell t) ⟨0, fun _ _ _ => 0⟩
    s.k = min j t.n ∧
    (∀ k < min j t.n, ∀ ch, ∀ y < t.h, ∀ x < t.w,
      s.px ch (k / xmaps * (t.h + 2) + 2 + y) (k % xmaps * (t.w + 2) + 2 + x) = t.px k ch y x) ∧
    ∀ ch Y X, (∀ k < min j t.n, ∀ y < t.h, ∀ x < t.w,
      ¬ (Y = k / xmaps * (t.h + 2) + 2 + y ∧ X = k % xmaps * (t.w + 2) + 2 + x)) → s.px ch Y X = 0
  | 0 => by simp
  | j + 1 => by
    obtain ⟨i1, i2, i3⟩ := fill_inv t xmaps hx j
    simp only [List.range_succ, List.map_append, List.map_cons, List.map_nil, List.foldl_append, List.foldl_cons,
      List.foldl_nil]
    set s := ((List.range j).map fun j => (j / xmaps, j % xmaps)).foldl (fillCell t) ⟨0, fun _ _ _ => 0⟩ with hs
    unfold fillCell
    by_cases hk : t.n ≤ s.k
    · rw [if_pos hk]
      have e : min (j + 1) t.n = min j t.n := by omega
      rw [e]
      exact ⟨i1, i2, i3⟩
    · rw [if_neg hk]
      have hj : j < t.n := by omega
      have hsk : s.k = j := by omega
      have e : min (j + 1) t.n = j + 1 := by omega
      have e' : min j t.n = j := by omega
      rw [e]
      rw [e'] at i2 i3
      simp only [padding, hsk]
      refine ⟨trivial, ?_, ?_⟩
      · intro k hk' ch y hy x hx'
        by_cases hkj : k = j
        · subst hkj
          rw [if_pos (by omega)]
          congr 1 <;> omega
        · rw [if_neg]
          · exact i2 k (by omega) ch y hy x hx'
          · rintro ⟨a1, a2, a3, a4⟩
            have q1 := cell_unique a1 a2 hy
            have q2 := cell_unique a3 a4 hx'
            apply hkj
            rw [← Nat.div_add_mod k xmaps, ← Nat.div_add_mod j xmaps, q1, q2]
      · intro ch Y X hno
        rw [if_neg]
        · exact i3 ch Y X fun k hk' => hno k (by omega)
        · rintro ⟨a1, a2, a3, a4⟩
          exact hno j (by omega) (Y - (j / xmaps * (t.h + 2) + 2)) (by omega) (X - (j % xmaps * (t.w + 2) + 2)) (by omega)
            (by omega)

/-- **C137, grids.** For every number of images from two on and every number of columns asked for, the grid shows each image once,
row by row, in as many columns as asked for or as there are images; grey images are shown in three channels.  One image is shown
without a border, and no images raise `ZeroDivisionError`. -/
theorem C137_grid (nrow : ℕ) (hr : 0 < nrow) (t : Images) :
    (2 ≤ t.n → ∃ m, makeGrid nrow t = .ok m ∧
      IsGrid (min nrow t.n) t.n (if t.c = 1 then 3 else t.c) t.h t.w
        (fun k ch => t.px k (if t.c = 1 then 0 else ch)) m) ∧
    (t.n = 1 → ∃ m, makeGrid nrow t = .ok m ∧ m.c = (if t.c = 1 then 3 else t.c) ∧ m.h = t.h ∧ m.w = t.w ∧
      ∀ ch, m.px ch = t.px 0 (if t.c = 1 then 0 else ch)) ∧
    (t.n = 0 → makeGrid nrow t = .error .zeroDivision) := by
  have main : ∀ t' : Images, 2 ≤ t'.n → ∀ ymaps, ymaps = (t'.n + min nrow t'.n - 1) / min nrow t'.n →
      IsGrid (min nrow t'.n) t'.n t'.c t'.h t'.w t'.px
        ⟨t'.c, (t'.h + padding) * ymaps + padding, (t'.w + padding) * min nrow t'.n + padding,
          (((List.range ymaps).flatMap fun y => (List.range (min nrow t'.n)).map fun x => (y, x)).foldl (fillCell t')
            ⟨0, fun _ _ _ => 0⟩).px⟩ := by
    intro t' hn ymaps hy
    set xmaps := min nrow t'.n with hxm
    have hx : 0 < xmaps := by omega
    have hy1 : t'.n ≤ ymaps * xmaps := by
      have h1 := Nat.lt_div_mul_add (a := t'.n + xmaps - 1) hx
      rw [← hy] at h1
      omega
    have hy2 : ymaps * xmaps < t'.n + xmaps := by
      have h1 := Nat.div_mul_le_self (t'.n + xmaps - 1) xmaps
      rw [← hy] at h1
      omega
    have hi := fill_inv t' xmaps hx (ymaps * xmaps)
    rw [← cells_eq xmaps hx ymaps] at hi
    obtain ⟨-, h2, h3⟩ := hi
    rw [min_eq_right hy1] at h2 h3
    exact ⟨ymaps, hy1, hy2, rfl, by simp [padding, mul_comm], by simp [padding, mul_comm],
      fun k hk ch _ y hy x hx => h2 k hk ch y hy x hx, h3⟩
  refine ⟨?_, ?_, ?_⟩
  · intro hn
    by_cases hc : t.c = 1
    · simp only [makeGrid, if_pos hc, if_neg (show t.n ≠ 1 by omega), if_neg (show min nrow t.n ≠ 0 by omega)]
      exact ⟨_, rfl, main { t with c := 3, px := fun n _ => t.px n 0 } hn _ rfl⟩
    · simp only [makeGrid, if_neg hc, if_neg (show t.n ≠ 1 by omega), if_neg (show min nrow t.n ≠ 0 by omega)]
      exact ⟨_, rfl, main t hn _ rfl⟩
  · intro hn
    by_cases hc : t.c = 1
    · simp only [makeGrid, if_pos hc, if_pos hn]
      exact ⟨_, rfl, rfl, rfl, rfl, fun _ => rfl⟩
    · simp only [makeGrid, if_neg hc, if_pos hn]
      exact ⟨_, rfl, rfl, rfl, rfl, fun _ => rfl⟩
  · intro hn
    by_cases hc : t.c = 1 <;> simp [makeGrid, hc, hn]

/-- A picture of `n` images: the grid, or the image itself if there is only one. -/
def Shows (nrow n c h w : ℕ) (image : ℕ → ℕ → ℕ → ℕ → ℝ) (m : Image) : Prop :=
  if n = 1 then m.c = c ∧ m.h = h ∧ m.w = w ∧ ∀ ch < c, ∀ y < h, ∀ x < w, m.px ch y x = image 0 ch y x
  else IsGrid (min nrow n) n c h w image m

theorem grid_shows (nrow : ℕ) (hr : 0 < nrow) (t : Images) (hn : 0 < t.n) (hc : t.c ≠ 1) :
    ∃ m, makeGrid nrow t = .ok m ∧ Shows nrow t.n t.c t.h t.w t.px m := by
  obtain ⟨g1, g2, -⟩ := C137_grid nrow hr t
  simp only [if_neg hc] at g1 g2
  by_cases h1 : t.n = 1
  · obtain ⟨m, e, m1, m2, m3, m4⟩ := g2 h1
    refine ⟨m, e, ?_⟩
    rw [Shows, if_pos h1]
    exact ⟨m1, m2, m3, fun ch _ y _ x _ => by rw [m4 ch]⟩
  · obtain ⟨m, e, hm⟩ := g1 (by omega)
    refine ⟨m, e, ?_⟩
    rw [Shows, if_neg h1]
    exact hm

/-- Pictures of the inputs and of the outputs cut to `[0, 1]`. -/
def Pair (nrow : ℕ) (input output : Images) (a b : Image) : Prop :=
  Shows nrow input.n input.c input.h input.w input.px a ∧
    Shows nrow output.n output.c output.h output.w (fun k ch y x => min 1 (max 0 (output.px k ch y x))) b

theorem illmBatch_pair (module : Images → Images) (batch : Images) (h1 : 0 < batch.n) (h2 : batch.c ≠ 1)
    (h3 : 0 < (module batch).n) (h4 : (module batch).c ≠ 1) :
    ∃ a b, illmBatch module batch = .ok [("image", a), ("image_compressed", b)] ∧ Pair 8 batch (module batch) a b := by
  obtain ⟨a, ea, ha⟩ := grid_shows 8 (by omega) batch h1 h2
  obtain ⟨b, eb, hb⟩ := grid_shows 8 (by omega) (clipped (module batch)) h3 h4
  refine ⟨a, b, by simp only [illmBatch, ea, eb, bind, Except.bind, pure, Except.pure], ha, ?_⟩
  have : (clipped (module batch)).px = fun k ch y x => min 1 (max 0 ((module batch).px k ch y x)) := by
    funext k ch y x
    exact clip01_eq _
  rw [this] at hb
  exact hb

/-- **C137, image codecs.** After every validation and every training epoch of an image codec four pictures are sent, with the
step: the stored training images, what the codec makes of them cut to `[0, 1]`, and the same for the stored evaluation images;
after a training epoch the codec is the one in training mode, with noise drawn for each of the two. -/
theorem C137_illm (module : Images → Images) (noisy : ℕ → Images → Images) (train eval : Images) (step : ℕ)
    (ht : 0 < train.n ∧ train.c ≠ 1) (he : 0 < eval.n ∧ eval.c ≠ 1)
    (hm : ∀ t, (module t).n = t.n ∧ (module t).c = t.c) (hm' : ∀ d t, (noisy d t).n = t.n ∧ (noisy d t).c = t.c) :
    (∃ a b c d, illmValidationEnd module train eval step = .ok
        [⟨"train_images/image", a, step⟩, ⟨"train_images/image_compressed", b, step⟩,
          ⟨"eval_images/image", c, step⟩, ⟨"eval_images/image_compressed", d, step⟩] ∧
      Pair 8 train (module train) a b ∧ Pair 8 eval (module eval) c d) ∧
    ∃ a b c d, illmTrainEnd noisy train eval step = .ok
        [⟨"model.training_train_images/image", a, step⟩, ⟨"model.training_train_images/image_compressed", b, step⟩,
          ⟨"model.training_eval_images/image", c, step⟩, ⟨"model.training_eval_images/image_compressed", d, step⟩] ∧
      Pair 8 train (noisy 0 train) a b ∧ Pair 8 eval (noisy 1 eval) c d := by
  constructor
  · obtain ⟨a, b, e1, h1⟩ := illmBatch_pair module train ht.1 ht.2 (by rw [(hm _).1]; exact ht.1) (by rw [(hm _).2]; exact ht.2)
    obtain ⟨c, d, e2, h2⟩ := illmBatch_pair module eval he.1 he.2 (by rw [(hm _).1]; exact he.1) (by rw [(hm _).2]; exact he.2)
    refine ⟨a, b, c, d, ?_, h1, h2⟩
    simp only [illmValidationEnd, e1, e2, bind, Except.bind, pure, Except.pure]
    rfl
  · obtain ⟨a, b, e1, h1⟩ := illmBatch_pair (noisy 0) train ht.1 ht.2 (by rw [(hm' _ _).1]; exact ht.1)
      (by rw [(hm' _ _).2]; exact ht.2)
    obtain ⟨c, d, e2, h2⟩ := illmBatch_pair (noisy 1) eval he.1 he.2 (by rw [(hm' _ _).1]; exact he.1)
      (by rw [(hm' _ _).2]; exact he.2)
    refine ⟨a, b, c, d, ?_, h1, h2⟩
    simp only [illmTrainEnd, e1, e2, bind, Except.bind, pure, Except.pure]
    rfl

/-- The frames of the first video of a batch. -/
def firstVideo (b : Clips) : Images := ⟨b.t, b.c, b.h, b.w, b.px 0⟩

theorem vctBatch_pair (module : Clips → Clips) (batch : Clips) (h0 : 0 < batch.n) (h1 : 0 < batch.t) (h2 : batch.c ≠ 1)
    (h0' : 0 < (module batch).n) (h3 : 0 < (module batch).t) (h4 : (module batch).c ≠ 1) :
    ∃ a b, vctBatch module batch = .ok [("image", a), ("image_compressed", b)] ∧
      Pair 7 (firstVideo batch) (firstVideo (module batch)) a b := by
  obtain ⟨a, ea, ha⟩ := grid_shows 7 (by omega) (firstVideo batch) h1 h2
  obtain ⟨b, eb, hb⟩ := grid_shows 7 (by omega) (clipped (firstVideo (module batch))) h3 h4
  have hn : batch.n ≠ 0 := by omega
  have hn' : (module batch).n ≠ 0 := by omega
  refine ⟨a, b, ?_, ha, ?_⟩
  · simp only [vctBatch, Clips.first, if_neg hn, if_neg hn', bind, Except.bind, pure, Except.pure]
    simp only [firstVideo, clipped] at ea eb
    simp only [ea, eb]
  · have : (clipped (firstVideo (module batch))).px =
        fun k ch y x => min 1 (max 0 ((firstVideo (module batch)).px k ch y x)) := by
      funext k ch y x
      exact clip01_eq _
    rw [this] at hb
    exact hb

/-- **C137, video codec.** After every validation of the video project four pictures are sent, with the step: the frames of the
first stored training video, the frames that the codec makes of it cut to `[0, 1]`, and the same for the first stored evaluation
video, in rows of seven. -/
theorem C137_vct (module : Clips → Clips) (train eval : Clips) (step : ℕ)
    (ht : 0 < train.n ∧ 0 < train.t ∧ train.c ≠ 1) (he : 0 < eval.n ∧ 0 < eval.t ∧ eval.c ≠ 1)
    (hm : ∀ b, (module b).n = b.n ∧ (module b).t = b.t ∧ (module b).c = b.c) :
    ∃ a b c d, vctValidationEnd module train eval step = .ok
        [⟨"train_images/image", a, step⟩, ⟨"train_images/image_compressed", b, step⟩,
          ⟨"eval_images/image", c, step⟩, ⟨"eval_images/image_compressed", d, step⟩] ∧
      Pair 7 (firstVideo train) (firstVideo (module train)) a b ∧
      Pair 7 (firstVideo eval) (firstVideo (module eval)) c d := by
  obtain ⟨a, b, e1, h1⟩ := vctBatch_pair module train ht.1 ht.2.1 ht.2.2 (by rw [(hm _).1]; exact ht.1)
    (by rw [(hm _).2.1]; exact ht.2.1) (by rw [(hm _).2.2]; exact ht.2.2)
  obtain ⟨c, d, e2, h2⟩ := vctBatch_pair module eval he.1 he.2.1 he.2.2 (by rw [(hm _).1]; exact he.1)
    (by rw [(hm _).2.1]; exact he.2.1) (by rw [(hm _).2.2]; exact he.2.2)
  refine ⟨a, b, c, d, ?_, h1, h2⟩
  simp only [vctValidationEnd, e1, e2, bind, Except.bind, pure, Except.pure]
  rfl

/-- C137: the video callback raises `IndexError` when the training batch, or what the model returns for it, has no video. -/
theorem C137_vct_empty (module : Clips → Clips) (train eval : Clips) (step : ℕ)
    (h : train.n = 0 ∨ (0 < train.n ∧ 0 < train.t ∧ (module train).n = 0)) :
    vctValidationEnd module train eval step = .error .index := by
  rcases h with h | ⟨h, ht, h'⟩
  · simp [vctValidationEnd, vctBatch, Clips.first, h, bind, Except.bind]
  · obtain ⟨m, hm⟩ : ∃ m, makeGrid 7 ⟨train.t, train.c, train.h, train.w, train.px 0⟩ = .ok m := by
      by_cases h1 : train.t = 1
      · obtain ⟨m, e, -⟩ := (C137_grid 7 (by norm_num) ⟨train.t, train.c, train.h, train.w, train.px 0⟩).2.1 h1
        exact ⟨m, e⟩
      · obtain ⟨m, e, -⟩ := (C137_grid 7 (by norm_num) ⟨train.t, train.c, train.h, train.w, train.px 0⟩).1
          (show 2 ≤ train.t by omega)
        exact ⟨m, e⟩
    have h0 : train.n ≠ 0 := by omega
    simp [vctValidationEnd, vctBatch, Clips.first, h0, h', hm, bind, Except.bind]

/-- Non-vacuity of `C137_vct_empty`: no video, and a model that drops the only video. -/
example : vctValidationEnd id ⟨0, 3, 3, 4, 4, fun _ _ _ _ _ => 1⟩ ⟨1, 3, 3, 4, 4, fun _ _ _ _ _ => 1⟩ 5 = .error .index ∧
    vctValidationEnd (fun b => { b with n := 0 }) ⟨1, 3, 3, 4, 4, fun _ _ _ _ _ => 1⟩ ⟨1, 3, 3, 4, 4, fun _ _ _ _ _ => 1⟩ 5 =
      .error .index :=
  ⟨C137_vct_empty _ _ _ _ (.inl rfl), C137_vct_empty _ _ _ _ (.inr ⟨by norm_num, by norm_num, rfl⟩)⟩

/-- C137: from any dictionary, a group of flow, image1, image2 and image2_est adds every tensor that is there at the end of the list of
its own key and leaves the key of a missing tensor as it was, without an exception; a shorter group raises `IndexError`. -/
theorem C137_append (d : ImageDict) :
    (∀ flow image1 image2 est : Option Images, ∃ d', appendImages d [flow, image1, image2, est] = .ok d' ∧
      ∀ p ∈ [(Key.flow, flow), (Key.image1, image1), (Key.image2, image2), (Key.image2Est, est)],
        (p.2 = none → d' p.1 = d p.1) ∧
          ∀ t, p.2 = some t → (d p.1 = none → d' p.1 = some [t]) ∧ ∀ l, d p.1 = some l → d' p.1 = some (l ++ [t])) ∧
    ∀ group : List (Option Images), group.length < 4 → appendImages d group = .error .index := by
  constructor
  · intro flow image1 image2 est
    rcases flow with _ | flow <;> rcases image1 with _ | image1 <;> rcases image2 with _ | image2 <;> rcases est with _ | est <;>
      refine ⟨_, rfl, ?_⟩ <;>
      simp +contextual [ImageDict.append]
  · intro group h
    rcases group with _ | ⟨a, _ | ⟨b, _ | ⟨c, _ | ⟨e, l⟩⟩⟩⟩
    · rfl
    · cases a <;> rfl
    · cases a <;> cases b <;> rfl
    · cases a <;> cases b <;> cases c <;> rfl
    · simp at h; omega

/-- Non-vacuity of `C137_append`: no flow, and an image for a key that has one. -/
example (t u : Images) : ∃ d', appendImages (fun k => if k = .image1 then some [t] else none) [none, some u, none, none] = .ok d' ∧
    d' .flow = none ∧ d' .image1 = some [t, u] := by
  obtain ⟨d', e, h⟩ := (C137_append (fun k => if k = .image1 then some [t] else none)).1 none (some u) none none
  exact ⟨d', e, by simpa using (h (.flow, none) (by simp)).1 rfl, ((h (.image1, some u) (by simp)).2 u rfl).2 [t] rfl⟩

/-! ### A concrete case -/

/-- One flow vector of length two along the second axis everywhere, except length one in clip 1. -/
noncomputable def exFlow : Images := ⟨2, 2, 1, 1, fun n c _ _ => if c = 0 then 0 else if n = 0 then 2 else 1⟩

/-- Non-vacuity of `C137_mosaics`: two clips of three frames of one grey pixel, two P-frames; every estimate is the reference plus
`1 / 4`.  The longest vector, which points along the second axis, is red. -/
example : ∃ shownFlow shown1 shown2 shownEst,
    dvcValidationEnd (fun t => t) (fun s _ => .ok (exFlow, { s with px := fun n c y x => s.px n c y x + 1 / 4 })) "1" 2
        ⟨2, 3, 1, 1, 1, fun n i _ _ _ => (n + i : ℝ) / 8⟩ 10 = .ok
      [⟨"log_images_stage_" ++ "1" ++ "/" ++ "flow", shownFlow, 10⟩, ⟨"log_images_stage_" ++ "1" ++ "/" ++ "image1", shown1, 10⟩,
        ⟨"log_images_stage_" ++ "1" ++ "/" ++ "image2", shown2, 10⟩,
        ⟨"log_images_stage_" ++ "1" ++ "/" ++ "image2_est", shownEst, 10⟩] ∧
    shown1.px 0 1 1 = 3 / 8 ∧ shown2.px 0 1 1 = 3 / 8 ∧ shownEst.px 0 1 1 = 5 / 8 ∧
    shownFlow.px 0 0 1 = 1 / (1 + 1e-5) ∧ shownFlow.px 1 0 1 = 0 := by
  obtain ⟨sf, s1, s2, s3, e, h1, h2, h3, -, -, -, hf⟩ := C137_mosaics (fun t => t)
    (fun s _ => .ok (exFlow, { s with px := fun n c y x => s.px n c y x + 1 / 4 })) "1" 2
    ⟨2, 3, 1, 1, 1, fun n i _ _ _ => (n + i : ℝ) / 8⟩ 10 (by norm_num) (by norm_num) (by norm_num) (by norm_num) (by norm_num)
    (fun _ => exFlow) (fun i => ⟨2, 1, 1, 1, fun n _ _ _ => (n : ℝ) / 8 + i * (1 / 4)⟩)
    (by simp) (by
      intro i _
      simp only [Except.ok.injEq, Prod.mk.injEq, true_and, Images.mk.injEq]
      funext n c y x
      push_cast
      ring)
    (fun i _ => ⟨rfl, rfl, rfl, rfl⟩) (fun i _ => ⟨rfl, rfl, rfl, rfl⟩) 1 2
    (by
      constructor
      · exact ⟨1, by norm_num, 0, by norm_num, 0, by norm_num, 0, by norm_num, by simp [exFlow]⟩
      · rintro s ⟨r, hr, i, -, y, -, x, -, rfl⟩
        simp only at hr
        have : r = 0 ∨ r = 1 := by omega
        rcases this with rfl | rfl <;> simp [exFlow])
    (by
      constructor
      · exact ⟨0, by norm_num, 0, by norm_num, 0, by norm_num, 0, by norm_num, by simp [exFlow]⟩
      · rintro s ⟨r, hr, i, -, y, -, x, -, rfl⟩
        simp only at hr
        have : r = 0 ∨ r = 1 := by omega
        rcases this with rfl | rfl <;> simp [exFlow])
  refine ⟨sf, s1, s2, s3, e, ?_, ?_, ?_, ?_, ?_⟩
  · have := h1.2.2.2 1 (by norm_num) 1 (by norm_num) 0 (by norm_num) 0 (by norm_num) 0 (by norm_num)
    norm_num at this
    exact this
  · have := h2.2.2.2 1 (by norm_num) 1 (by norm_num) 0 (by norm_num) 0 (by norm_num) 0 (by norm_num)
    norm_num at this
    exact this
  · have := h3.2.2.2 1 (by norm_num) 1 (by norm_num) 0 (by norm_num) 0 (by norm_num) 0 (by norm_num)
    norm_num at this
    exact this
  all_goals
    have := hf 0 (by norm_num) 1 (by norm_num) 0 (by norm_num) 0 (by norm_num) 2 (by norm_num) 0 (by norm_num) 0 le_rfl
      (by norm_num) (by simp [exFlow]) (by simp [exFlow])
  · have := this.1
    simp only [zero_mul, zero_add, one_mul] at this
    rw [this]
    norm_num [Verif.Functional.sectorRgb]
  · have := this.2.1
    simp only [zero_mul, zero_add, one_mul] at this
    rw [this]
    norm_num [Verif.Functional.sectorRgb]

/-- Non-vacuity of `C137_grid`: nine images of one pixel in rows of seven: the ninth is in the second row and the second
column. -/
example : ∃ m, makeGrid 7 ⟨9, 3, 1, 1, fun k _ _ _ => k + 1⟩ = .ok m ∧ m.h = 8 ∧ m.w = 23 ∧ m.px 0 5 5 = 9 ∧
    m.px 0 5 8 = 0 := by
  obtain ⟨m, e, rows, r1, r2, -, hh, hw, hp, hz⟩ := (C137_grid 7 (by norm_num) ⟨9, 3, 1, 1, fun k _ _ _ => k + 1⟩).1 (by norm_num)
  simp only [show min 7 9 = 7 by norm_num] at *
  have : rows = 2 := by omega
  subst this
  refine ⟨m, e, by omega, by omega, ?_, ?_⟩
  · have := hp 8 (by norm_num) 0 (by norm_num) 0 (by norm_num) 0 (by norm_num)
    norm_num at this
    exact this
  · apply hz
    intro k hk y hy x hx
    interval_cases k <;> omega

end Verif.Train.Shown
