import Verif.Data.Images
import Verif.Data.PropsClips

/-!
C116: the images of the data module of the image project.
-/

namespace Verif.Data.Images

open Verif.Data.Clips

variable {α : Type}

/-! ### Specification -/

/-- `f` continues a line of length `n` by mirror images on both sides, not repeating the ends. -/
def Mirrors (n : ℕ) (f : ℤ → ℕ) : Prop :=
  (∀ i : ℕ, i < n → f i = i) ∧ (∀ i : ℤ, f (-i) = f i) ∧ ∀ i : ℤ, f (2 * ((n : ℤ) - 1) - i) = f i

theorem reflect_mirrors (n : ℕ) (hn : 0 < n) : Mirrors n (reflect n) := by
  rcases Nat.lt_or_ge 1 n with h1 | h1
  · have h1' : n ≠ 1 := by omega
    have hp : (0 : ℤ) < 2 * ((n : ℤ) - 1) := by omega
    have neg : ∀ i : ℤ, reflect n (-i) = reflect n i := by
      intro i
      unfold reflect
      dsimp only
      rw [if_neg h1', if_neg h1']
      have a1 := Int.emod_nonneg i hp.ne'
      have a2 := Int.emod_lt_of_pos i hp
      by_cases h0 : i % (2 * ((n : ℤ) - 1)) = 0
      · rw [Int.neg_emod_eq_sub_emod] 
        have : (2 * ((n : ℤ) - 1) - i) % (2 * ((n : ℤ) - 1)) = 0 := by
          rw [Int.sub_emod, h0]; simp
        rw [this, h0]
      · have : (-i) % (2 * ((n : ℤ) - 1)) = 2 * ((n : ℤ) - 1) - i % (2 * ((n : ℤ) - 1)) := by
          rw [Int.neg_emod, if_neg (fun hd => h0 (Int.emod_eq_zero_of_dvd hd))]
          rw [Int.natAbs_of_nonneg hp.le]
        rw [this]
        generalize i % (2 * ((n : ℤ) - 1)) = r at *
        split_ifs <;> omega
    refine ⟨fun i hi => ?_, neg, fun i => ?_⟩
    · unfold reflect
      dsimp only
      rw [if_neg h1', Int.emod_eq_of_lt (by omega) (by omega), if_pos (by omega)]
      omega
    · rw [← neg i]
      unfold reflect
      have : (2 * ((n : ℤ) - 1) - i) % (2 * ((n : ℤ) - 1)) = (-i) % (2 * ((n : ℤ) - 1)) := by
        rw [sub_eq_add_neg, Int.add_emod_left]
      rw [this]
  · have : n = 1 := by omega
    subst this
    refine ⟨fun i hi => ?_, fun i => rfl, fun i => rfl⟩
    have : i = 0 := by omega
    rw [this]; rfl

/-! ### Random crops -/

/-- The row before padding. -/
def sourceR (N n p : ℕ) : ℕ := if N < n then reflect N ((p : ℤ) - ((n - N : ℕ) : ℤ)) else p

/-- Both paddings. -/
def padBothR (th tw : ℕ) (v : Clip α) : Clip α :=
  let v := if v.w < tw then padReflect (tw - v.w) 0 v else v
  if v.h < th then padReflect 0 (th - v.h) v else v

theorem padBothR_spec (th tw : ℕ) (v : Clip α) : (padBothR th tw v).t = v.t ∧ (padBothR th tw v).c = v.c ∧
    (padBothR th tw v).h = paddedLen v.h th ∧ (padBothR th tw v).w = paddedLen v.w tw ∧
    ∀ k c y x, y < paddedLen v.h th → x < paddedLen v.w tw →
      (padBothR th tw v).px k c y x = v.px k c (sourceR v.h th y) (sourceR v.w tw x) := by
  unfold padBothR paddedLen sourceR padReflect
  dsimp only
  by_cases h1 : v.w < tw <;> by_cases h2 : v.h < th
  · have e1 : ¬ tw - v.w = 0 := by omega
    have e2 : ¬ th - v.h = 0 := by omega
    rw [if_pos h1]
    dsimp only
    rw [if_pos (by simpa using h2)]
    simp only [if_pos h1, if_pos h2, if_neg e1, Nat.mul_zero, Nat.add_zero, if_neg e2, if_true]
    simp
  · have e1 : ¬ tw - v.w = 0 := by omega
    rw [if_pos h1]
    dsimp only
    rw [if_neg (by simpa using h2)]
    simp only [if_pos h1, if_neg h2, if_neg e1, Nat.mul_zero, Nat.add_zero, if_true]
    simp
  · have e2 : ¬ th - v.h = 0 := by omega
    rw [if_neg h1, if_pos h2]
    simp only [if_neg h1, if_pos h2, Nat.mul_zero, Nat.add_zero, if_neg e2, if_true]
    simp
  · rw [if_neg h1, if_neg h2]
    simp only [if_neg h1, if_neg h2]
    simp

theorem sourceR_spec (N n i : ℕ) (hN : 0 < N) : ∃ d : ℤ, Inside N n d ∧ ∀ y, y < n →
    y + i % (paddedLen N n - n + 1) < paddedLen N n ∧
      sourceR N n (y + i % (paddedLen N n - n + 1)) = reflect N (y + d) := by
  have hm := Nat.mod_lt i (show 0 < paddedLen N n - n + 1 by omega)
  generalize i % (paddedLen N n - n + 1) = r at hm ⊢
  unfold paddedLen at hm ⊢
  unfold sourceR Inside
  by_cases h : N < n
  · simp only [if_pos h] at hm ⊢
    refine ⟨(r : ℤ) - (n - N : ℕ), by omega, fun y hy => ⟨by omega, ?_⟩⟩
    congr 1
    push_cast
    ring
  · simp only [if_neg h] at hm ⊢
    refine ⟨(r : ℤ), by omega, fun y hy => ⟨by omega, ?_⟩⟩
    have := (reflect_mirrors N hN).1 (y + r) (by omega)
    push_cast at this
    exact this.symm

theorem randomCrop_eq (zero : α) (th tw i j : ℕ) (v : Clip α) : randomCrop zero (th, tw) i j v =
    crop zero (i % ((padBothR th tw v).h - th + 1)) (j % ((padBothR th tw v).w - tw + 1)) th tw (padBothR th tw v) := by
  change (if (padBothR th tw v).w = tw ∧ (padBothR th tw v).h = th then crop zero 0 0 th tw (padBothR th tw v) else _) = _
  by_cases h : (padBothR th tw v).w = tw ∧ (padBothR th tw v).h = th
  · rw [if_pos h]
    have e1 : (padBothR th tw v).h - th + 1 = 1 := by omega
    have e2 : (padBothR th tw v).w - tw + 1 = 1 := by omega
    rw [e1, e2, Nat.mod_one, Nat.mod_one]
  · rw [if_neg h]
    rfl

theorem randomCrop_spec (zero : α) (th tw i j : ℕ) (v : Clip α) (hh : 0 < v.h) (hw : 0 < v.w) :
    (randomCrop zero (th, tw) i j v).t = v.t ∧ (randomCrop zero (th, tw) i j v).c = v.c ∧
    (randomCrop zero (th, tw) i j v).h = th ∧ (randomCrop zero (th, tw) i j v).w = tw ∧
    ∃ dy dx : ℤ, Inside v.h th dy ∧ Inside v.w tw dx ∧ ∀ k c y x, y < th → x < tw →
      (randomCrop zero (th, tw) i j v).px k c y x = v.px k c (reflect v.h (y + dy)) (reflect v.w (x + dx)) := by
  rw [randomCrop_eq]
  obtain ⟨p1, p2, p3, p4, p5⟩ := padBothR_spec th tw v
  refine ⟨p1, p2, rfl, rfl, ?_⟩
  obtain ⟨dy, hdy, ey⟩ := sourceR_spec v.h th i hh
  obtain ⟨dx, hdx, ex⟩ := sourceR_spec v.w tw j hw
  refine ⟨dy, dx, hdy, hdx, fun k c y x hy hx => ?_⟩
  unfold crop
  dsimp only
  rw [p3, p4]
  obtain ⟨a1, a2⟩ := ey y hy
  obtain ⟨b1, b2⟩ := ex x hx
  rw [if_pos ⟨a1, b1⟩, p5 k c _ _ a1 b1, a2, b2]

/-- **C116, training.** For every batch of images with the same number of channels, of any sizes, and all random draws, a
training batch is delivered: one row for every image, in order, with all channels and the size asked for. Every row is one
window of the image, mirrored or not: either cut out, where an image too small is continued by its mirror images, or a
window inside the image that is interpolated. -/
theorem C116_train (zero : α) (interp : ℕ → ℕ → (ℕ → ℕ → α) → ℕ → ℕ → α) (s : Size) (th tw : ℕ)
    (hs : s = .int th ∧ th = tw ∨ s = .seq [th] ∧ th = tw ∨ s = .seq [th, tw])
    (drawn : List (Draw × Clip α)) (hne : drawn ≠ []) (t c : ℕ)
    (hi : ∀ p ∈ drawn, p.2.t = t ∧ p.2.c = c ∧ 0 < p.2.h ∧ 0 < p.2.w) :
    ∃ rows, trainBatch zero interp s drawn = .ok rows ∧ List.Forall₂ (fun (p : Draw × Clip α) row =>
      row.t = t ∧ row.c = c ∧ row.h = th ∧ row.w = tw ∧
      ((∃ dy dx : ℤ, ∃ rows cols : ℤ → ℕ, Inside p.2.h th dy ∧ Inside p.2.w tw dx ∧ Mirrors p.2.h rows ∧
          Mirrors p.2.w cols ∧ ∀ k ch y x, y < th → x < tw → row.px k ch y x =
            p.2.px k ch (rows (y + dy)) (cols (mirrored p.1.flip tw x + dx))) ∨
        ∃ top left h w : ℕ, 0 < h ∧ 0 < w ∧ top + h ≤ p.2.h ∧ left + w ≤ p.2.w ∧ ∃ cut : ℕ → ℕ → ℕ → ℕ → α,
          (∀ k ch y x, y < h → x < w → cut k ch y x = p.2.px k ch (top + y) (left + x)) ∧
          ∀ k ch y x, y < th → x < tw → row.px k ch y x = interp h w (cut k ch) y (mirrored p.1.flip tw x)))
      drawn rows := by
  have key : ∀ p ∈ drawn, (fun row : Clip α =>
      row.t = t ∧ row.c = c ∧ row.h = th ∧ row.w = tw ∧
      ((∃ dy dx : ℤ, ∃ rows cols : ℤ → ℕ, Inside p.2.h th dy ∧ Inside p.2.w tw dx ∧ Mirrors p.2.h rows ∧
          Mirrors p.2.w cols ∧ ∀ k ch y x, y < th → x < tw → row.px k ch y x =
            p.2.px k ch (rows (y + dy)) (cols (mirrored p.1.flip tw x + dx))) ∨
        ∃ top left h w : ℕ, 0 < h ∧ 0 < w ∧ top + h ≤ p.2.h ∧ left + w ≤ p.2.w ∧ ∃ cut : ℕ → ℕ → ℕ → ℕ → α,
          (∀ k ch y x, y < h → x < w → cut k ch y x = p.2.px k ch (top + y) (left + x)) ∧
          ∀ k ch y x, y < th → x < tw → row.px k ch y x = interp h w (cut k ch) y (mirrored p.1.flip tw x)))
      (trainTransform zero interp (th, tw) p.1 p.2) := by
    rintro ⟨d, v⟩ hp
    obtain ⟨h1, h2, h3, h4⟩ := hi _ hp
    dsimp only at h1 h2 h3 h4 ⊢
    unfold trainTransform
    dsimp only
    obtain ⟨plain, i, j, attempts, flip⟩ := d
    dsimp only
    cases plain
    · rw [if_neg Bool.false_ne_true]
      obtain ⟨w1, w2, w3, w4⟩ := resizedWindow_spec v.h v.w h3 h4 attempts
      generalize hwin : resizedWindow v.h v.w attempts = win at w1 w2 w3 w4
      obtain ⟨top, left, h, w⟩ := win
      have e : resizedCrop zero interp (th, tw) attempts v =
          { t := v.t, c := v.c, h := th, w := tw,
            px := fun k ch => interp h w ((crop zero top left h w v).px k ch) } := by
        unfold resizedCrop
        rw [hwin]
        rfl
      rw [e]
      dsimp only at w1 w2 w3 w4
      have cutEq : ∀ k ch y x, y < h → x < w → (crop zero top left h w v).px k ch y x = v.px k ch (top + y) (left + x) := by
        intro k ch y x hy hx
        unfold crop
        dsimp only
        rw [if_pos (by omega), Nat.add_comm y, Nat.add_comm x]
      cases flip
      · rw [if_neg Bool.false_ne_true]
        exact ⟨h1, h2, rfl, rfl, Or.inr ⟨top, left, h, w, w1, w2, w3, w4, _, cutEq, fun k ch y x _ _ => rfl⟩⟩
      · rw [if_pos rfl]
        exact ⟨h1, h2, rfl, rfl, Or.inr ⟨top, left, h, w, w1, w2, w3, w4, _, cutEq, fun k ch y x _ _ => rfl⟩⟩
    · rw [if_pos rfl]
      obtain ⟨r1, r2, r3, r4, dy, dx, hdy, hdx, r5⟩ := randomCrop_spec zero th tw i j v h3 h4
      cases flip
      · rw [if_neg Bool.false_ne_true]
        exact ⟨r1.trans h1, r2.trans h2, r3, r4, Or.inl ⟨dy, dx, _, _, hdy, hdx, reflect_mirrors _ h3, reflect_mirrors _ h4, r5⟩⟩
      · rw [if_pos rfl]
        refine ⟨r1.trans h1, r2.trans h2, r3, r4, Or.inl ⟨dy, dx, _, _, hdy, hdx, reflect_mirrors _ h3, reflect_mirrors _ h4,
          fun k ch y x hy hx => ?_⟩⟩
        unfold hflip
        dsimp only
        rw [r4, r5 k ch y _ hy (by omega)]
        rfl
  refine ⟨drawn.map fun p => trainTransform zero interp (th, tw) p.1 p.2, ?_, ?_⟩
  · unfold trainBatch
    rw [setupSize_ok s th tw hs]
    refine collate_ok _ (by simpa using hne) t c th tw ?_
    intro v hv
    obtain ⟨p, hp, rfl⟩ := List.mem_map.1 hv
    obtain ⟨k1, k2, k3, k4, _⟩ := key p hp
    exact ⟨k1, k2, k3, k4⟩
  · rw [List.forall₂_map_right_iff]
    exact List.forall₂_same.2 key

/-! ### Validation -/

/-- A size `h' × w'` has the proportions of `h × w`: one factor for both sides, up to cutting off a fraction of a pixel. -/
def Proportional (h w h' w' : ℕ) : Prop := ∃ f : ℚ, 0 < f ∧ (h' : ℚ) ≤ f * h ∧ f * h < h' + 1 ∧ (w' : ℚ) ≤ f * w ∧ f * w < w' + 1

theorem valBatch_spec (zero : α) (scale : ℕ → ℕ → ℕ → ℕ → (ℕ → ℕ → α) → ℕ → ℕ → α) (s : Size) (th tw : ℕ)
    (hs : setupSize s = .ok (th, tw)) (r : Clip α → ℕ × ℕ) (hr : ∀ v, resizedSize s v.h v.w = .ok (r v))
    (images : List (Clip α)) (hne : images ≠ []) (t c : ℕ) (hi : ∀ v ∈ images, v.t = t ∧ v.c = c) :
    ∃ rows, valBatch zero scale s images = .ok rows ∧ List.Forall₂ (fun v row =>
      row.t = t ∧ row.c = c ∧ row.h = th ∧ row.w = tw ∧
      ∀ k ch y x, y < th → x < tw → row.px k ch y x =
        if 0 ≤ (y : ℤ) + offset (r v).1 th ∧ y + offset (r v).1 th < (r v).1 ∧ 0 ≤ (x : ℤ) + offset (r v).2 tw ∧
          x + offset (r v).2 tw < (r v).2 then
        scale v.h v.w (r v).1 (r v).2 (v.px k ch) ((y : ℤ) + offset (r v).1 th).toNat ((x : ℤ) + offset (r v).2 tw).toNat
        else zero) images rows := by
  let g : Clip α → Clip α := fun v => centerCrop zero (th, tw)
    { v with h := (r v).1, w := (r v).2, px := fun k c => scale v.h v.w (r v).1 (r v).2 (v.px k c) }
  have hg : ∀ v, valTransform zero scale s v = .ok (g v) := fun v => by
    unfold valTransform resize
    rw [hr, hs]
    rfl
  have hm : ∀ l : List (Clip α), l.mapM (valTransform zero scale s) = (Except.ok (l.map g) : Except Err _) := by
    intro l
    induction l with
    | nil => rfl
    | cons v l ih => rw [List.mapM_cons, hg, ih]; rfl
  refine ⟨images.map g, ?_, ?_⟩
  · unfold valBatch
    rw [hm]
    refine collate_ok _ (by simpa using hne) t c th tw ?_
    intro v hv
    obtain ⟨p, hp, rfl⟩ := List.mem_map.1 hv
    obtain ⟨k1, k2, k3, k4, _⟩ := centerCrop_spec zero th tw
      { p with h := (r p).1, w := (r p).2, px := fun k c => scale p.h p.w (r p).1 (r p).2 (p.px k c) }
    exact ⟨k1.trans (hi p hp).1, k2.trans (hi p hp).2, k3, k4⟩
  · rw [List.forall₂_map_right_iff]
    refine List.forall₂_same.2 fun p hp => ?_
    obtain ⟨k1, k2, k3, k4, k5⟩ := centerCrop_spec zero th tw
      { p with h := (r p).1, w := (r p).2, px := fun k c => scale p.h p.w (r p).1 (r p).2 (p.px k c) }
    exact ⟨k1.trans (hi p hp).1, k2.trans (hi p hp).2, k3, k4, k5⟩

theorem inside_pos (N n y : ℕ) (h : n ≤ N) (hy : y < n) : 0 ≤ (y : ℤ) + offset N n ∧ y + offset N n < N := by
  obtain ⟨h1, -⟩ := (offset_spec N n).2
  have := h1 h
  omega

theorem longSide (n short long : ℕ) (hs : 0 < short) (hl : short ≤ long) (hn : 0 < n) : n ≤ n * long / short ∧
    ∃ f : ℚ, 0 < f ∧ ((n : ℚ) = f * short) ∧ ((n * long / short : ℕ) : ℚ) ≤ f * long ∧ f * long < ((n * long / short : ℕ) : ℚ) + 1 := by
  have hsq : (0 : ℚ) < short := by exact_mod_cast hs
  have hnq : (0 : ℚ) < n := by exact_mod_cast hn
  constructor
  · rw [Nat.le_div_iff_mul_le hs]
    exact Nat.mul_le_mul_left n hl
  · refine ⟨(n : ℚ) / short, div_pos hnq hsq, by field_simp, ?_, ?_⟩
    · have : n * long / short * short ≤ n * long := Nat.div_mul_le_self _ _
      have h2 : ((n * long / short : ℕ) : ℚ) * short ≤ n * long := by exact_mod_cast this
      rw [div_mul_eq_mul_div, le_div_iff₀ hsq]
      exact h2
    · have : n * long < (n * long / short + 1) * short := by
        have h1 := Nat.div_add_mod (n * long) short
        have h2 := Nat.mod_lt (n * long) hs
        have h3 : (n * long / short + 1) * short = short * (n * long / short) + short := by ring
        omega
      have h2 : (n : ℚ) * long < (((n * long / short : ℕ) : ℚ) + 1) * short := by exact_mod_cast this
      rw [div_mul_eq_mul_div, div_lt_iff₀ hsq]
      exact h2

/-- **C116, validation with one number.** Every batch of images of any sizes is delivered, one row for every image, in order,
as squares of the size asked for: the centre of the image scaled in its proportions such that the square just fits; no
padding is ever seen. -/
theorem C116_val_partial (zero : α) (scale : ℕ → ℕ → ℕ → ℕ → (ℕ → ℕ → α) → ℕ → ℕ → α) (s : Size) (n : ℕ) (hn : 0 < n)
    (hs : s = .int n ∨ s = .seq [n]) (images : List (Clip α)) (hne : images ≠ []) (t c : ℕ)
    (hi : ∀ v ∈ images, v.t = t ∧ v.c = c ∧ 0 < v.h ∧ 0 < v.w) :
    ∃ rows, valBatch zero scale s images = .ok rows ∧ List.Forall₂ (fun v row =>
      row.t = t ∧ row.c = c ∧ row.h = n ∧ row.w = n ∧
      ∃ h w : ℕ, Proportional v.h v.w h w ∧ min h w = n ∧ ∃ dy dx : ℤ, Central h n dy ∧ Central w n dx ∧
        ∀ k ch y x, y < n → x < n → 0 ≤ y + dy ∧ y + dy < h ∧ 0 ≤ x + dx ∧ x + dx < w ∧
          row.px k ch y x = scale v.h v.w h w (v.px k ch) (y + dy).toNat (x + dx).toNat) images rows := by
  have hs' : setupSize s = .ok (n, n) := by rcases hs with rfl | rfl <;> rfl
  have hr : ∀ v : Clip α, resizedSize s v.h v.w =
      .ok (if v.w ≤ v.h then (n * v.h / v.w, n) else (n, n * v.w / v.h)) := by
    intro v; rcases hs with rfl | rfl <;> rfl
  obtain ⟨rows, h1, h2⟩ := valBatch_spec zero scale s n n hs' _ hr images hne t c (fun v hv => ⟨(hi v hv).1, (hi v hv).2.1⟩)
  refine ⟨rows, h1, ?_⟩
  have h3 := List.forall₂_and_left (p := fun v : Clip α => 0 < v.h ∧ 0 < v.w) images rows |>.2
    ⟨fun v hv => ⟨(hi v hv).2.2.1, (hi v hv).2.2.2⟩, h2⟩
  refine h3.imp ?_
  rintro v row ⟨⟨ph, pw⟩, p1, p2, p3, p4, p5⟩
  refine ⟨p1, p2, p3, p4, ?_⟩
  by_cases hc : v.w ≤ v.h
  · simp only [if_pos hc] at p5
    obtain ⟨l1, f, f0, f1, f2, f3⟩ := longSide n v.w v.h pw hc hn
    refine ⟨n * v.h / v.w, n, ⟨f, f0, f2, f3, f1.le, by linarith⟩, min_eq_right l1, _, _, (offset_spec _ _).1,
      (offset_spec _ _).1, fun k ch y x hy hx => ?_⟩
    have a := inside_pos _ n y l1 hy
    have b := inside_pos n n x le_rfl hx
    exact ⟨a.1, a.2, b.1, b.2, by rw [p5 k ch y x hy hx, if_pos ⟨a.1, a.2, b.1, b.2⟩]⟩
  · simp only [if_neg hc] at p5
    obtain ⟨l1, f, f0, f1, f2, f3⟩ := longSide n v.h v.w ph (by omega) hn
    refine ⟨n, n * v.w / v.h, ⟨f, f0, f1.le, by linarith, f2, f3⟩, min_eq_left l1, _, _, (offset_spec _ _).1,
      (offset_spec _ _).1, fun k ch y x hy hx => ?_⟩
    have a := inside_pos n n y le_rfl hy
    have b := inside_pos _ n x l1 hx
    exact ⟨a.1, a.2, b.1, b.2, by rw [p5 k ch y x hy hx, if_pos ⟨a.1, a.2, b.1, b.2⟩]⟩

/-- **C116, violated: validation with a height and a width**, which is how the size is annotated: every image is stretched
to exactly this size, whatever its proportions, and nothing is cut off. -/
theorem C116_violated_stretch (zero : α) (scale : ℕ → ℕ → ℕ → ℕ → (ℕ → ℕ → α) → ℕ → ℕ → α) (th tw : ℕ)
    (images : List (Clip α)) (hne : images ≠ []) (t c : ℕ) (hi : ∀ v ∈ images, v.t = t ∧ v.c = c) :
    ∃ rows, valBatch zero scale (.seq [th, tw]) images = .ok rows ∧ List.Forall₂ (fun v row =>
      row.t = t ∧ row.c = c ∧ row.h = th ∧ row.w = tw ∧
        ∀ k ch y x, y < th → x < tw → row.px k ch y x = scale v.h v.w th tw (v.px k ch) y x) images rows := by
  obtain ⟨rows, h1, h2⟩ := valBatch_spec zero scale (.seq [th, tw]) th tw rfl (fun _ => (th, tw)) (fun _ => rfl) images hne t c hi
  refine ⟨rows, h1, h2.imp ?_⟩
  rintro v row ⟨p1, p2, p3, p4, p5⟩
  refine ⟨p1, p2, p3, p4, fun k ch y x hy hx => ?_⟩
  have o : ∀ m, offset m m = 0 := fun m => by unfold offset; simp [roundHalf]
  rw [p5 k ch y x hy hx]
  dsimp only
  rw [o, o, if_pos (by omega)]
  simp

/-- **C116, violated: an example of stretching.** An image of 100 × 400 pixels is validated at 64 × 64, which no factor
gives. -/
theorem C116_violated_example : ¬ Proportional 100 400 64 64 := by
  rintro ⟨f, h0, h1, h2, h3, h4⟩
  norm_num at h1 h2 h3 h4
  linarith

/-! ### Examples -/

example : ∃ rows, trainBatch 0 (fun _ _ f => f) (.int 4)
    [(⟨true, 1, 0, [], false⟩, (⟨1, 3, 2, 3, fun _ _ y x => 10 * y + x⟩ : Clip ℕ))] = .ok rows ∧
    (rows.map fun v => (List.range 4).map fun y => (List.range 4).map fun x => v.px 0 0 y x) =
      [[[11, 10, 11, 12], [1, 0, 1, 2], [11, 10, 11, 12], [1, 0, 1, 2]]] := ⟨_, rfl, by decide⟩

example : ∃ rows, valBatch 0 (fun H W h w f y x => f (y * H / h) (x * W / w)) (.int 2)
    [(⟨1, 3, 4, 8, fun _ _ y x => 10 * y + x⟩ : Clip ℕ)] = .ok rows ∧
    (rows.map fun v => (List.range 2).map fun y => (List.range 2).map fun x => v.px 0 0 y x) = [[[2, 4], [22, 24]]] :=
  ⟨_, rfl, by decide⟩

end Verif.Data.Images
