import Verif.Data.Clips
import Mathlib.Data.Rat.Cast.Order
import Mathlib.Algebra.Order.Field.Basic
import Mathlib.Data.List.Forall2
import Mathlib.Tactic.Positivity
import Mathlib.Tactic.NormNum
import Mathlib.Tactic.Ring
import Mathlib.Tactic.FieldSimp

/-!
C114: the clips of the video data modules.
-/

namespace Verif.Data.Clips

variable {α : Type}

/-! ### Specification -/

/-- The nearest of the rows `0, …, n - 1` to row `i`. -/
def nearest (n : ℕ) (i : ℤ) : ℕ := (max 0 (min i ((n : ℤ) - 1))).toNat

/-- A window of length `n` at offset `d` in a line of length `N`: inside it, or, if it is longer, around it. -/
def Inside (N n : ℕ) (d : ℤ) : Prop := (n ≤ N → 0 ≤ d ∧ d + n ≤ N) ∧ (N ≤ n → d ≤ 0 ∧ (N : ℤ) ≤ d + n)

/-- The window at offset `d` is as central as integers allow. -/
def Central (N n : ℕ) (d : ℤ) : Prop := |2 * d - ((N : ℤ) - n)| ≤ 1

/-- Column `x` of `n`, mirrored or not. -/
def mirrored (flip : Bool) (n x : ℕ) : ℕ := if flip then n - 1 - x else x

theorem setupSize_ok (s : Size) (h w : ℕ) (hs : s = .int h ∧ h = w ∨ s = .seq [h] ∧ h = w ∨ s = .seq [h, w]) :
    setupSize s = .ok (h, w) := by
  rcases hs with ⟨rfl, rfl⟩ | ⟨rfl, rfl⟩ | rfl <;> rfl

/-! ### Centre -/

theorem roundHalf_near (n : ℕ) : 2 * roundHalf n ≤ n + 1 ∧ n ≤ 2 * roundHalf n + 1 ∧ (0 < n → roundHalf n ≤ n) := by
  unfold roundHalf
  split_ifs <;> omega

theorem ite_px {p q : Prop} [Decidable p] [Decidable q] (zero a b : α) (h : p ↔ q) (hab : p → a = b) :
    (if p then a else zero) = if q then b else zero := by
  by_cases hp : p
  · rw [if_pos hp, if_pos (h.1 hp), hab hp]
  · rw [if_neg hp, if_neg (fun hq => hp (h.2 hq))]

/-- The offset of a centre crop along one line. -/
def offset (N n : ℕ) : ℤ :=
  if N < n then -(((n - N) / 2 : ℕ) : ℤ) else (roundHalf (N - n) : ℤ)

theorem offset_spec (N n : ℕ) : Central N n (offset N n) ∧ Inside N n (offset N n) := by
  unfold offset Central Inside
  obtain ⟨h1, h2, h3⟩ := roundHalf_near (N - n)
  rw [abs_le]
  split_ifs with h
  · omega
  · refine ⟨⟨by omega, by omega⟩, fun _ => ⟨by omega, ?_⟩, fun _ => ⟨?_, ?_⟩⟩
    · rcases Nat.eq_zero_or_pos (N - n) with h0 | h0
      · have : roundHalf (N - n) = 0 := by rw [h0]; rfl
        omega
      · have := h3 h0; omega
    · have : N - n = 0 := by omega
      have : roundHalf (N - n) = 0 := by rw [this]; rfl
      omega
    · omega

theorem centerCrop_spec (zero : α) (th tw : ℕ) (v : Clip α) :
    (centerCrop zero (th, tw) v).t = v.t ∧ (centerCrop zero (th, tw) v).c = v.c ∧
    (centerCrop zero (th, tw) v).h = th ∧ (centerCrop zero (th, tw) v).w = tw ∧
      ∀ k c y x, y < th → x < tw → (centerCrop zero (th, tw) v).px k c y x =
        if 0 ≤ (y : ℤ) + offset v.h th ∧ y + offset v.h th < v.h ∧ 0 ≤ (x : ℤ) + offset v.w tw ∧ x + offset v.w tw < v.w
        then v.px k c ((y : ℤ) + offset v.h th).toNat ((x : ℤ) + offset v.w tw).toNat else zero := by
  have r0 : roundHalf 0 = 0 := rfl
  unfold centerCrop
  dsimp only
  by_cases hs : v.w < tw ∨ v.h < th
  · rw [if_pos hs]
    by_cases hp : (padZero zero (if v.w < tw then (tw - v.w) / 2 else 0) (if v.h < th then (th - v.h) / 2 else 0)
      (if v.w < tw then (tw - v.w + 1) / 2 else 0) (if v.h < th then (th - v.h + 1) / 2 else 0) v).w = tw ∧
      (padZero zero (if v.w < tw then (tw - v.w) / 2 else 0) (if v.h < th then (th - v.h) / 2 else 0)
      (if v.w < tw then (tw - v.w + 1) / 2 else 0) (if v.h < th then (th - v.h + 1) / 2 else 0) v).h = th
    · rw [if_pos hp]
      refine ⟨rfl, rfl, hp.2, hp.1, fun k c y x hy hx => ?_⟩
      unfold padZero at hp ⊢
      dsimp only at hp ⊢
      have oh : offset v.h th = -(((if v.h < th then (th - v.h) / 2 else 0 : ℕ)) : ℤ) := by
        unfold offset
        split_ifs with h
        · rfl
        · have : v.h - th = 0 := by rw [if_neg h, if_neg h] at hp; omega
          rw [this, r0]; rfl
      have ow : offset v.w tw = -(((if v.w < tw then (tw - v.w) / 2 else 0 : ℕ)) : ℤ) := by
        unfold offset
        split_ifs with h
        · rfl
        · have : v.w - tw = 0 := by rw [if_neg h, if_neg h] at hp; omega
          rw [this, r0]; rfl
      rw [oh, ow]
      generalize (if v.h < th then (th - v.h) / 2 else 0) = a at *
      generalize (if v.w < tw then (tw - v.w) / 2 else 0) = b at *
      apply ite_px
      · omega
      · intro h
        congr 1 <;> omega
    · rw [if_neg hp]
      refine ⟨rfl, rfl, rfl, rfl, fun k c y x hy hx => ?_⟩
      unfold crop padZero
      dsimp only
      by_cases h1 : v.h < th
      · have h2 : ¬ v.w < tw := by
          intro h2
          apply hp
          unfold padZero
          dsimp only
          rw [if_pos h1, if_pos h1, if_pos h2, if_pos h2]
          omega
        have oh : offset v.h th = -((((th - v.h) / 2 : ℕ)) : ℤ) := if_pos h1
        have ow : offset v.w tw = (roundHalf (v.w - tw) : ℤ) := if_neg h2
        simp only [if_pos h1, if_neg h2, oh, ow]
        have e1 : (th - v.h) / 2 + v.h + (th - v.h + 1) / 2 - th = 0 := by omega
        have e2 : 0 + v.w + 0 - tw = v.w - tw := by omega
        rw [e1, e2, r0]
        have := roundHalf_near (v.w - tw)
        generalize roundHalf (v.w - tw) = r at *
        by_cases hc : y + 0 < (th - v.h) / 2 + v.h + (th - v.h + 1) / 2 ∧ x + r < 0 + v.w + 0
        · rw [if_pos hc]
          apply ite_px
          · omega
          · intro h
            congr 1 <;> omega
        · rw [if_neg hc, if_neg (by omega)]
      · have h2 : v.w < tw := by tauto
        have oh : offset v.h th = (roundHalf (v.h - th) : ℤ) := if_neg h1
        have ow : offset v.w tw = -((((tw - v.w) / 2 : ℕ)) : ℤ) := if_pos h2
        simp only [if_neg h1, if_pos h2, oh, ow]
        have e1 : (tw - v.w) / 2 + v.w + (tw - v.w + 1) / 2 - tw = 0 := by omega
        have e2 : 0 + v.h + 0 - th = v.h - th := by omega
        rw [e1, e2, r0]
        generalize roundHalf (v.h - th) = r at *
        by_cases hc : y + r < 0 + v.h + 0 ∧ x + 0 < (tw - v.w) / 2 + v.w + (tw - v.w + 1) / 2
        · rw [if_pos hc]
          apply ite_px
          · omega
          · intro h
            congr 1 <;> omega
        · rw [if_neg hc, if_neg (by omega)]
  · rw [if_neg hs]
    refine ⟨rfl, rfl, rfl, rfl, fun k c y x hy hx => ?_⟩
    have oh : offset v.h th = (roundHalf (v.h - th) : ℤ) := if_neg (by tauto)
    have ow : offset v.w tw = (roundHalf (v.w - tw) : ℤ) := if_neg (by tauto)
    unfold crop
    dsimp only
    rw [oh, ow]
    apply ite_px
    · omega
    · intro h
      congr 1 <;> omega

/-! ### Random crops -/

/-- The size along one line after padding. -/
def paddedLen (N n : ℕ) : ℕ := if N < n then N + 2 * (n - N) else N

/-- The row before padding. -/
def source (N n p : ℕ) : ℕ := if N < n then min (p - (n - N)) (N - 1) else p

/-- Both paddings. -/
def padBoth (th tw : ℕ) (v : Clip α) : Clip α :=
  let v := if v.w < tw then padEdge (tw - v.w) 0 v else v
  if v.h < th then padEdge 0 (th - v.h) v else v

theorem padBoth_spec (th tw : ℕ) (v : Clip α) : (padBoth th tw v).t = v.t ∧ (padBoth th tw v).c = v.c ∧
    (padBoth th tw v).h = paddedLen v.h th ∧ (padBoth th tw v).w = paddedLen v.w tw ∧
    ∀ k c y x, y < paddedLen v.h th → x < paddedLen v.w tw →
      (padBoth th tw v).px k c y x = v.px k c (source v.h th y) (source v.w tw x) := by
  unfold padBoth paddedLen source padEdge
  dsimp only
  by_cases h1 : v.w < tw <;> by_cases h2 : v.h < th
  · rw [if_pos h1]
    dsimp only
    rw [if_pos (by simpa using h2)]
    simp only [if_pos h1, if_pos h2]
    refine ⟨trivial, trivial, by simp, by simp, fun k c y x hy hx => ?_⟩
    congr 1 <;> omega
  · rw [if_pos h1]
    dsimp only
    rw [if_neg (by simpa using h2)]
    simp only [if_pos h1, if_neg h2]
    refine ⟨trivial, trivial, by simp, by simp, fun k c y x hy hx => ?_⟩
    congr 1 <;> omega
  · rw [if_neg h1, if_pos h2]
    simp only [if_neg h1, if_pos h2]
    refine ⟨trivial, trivial, by simp, by simp, fun k c y x hy hx => ?_⟩
    congr 1 <;> omega
  · rw [if_neg h1, if_neg h2]
    simp only [if_neg h1, if_neg h2]
    simp

theorem source_spec (N n i : ℕ) (hN : 0 < N) : ∃ d : ℤ, Inside N n d ∧ ∀ y, y < n →
    y + i % (paddedLen N n - n + 1) < paddedLen N n ∧
      source N n (y + i % (paddedLen N n - n + 1)) = nearest N (y + d) := by
  have hm := Nat.mod_lt i (show 0 < paddedLen N n - n + 1 by omega)
  generalize i % (paddedLen N n - n + 1) = r at hm ⊢
  unfold paddedLen at hm ⊢
  unfold source nearest Inside
  by_cases h : N < n
  · simp only [if_pos h] at hm ⊢
    refine ⟨(r : ℤ) - (n - N : ℕ), by omega, fun y hy => ⟨by omega, ?_⟩⟩
    omega
  · simp only [if_neg h] at hm ⊢
    refine ⟨(r : ℤ), by omega, fun y hy => ⟨by omega, ?_⟩⟩
    omega

theorem randomCrop_eq (zero : α) (th tw i j : ℕ) (v : Clip α) : randomCrop zero (th, tw) i j v =
    crop zero (i % ((padBoth th tw v).h - th + 1)) (j % ((padBoth th tw v).w - tw + 1)) th tw (padBoth th tw v) := by
  change (if (padBoth th tw v).w = tw ∧ (padBoth th tw v).h = th then crop zero 0 0 th tw (padBoth th tw v) else _) = _
  by_cases h : (padBoth th tw v).w = tw ∧ (padBoth th tw v).h = th
  · rw [if_pos h]
    have e1 : (padBoth th tw v).h - th + 1 = 1 := by omega
    have e2 : (padBoth th tw v).w - tw + 1 = 1 := by omega
    rw [e1, e2, Nat.mod_one, Nat.mod_one]
  · rw [if_neg h]
    rfl

theorem randomCrop_spec (zero : α) (th tw i j : ℕ) (v : Clip α) (hh : 0 < v.h) (hw : 0 < v.w) :
    (randomCrop zero (th, tw) i j v).t = v.t ∧ (randomCrop zero (th, tw) i j v).c = v.c ∧
    (randomCrop zero (th, tw) i j v).h = th ∧ (randomCrop zero (th, tw) i j v).w = tw ∧
    ∃ dy dx : ℤ, Inside v.h th dy ∧ Inside v.w tw dx ∧ ∀ k c y x, y < th → x < tw →
      (randomCrop zero (th, tw) i j v).px k c y x = v.px k c (nearest v.h (y + dy)) (nearest v.w (x + dx)) := by
  rw [randomCrop_eq]
  obtain ⟨p1, p2, p3, p4, p5⟩ := padBoth_spec th tw v
  refine ⟨p1, p2, rfl, rfl, ?_⟩
  obtain ⟨dy, hdy, ey⟩ := source_spec v.h th i hh
  obtain ⟨dx, hdx, ex⟩ := source_spec v.w tw j hw
  refine ⟨dy, dx, hdy, hdx, fun k c y x hy hx => ?_⟩
  unfold crop
  dsimp only
  rw [p3, p4]
  obtain ⟨a1, a2⟩ := ey y hy
  obtain ⟨b1, b2⟩ := ex x hx
  rw [if_pos ⟨a1, b1⟩, p5 k c _ _ a1 b1, a2, b2]

theorem resizedWindow_spec (H W : ℕ) (hH : 0 < H) (hW : 0 < W) : ∀ attempts,
    let r := resizedWindow H W attempts
    0 < r.2.2.1 ∧ 0 < r.2.2.2 ∧ r.1 + r.2.2.1 ≤ H ∧ r.2.1 + r.2.2.2 ≤ W
  | (h, w, i, j) :: rest => by
    dsimp only
    unfold resizedWindow
    split_ifs with hc
    · dsimp only
      have h1 := Nat.mod_lt i (show 0 < H - h + 1 by omega)
      have h2 := Nat.mod_lt j (show 0 < W - w + 1 by omega)
      omega
    · exact resizedWindow_spec H W hH hW rest
  | [] => by
    dsimp only
    unfold resizedWindow
    split_ifs with h1 h2 <;> dsimp only <;> omega

/-! ### Batches -/

theorem collate_ok (items : List (Clip α)) (hne : items ≠ []) (t c h w : ℕ)
    (hs : ∀ v ∈ items, v.t = t ∧ v.c = c ∧ v.h = h ∧ v.w = w) : collate items = .ok items := by
  unfold collate
  match items, hne with
  | v :: vs, _ =>
    dsimp only
    rw [if_pos]
    intro u hu
    obtain ⟨a1, a2, a3, a4⟩ := hs v List.mem_cons_self
    obtain ⟨b1, b2, b3, b4⟩ := hs u (List.mem_cons_of_mem _ hu)
    omega

/-- **C114, sizes.** A crop size is one number, a list with one number, or a list with height and width; anything else
raises `ValueError` before any item is delivered. -/
theorem C114_sizes (zero : α) (interp : ℕ → ℕ → (ℕ → ℕ → α) → ℕ → ℕ → α) (mode : Mode) (l : List ℕ)
    (drawn : List (Draw × Clip α)) (hl : l.length ≠ 1 ∧ l.length ≠ 2) :
    vimeoBatch zero interp (.seq l) mode drawn = .error .value := by
  match l, hl with
  | [], _ => rfl
  | _ :: _ :: _ :: _, _ => rfl

/-- **C114, training.** For every batch of items with the same number of frames, of any sizes, and all random draws, a
training batch is delivered: one row for every item, in order, with all its frames and channels, at the crop size. Every
row is one window of the item, the same for all its frames, mirrored or not: either cut out, where a frame too small is
continued by its border, or a window inside the frame that is interpolated. -/
theorem C114_train (zero : α) (interp : ℕ → ℕ → (ℕ → ℕ → α) → ℕ → ℕ → α) (s : Size) (th tw : ℕ)
    (hs : s = .int th ∧ th = tw ∨ s = .seq [th] ∧ th = tw ∨ s = .seq [th, tw])
    (drawn : List (Draw × Clip α)) (hne : drawn ≠ []) (t c : ℕ)
    (hi : ∀ p ∈ drawn, p.2.t = t ∧ p.2.c = c ∧ 0 < p.2.h ∧ 0 < p.2.w) :
    ∃ rows, vimeoBatch zero interp s .train drawn = .ok rows ∧ List.Forall₂ (fun (p : Draw × Clip α) row =>
      row.t = t ∧ row.c = c ∧ row.h = th ∧ row.w = tw ∧
      ((∃ dy dx : ℤ, Inside p.2.h th dy ∧ Inside p.2.w tw dx ∧ ∀ k ch y x, y < th → x < tw → row.px k ch y x =
          p.2.px k ch (nearest p.2.h (y + dy)) (nearest p.2.w (mirrored p.1.flip tw x + dx))) ∨
        ∃ top left h w : ℕ, 0 < h ∧ 0 < w ∧ top + h ≤ p.2.h ∧ left + w ≤ p.2.w ∧ ∃ cut : ℕ → ℕ → ℕ → ℕ → α,
          (∀ k ch y x, y < h → x < w → cut k ch y x = p.2.px k ch (top + y) (left + x)) ∧
          ∀ k ch y x, y < th → x < tw → row.px k ch y x = interp h w (cut k ch) y (mirrored p.1.flip tw x)))
      drawn rows := by
  have key : ∀ p ∈ drawn, (fun row : Clip α =>
      row.t = t ∧ row.c = c ∧ row.h = th ∧ row.w = tw ∧
      ((∃ dy dx : ℤ, Inside p.2.h th dy ∧ Inside p.2.w tw dx ∧ ∀ k ch y x, y < th → x < tw → row.px k ch y x =
          p.2.px k ch (nearest p.2.h (y + dy)) (nearest p.2.w (mirrored p.1.flip tw x + dx))) ∨
        ∃ top left h w : ℕ, 0 < h ∧ 0 < w ∧ top + h ≤ p.2.h ∧ left + w ≤ p.2.w ∧ ∃ cut : ℕ → ℕ → ℕ → ℕ → α,
          (∀ k ch y x, y < h → x < w → cut k ch y x = p.2.px k ch (top + y) (left + x)) ∧
          ∀ k ch y x, y < th → x < tw → row.px k ch y x = interp h w (cut k ch) y (mirrored p.1.flip tw x)))
      (videoTransform zero interp (th, tw) .train p.1 p.2) := by
    rintro ⟨d, v⟩ hp
    obtain ⟨h1, h2, h3, h4⟩ := hi _ hp
    dsimp only at h1 h2 h3 h4 ⊢
    unfold videoTransform
    dsimp only
    obtain ⟨plain, i, j, attempts, flip⟩ := d
    dsimp only
    cases plain
    · rw [if_neg Bool.false_ne_true]
      obtain ⟨w1, w2, w3, w4⟩ := resizedWindow_spec v.h v.w h3 h4 attempts
      generalize hwin : resizedWindow v.h v.w attempts = win at w1 w2 w3 w4
      obtain ⟨top, left, h, w⟩ := win
      have e : resizedCrop zero interp (th, tw) attempts v =
          { t := v.t, c := v.c, h := th, w := tw,
            px := fun k ch => interp h w ((crop zero top left h w v).px k ch) } := by
        unfold resizedCrop
        rw [hwin]
        rfl
      rw [e]
      dsimp only at w1 w2 w3 w4
      have cutEq : ∀ k ch y x, y < h → x < w → (crop zero top left h w v).px k ch y x = v.px k ch (top + y) (left + x) := by
        intro k ch y x hy hx
        unfold crop
        dsimp only
        rw [if_pos (by omega), Nat.add_comm y, Nat.add_comm x]
      cases flip
      · rw [if_neg Bool.false_ne_true]
        exact ⟨h1, h2, rfl, rfl, Or.inr ⟨top, left, h, w, w1, w2, w3, w4, _, cutEq, fun k ch y x _ _ => rfl⟩⟩
      · rw [if_pos rfl]
        exact ⟨h1, h2, rfl, rfl, Or.inr ⟨top, left, h, w, w1, w2, w3, w4, _, cutEq, fun k ch y x _ _ => rfl⟩⟩
    · rw [if_pos rfl]
      obtain ⟨r1, r2, r3, r4, dy, dx, hdy, hdx, r5⟩ := randomCrop_spec zero th tw i j v h3 h4
      cases flip
      · rw [if_neg Bool.false_ne_true]
        exact ⟨r1.trans h1, r2.trans h2, r3, r4, Or.inl ⟨dy, dx, hdy, hdx, r5⟩⟩
      · rw [if_pos rfl]
        refine ⟨r1.trans h1, r2.trans h2, r3, r4, Or.inl ⟨dy, dx, hdy, hdx, fun k ch y x hy hx => ?_⟩⟩
        unfold hflip
        dsimp only
        rw [r4, r5 k ch y _ hy (by omega)]
        rfl
  refine ⟨drawn.map fun p => videoTransform zero interp (th, tw) .train p.1 p.2, ?_, ?_⟩
  · unfold vimeoBatch
    rw [setupSize_ok s th tw hs]
    refine collate_ok _ (by simpa using hne) t c th tw ?_
    intro v hv
    obtain ⟨p, hp, rfl⟩ := List.mem_map.1 hv
    obtain ⟨k1, k2, k3, k4, _⟩ := key p hp
    exact ⟨k1, k2, k3, k4⟩
  · rw [List.forall₂_map_right_iff]
    exact List.forall₂_same.2 key

/-- **C114, validation.** A validation batch has one row for every item, in order, with all its frames and channels at the
crop size: the centre of the item, as exactly as whole pixels allow, the same for all frames; where a frame is too
small, all of it is shown and surrounded by zeros. -/
theorem C114_val (zero : α) (interp : ℕ → ℕ → (ℕ → ℕ → α) → ℕ → ℕ → α) (s : Size) (th tw : ℕ)
    (hs : s = .int th ∧ th = tw ∨ s = .seq [th] ∧ th = tw ∨ s = .seq [th, tw])
    (drawn : List (Draw × Clip α)) (hne : drawn ≠ []) (t c : ℕ) (hi : ∀ p ∈ drawn, p.2.t = t ∧ p.2.c = c) :
    ∃ rows, vimeoBatch zero interp s .test drawn = .ok rows ∧ List.Forall₂ (fun (p : Draw × Clip α) row =>
      row.t = t ∧ row.c = c ∧ row.h = th ∧ row.w = tw ∧
      ∃ dy dx : ℤ, Central p.2.h th dy ∧ Central p.2.w tw dx ∧ Inside p.2.h th dy ∧ Inside p.2.w tw dx ∧
        ∀ k ch y x, y < th → x < tw → row.px k ch y x =
          if 0 ≤ y + dy ∧ y + dy < p.2.h ∧ 0 ≤ x + dx ∧ x + dx < p.2.w then
            p.2.px k ch (y + dy).toNat (x + dx).toNat else zero)
      drawn rows := by
  refine ⟨drawn.map fun p => videoTransform zero interp (th, tw) .test p.1 p.2, ?_, ?_⟩
  · unfold vimeoBatch
    rw [setupSize_ok s th tw hs]
    refine collate_ok _ (by simpa using hne) t c th tw ?_
    intro v hv
    obtain ⟨p, hp, rfl⟩ := List.mem_map.1 hv
    obtain ⟨k1, k2, k3, k4, _⟩ := centerCrop_spec zero th tw p.2
    exact ⟨k1.trans (hi p hp).1, k2.trans (hi p hp).2, k3, k4⟩
  · rw [List.forall₂_map_right_iff]
    refine List.forall₂_same.2 fun p hp => ?_
    obtain ⟨k1, k2, k3, k4, k5⟩ := centerCrop_spec zero th tw p.2
    exact ⟨k1.trans (hi p hp).1, k2.trans (hi p hp).2, k3, k4, _, _, (offset_spec _ _).1, (offset_spec _ _).1,
      (offset_spec _ _).2, (offset_spec _ _).2, k5⟩

theorem videoTransform_counts (zero : α) (interp : ℕ → ℕ → (ℕ → ℕ → α) → ℕ → ℕ → α) (size : ℕ × ℕ) (mode : Mode) (d : Draw)
    (v : Clip α) : (videoTransform zero interp size mode d v).t = v.t ∧ (videoTransform zero interp size mode d v).c = v.c := by
  unfold videoTransform
  cases mode
  · dsimp only
    split_ifs <;> simp only [randomCrop, resizedCrop, hflip, crop, padEdge] <;> (try split_ifs) <;> simp
  · dsimp only
    unfold centerCrop
    dsimp only
    split_ifs <;> exact ⟨rfl, rfl⟩

/-- **C114, mixed batches.** Items with different numbers of frames (or channels) are never put into one batch: the loader
raises `RuntimeError`. -/
theorem C114_mixed (zero : α) (interp : ℕ → ℕ → (ℕ → ℕ → α) → ℕ → ℕ → α) (s : Size) (th tw : ℕ)
    (hs : s = .int th ∧ th = tw ∨ s = .seq [th] ∧ th = tw ∨ s = .seq [th, tw]) (mode : Mode)
    (drawn : List (Draw × Clip α)) (p q : Draw × Clip α) (hp : p ∈ drawn) (hq : q ∈ drawn)
    (h : p.2.t ≠ q.2.t ∨ p.2.c ≠ q.2.c) : vimeoBatch zero interp s mode drawn = .error .runtime := by
  unfold vimeoBatch
  rw [setupSize_ok s th tw hs]
  show collate (drawn.map _) = _
  match drawn, hp with
  | r :: rs, hp =>
    rw [List.map_cons]
    unfold collate
    dsimp only
    rw [if_neg]
    intro hall
    have key : ∀ a ∈ r :: rs, a.2.t = r.2.t ∧ a.2.c = r.2.c := by
      intro a ha
      rcases List.mem_cons.1 ha with rfl | ha
      · exact ⟨rfl, rfl⟩
      · obtain ⟨h1, h2, _⟩ := hall _ (List.mem_map.2 ⟨a, ha, rfl⟩)
        rw [(videoTransform_counts zero interp (th, tw) mode a.1 a.2).1,
          (videoTransform_counts zero interp (th, tw) mode r.1 r.2).1] at h1
        rw [(videoTransform_counts zero interp (th, tw) mode a.1 a.2).2,
          (videoTransform_counts zero interp (th, tw) mode r.1 r.2).2] at h2
        exact ⟨h1, h2⟩
    obtain ⟨a1, a2⟩ := key p hp
    obtain ⟨b1, b2⟩ := key q hq
    omega

/-- **C114, the module of the deep video compression project.** Every batch of clips is delivered at the image size, the
centre of every frame divided by 255, with values between 0 and 1, both included. -/
theorem C114_dvc_partial (s : Size) (th tw : ℕ)
    (hs : s = .int th ∧ th = tw ∨ s = .seq [th] ∧ th = tw ∨ s = .seq [th, tw])
    (items : List (Clip ℕ)) (hne : items ≠ []) (t c : ℕ) (hi : ∀ v ∈ items, v.t = t ∧ v.c = c)
    (hv : ∀ v ∈ items, ∀ k ch y x, v.px k ch y x ≤ 255) :
    ∃ rows, dvcBatch s items = .ok rows ∧ List.Forall₂ (fun (v : Clip ℕ) row =>
      row.t = t ∧ row.c = c ∧ row.h = th ∧ row.w = tw ∧
      (∃ dy dx : ℤ, Central v.h th dy ∧ Central v.w tw dx ∧ ∀ k ch y x, y < th → x < tw → row.px k ch y x =
        if 0 ≤ y + dy ∧ y + dy < v.h ∧ 0 ≤ x + dx ∧ x + dx < v.w then
          (v.px k ch (y + dy).toNat (x + dx).toNat : ℚ) / 255 else 0) ∧
      ∀ k ch y x, y < th → x < tw → 0 ≤ row.px k ch y x ∧ row.px k ch y x ≤ 1) items rows := by
  let f : Clip ℕ → Clip ℚ := fun v => ⟨(centerCrop 0 (th, tw) v).t, (centerCrop 0 (th, tw) v).c,
    (centerCrop 0 (th, tw) v).h, (centerCrop 0 (th, tw) v).w,
    fun k c y x => ((centerCrop 0 (th, tw) v).px k c y x : ℚ) / 255⟩
  have hf : ∀ v, dvcItem s v = .ok (f v) := fun v => by
    unfold dvcItem
    rw [setupSize_ok s th tw hs]
    rfl
  have hm : ∀ l : List (Clip ℕ), l.mapM (dvcItem s) = (Except.ok (l.map f) : Except Err _) := by
    intro l
    induction l with
    | nil => rfl
    | cons v l ih => rw [List.mapM_cons, hf, ih]; rfl
  refine ⟨items.map f, ?_, ?_⟩
  · unfold dvcBatch
    rw [hm]
    refine collate_ok _ (by simpa using hne) t c th tw ?_
    intro v hv
    obtain ⟨p, hp, rfl⟩ := List.mem_map.1 hv
    obtain ⟨k1, k2, k3, k4, _⟩ := centerCrop_spec 0 th tw p
    exact ⟨k1.trans (hi p hp).1, k2.trans (hi p hp).2, k3, k4⟩
  · rw [List.forall₂_map_right_iff]
    refine List.forall₂_same.2 fun v hmem => ?_
    obtain ⟨k1, k2, k3, k4, k5⟩ := centerCrop_spec 0 th tw v
    have pxe : ∀ k ch y x, y < th → x < tw → (f v).px k ch y x =
        if 0 ≤ (y : ℤ) + offset v.h th ∧ y + offset v.h th < v.h ∧ 0 ≤ (x : ℤ) + offset v.w tw ∧ x + offset v.w tw < v.w then
          (v.px k ch ((y : ℤ) + offset v.h th).toNat ((x : ℤ) + offset v.w tw).toNat : ℚ) / 255 else 0 := by
      intro k ch y x hy hx
      show (((centerCrop 0 (th, tw) v).px k ch y x : ℕ) : ℚ) / 255 = _
      rw [k5 k ch y x hy hx]
      split_ifs
      · rfl
      · norm_num
    refine ⟨k1.trans (hi v hmem).1, k2.trans (hi v hmem).2, k3, k4,
      ⟨_, _, (offset_spec _ _).1, (offset_spec _ _).1, pxe⟩, fun k ch y x hy hx => ?_⟩
    rw [pxe k ch y x hy hx]
    split_ifs
    · have := hv v hmem k ch ((y : ℤ) + offset v.h th).toNat ((x : ℤ) + offset v.w tw).toNat
      have h2 : ((v.px k ch ((y : ℤ) + offset v.h th).toNat ((x : ℤ) + offset v.w tw).toNat : ℕ) : ℚ) ≤ 255 := by
        exact_mod_cast this
      constructor
      · exact div_nonneg (Nat.cast_nonneg _) (by norm_num)
      · rw [div_le_iff₀ (by norm_num)]; linarith
    · norm_num

/-- **C114, violated: the range.** The values are documented to be in `[0, 1)`; a white pixel is exactly 1: for every size,
every clip with frames of this size in which one pixel of a frame is 255. -/
theorem C114_violated_range (th tw t c : ℕ) (px : ℕ → ℕ → ℕ → ℕ → ℕ) (k ch y x : ℕ) (hy : y < th) (hx : x < tw)
    (h : px k ch y x = 255) :
    ∃ row, dvcBatch (.seq [th, tw]) [⟨t, c, th, tw, px⟩] = .ok [row] ∧ row.px k ch y x = 1 := by
  refine ⟨_, rfl, ?_⟩
  obtain ⟨_, _, _, _, k5⟩ := centerCrop_spec 0 th tw (⟨t, c, th, tw, px⟩ : Clip ℕ)
  show (((centerCrop 0 (th, tw) (⟨t, c, th, tw, px⟩ : Clip ℕ)).px k ch y x : ℕ) : ℚ) / 255 = 1
  have o1 : offset th th = 0 := by unfold offset; simp [roundHalf]
  have o2 : offset tw tw = 0 := by unfold offset; simp [roundHalf]
  rw [k5 k ch y x hy hx]
  dsimp only
  rw [o1, o2, if_pos (by omega)]
  simp [h]

/-- **C114, numbers of frames.** The constructor accepts exactly the numbers from 1 to 7. -/
theorem C114_frames (n : ℤ) : (dvcInit n = .ok n ↔ 1 ≤ n ∧ n ≤ 7) ∧ (¬ (1 ≤ n ∧ n ≤ 7) → dvcInit n = .error .value) := by
  have hm : n ∈ [1, 2, 3, 4, 5, 6, 7] ↔ 1 ≤ n ∧ n ≤ 7 := by simp; omega
  unfold dvcInit
  by_cases h : n ∈ [1, 2, 3, 4, 5, 6, 7]
  · rw [if_pos h]; exact ⟨⟨fun _ => hm.1 h, fun _ => rfl⟩, fun hn => absurd (hm.1 h) hn⟩
  · rw [if_neg h]; exact ⟨⟨fun e => (nomatch e), fun e => absurd (hm.2 e) h⟩, fun _ => rfl⟩

/-! ### UVG -/

/-- **C114, UVG.** Without normalisation a batch of images of one size is one sample with all the images as frames, of a
shape that the model accepts, reporting their number and size. -/
theorem C114_uvg_partial (n h w : ℕ) (hn : 0 < n) :
    uvgBatch false (List.replicate n (h, w)) = .ok [1, n, 3, h, w] ∧ validateVideo [1, n, 3, h, w] = .ok () ∧
      videoQueries [1, n, 3, h, w] = (n, 1, h, w) := by
  refine ⟨?_, rfl, rfl⟩
  obtain ⟨m, rfl⟩ : ∃ m, n = m + 1 := ⟨n - 1, by omega⟩
  have hm : ∀ m : ℕ, (List.replicate m (h, w)).mapM (fun p : ℕ × ℕ => uvgTransform false p.1 p.2) =
      (Except.ok (List.replicate m [3, h, w]) : Except Err _) := by
    intro m
    induction m with
    | zero => rfl
    | succ m ih => rw [List.replicate_succ, List.mapM_cons, ih]; rfl
  unfold uvgBatch
  rw [hm]
  refine (if_pos (fun r hr => List.eq_of_mem_replicate hr)).trans ?_
  rw [List.length_replicate]

/-- **C114, violated: normalisation of UVG.** With `normalize=True` every batch of images of every size raises
`RuntimeError`: the normalisation for clips of four dimensions is applied to single images. -/
theorem C114_violated_normalize (images : List (ℕ × ℕ)) : uvgBatch true images = .error .runtime := by
  unfold uvgBatch
  cases images with
  | nil => rfl
  | cons p l => rw [List.mapM_cons]; rfl

/-! ### The containers -/

/-- **C114, containers.** A video is accepted exactly if it has five dimensions with three channels, otherwise the check
raises `ValueError`; latents are cut along time into as many batches as there are times, each with the entries of all the
batch at that time, if they are single precision and five-dimensional, and `ValueError` otherwise. -/
theorem C114_containers (shape : List ℕ) (s : Scenes α) :
    (validateVideo shape = .ok () ↔ ∃ b t h w, shape = [b, t, 3, h, w]) ∧
    (validateVideo shape ≠ .ok () → validateVideo shape = .error .value) ∧
    (s.float32 = true ∧ s.dim = 5 → ∃ l, scenesIter s = .ok l ∧ l.length = s.t ∧
      ∀ i (h : i < l.length), (l[i]).length = s.b ∧ ∀ b (hb : b < (l[i]).length), (l[i])[b] = s.data b i) ∧
    (¬ (s.float32 = true ∧ s.dim = 5) → scenesIter s = .error .value) := by
  refine ⟨?_, ?_, ?_, ?_⟩
  · unfold validateVideo
    constructor
    · intro h
      split_ifs at h with hc
      push Not at hc
      match shape, hc with
      | [a, b, c, d, e], hc => exact ⟨a, b, d, e, by have : c = 3 := hc.2; rw [this]⟩
    · rintro ⟨b, t, h, w, rfl⟩; rfl
  · unfold validateVideo
    split_ifs <;> simp
  · rintro ⟨h1, h2⟩
    unfold scenesIter
    rw [if_neg (by simp [h1]), if_neg (by simp [h2])]
    refine ⟨_, rfl, by simp, fun i h => ⟨by simp, fun b hb => by simp⟩⟩
  · intro h
    unfold scenesIter
    by_cases h1 : s.float32 = false
    · rw [if_pos h1]
    · rw [if_neg h1, if_pos (fun h2 => h ⟨by simpa using h1, h2⟩)]

/-- **C114, violated: labels.** A Kinetics container cannot be given any of the names, labels and indices that it is
annotated with: every call with one of them raises `TypeError`. -/
theorem C114_violated_labels (name : String) (_ : name ∈ kineticsAnnotated) (h : name ≠ "video_tensor")
    (names : List String) (hm : name ∈ names) : makeVideo names = .error .type ∧ makeVideo ["video_tensor"] = .ok () := by
  refine ⟨?_, by decide⟩
  unfold makeVideo
  rw [if_neg]
  rintro ⟨h1, _⟩
  have := h1 name hm
  simp [videoFields] at this
  exact h this

/-! ### Examples -/

/-- Frames of two rows and three columns, crop size 4 × 2, mirrored. -/
example : ∃ rows, vimeoBatch 0 (fun _ _ f => f) (.seq [4, 2]) .train
    [(⟨true, 1, 0, [], true⟩, (⟨7, 3, 2, 3, fun _ _ y x => 10 * y + x⟩ : Clip ℕ))] = .ok rows ∧
    (rows.map fun v => (List.range 4).map fun y => (List.range 2).map fun x => v.px 0 0 y x) =
      [[[1, 0], [1, 0], [11, 10], [11, 10]]] := ⟨_, rfl, by decide⟩

example : ∃ rows, vimeoBatch 0 (fun _ _ f => f) (.int 4) .test
    [(⟨true, 1, 0, [], true⟩, (⟨7, 3, 2, 7, fun _ _ y x => 10 * y + x⟩ : Clip ℕ))] = .ok rows ∧
    (rows.map fun v => (List.range 4).map fun y => (List.range 4).map fun x => v.px 0 0 y x) =
      [[[0, 0, 0, 0], [2, 3, 4, 5], [12, 13, 14, 15], [0, 0, 0, 0]]] := ⟨_, rfl, by decide⟩

example : uvgBatch false (List.replicate 50 (1080, 1920)) = .ok [1, 50, 3, 1080, 1920] := (C114_uvg_partial 50 _ _ (by decide)).1

end Verif.Data.Clips
