import Verif.Models.HificNet
import Verif.Models.PropsHificValues
import Mathlib.Tactic.Linarith
import Mathlib.Algebra.Order.Ring.Abs

/-!
# C132: how far a pixel reaches in the HiFiC autoencoder

Specification: `InFrame`, `SameAround` and `tile`.
-/

namespace Verif.Models.HificNet

open Verif Verif.Functional Verif.Models.Hific Verif.Models.HificValues

variable {Str HStr Lik : Type}

/-! ### Specification -/

/-- Whether the position is one of the tensor. -/
def InFrame (x : Image ℝ) (i j : ℤ) : Prop := 0 ≤ i ∧ i < x.height ∧ 0 ≤ j ∧ j < x.width

/-- Image `b` of the batch `x` around the position `(y, z)` and image `b'` of the batch `x'` around `(y', z')` look the
same up to the distance `R` in both directions: the borders, if any, and the values of the first `C` channels. -/
def SameAround (C : ℕ) (R : ℤ) (x : Image ℝ) (b : ℕ) (y z : ℤ) (x' : Image ℝ) (b' : ℕ) (y' z' : ℤ) : Prop :=
  ∀ di dj : ℤ, |di| ≤ R → |dj| ≤ R →
    (InFrame x (y + di) (z + dj) ↔ InFrame x' (y' + di) (z' + dj)) ∧
      (InFrame x (y + di) (z + dj) → ∀ c < C,
        x.pix b c (y + di).toNat (z + dj).toNat = x'.pix b' c (y' + di).toNat (z' + dj).toNat)

/-- A tile of a batch of images. -/
def tile (x : Image ℝ) (top left height width : ℕ) : Image ℝ :=
  ⟨height, width, fun b c i j => x.pix b c (top + i) (left + j)⟩

/-! ### Layers -/

/-- The positions of `x` whose multiple by `S` is within `R` of `(y, z)` look like those of `x'`, moved by `(e, f)`. -/
def Near (C : ℕ) (S R y z e f : ℤ) (x : Image ℝ) (b : ℕ) (x' : Image ℝ) (b' : ℕ) : Prop :=
  ∀ i j : ℤ, |S * i - y| ≤ R → |S * j - z| ≤ R →
    (InFrame x i j ↔ InFrame x' (i + e) (j + f)) ∧
      (InFrame x i j → ∀ c < C, x.pix b c i.toNat j.toNat = x'.pix b' c (i + e).toNat (j + f).toNat)

/-- Not empty. -/
def Pos (x : Image ℝ) : Prop := 0 < x.height ∧ 0 < x.width

theorem Near.mono {C : ℕ} {S R R' y z e f : ℤ} {x x' : Image ℝ} {b b' : ℕ} (h : Near C S R y z e f x b x' b')
    (hR : R' ≤ R) : Near C S R' y z e f x b x' b' :=
  fun i j hi hj => h i j (hi.trans hR) (hj.trans hR)

theorem Near.padded {C : ℕ} {S R y z e f : ℤ} {x x' : Image ℝ} {b b' : ℕ} (h : Near C S R y z e f x b x' b') (i j : ℤ)
    (hi : |S * i - y| ≤ R) (hj : |S * j - z| ≤ R) (c : ℕ) (hc : c < C) :
    zeroPadded x b c i j = zeroPadded x' b' c (i + e) (j + f) := by
  obtain ⟨hf, hv⟩ := h i j hi hj
  unfold zeroPadded
  by_cases hin : InFrame x i j
  · rw [if_pos (show 0 ≤ i ∧ _ from hin), if_pos (show 0 ≤ i + e ∧ _ from hf.1 hin), hv hin c hc]
  · rw [if_neg (show ¬ (0 ≤ i ∧ _) from hin), if_neg (show ¬ (0 ≤ i + e ∧ _) from fun h => hin (hf.2 h))]

theorem conv_size (p s n : ℕ) (hs : 0 < s) (hn : 0 < n) (i : ℤ) :
    (0 ≤ i ∧ i < (conv (2 * p + 1) s p n : ℕ)) ↔ (0 ≤ s * i ∧ s * i < n) := by
  have hc : conv (2 * p + 1) s p n = (n - 1) / s + 1 := by
    unfold conv
    congr 2
    omega
  rw [hc]
  have hs' : (0 : ℤ) < s := by exact_mod_cast hs
  constructor
  · rintro ⟨h0, h1⟩
    obtain ⟨k, rfl⟩ := Int.eq_ofNat_of_zero_le h0
    refine ⟨by positivity, ?_⟩
    have hk : k ≤ (n - 1) / s := by push_cast at h1; omega
    have := (Nat.le_div_iff_mul_le hs).1 hk
    have h2 : s * k < n := by rw [Nat.mul_comm]; omega
    exact_mod_cast h2
  · rintro ⟨h0, h1⟩
    have h0' : 0 ≤ i := nonneg_of_mul_nonneg_right h0 hs'
    obtain ⟨k, rfl⟩ := Int.eq_ofNat_of_zero_le h0'
    refine ⟨h0', ?_⟩
    have h2 : s * k < n := by exact_mod_cast h1
    have : k ≤ (n - 1) / s := (Nat.le_div_iff_mul_le hs).2 (by rw [Nat.mul_comm]; omega)
    push_cast
    omega

theorem frame_conv (cin p s : ℕ) (hs : 0 < s) (w : ConvW) (x : Image ℝ) (hx : Pos x) (i j : ℤ) :
    InFrame (conv2d cin (2 * p + 1) s p w x) i j ↔ InFrame x (s * i) (s * j) := by
  have h1 := conv_size p s x.height hs hx.1 i
  have h2 := conv_size p s x.width hs hx.2 j
  unfold InFrame conv2d
  dsimp only
  constructor
  · rintro ⟨a, b, c, d⟩
    have := h1.1 ⟨a, b⟩
    have := h2.1 ⟨c, d⟩
    tauto
  · rintro ⟨a, b, c, d⟩
    have := h1.2 ⟨a, b⟩
    have := h2.2 ⟨c, d⟩
    tauto

theorem conv_pos (cin k s p : ℕ) (w : ConvW) (x : Image ℝ) : Pos (conv2d cin k s p w x) :=
  ⟨Nat.succ_pos _, Nat.succ_pos _⟩

theorem reach (S R p t u d y : ℤ) (hS : 0 ≤ S) (h : |u - y| ≤ R) (ht : S * t = u + S * d) (hd : |d| ≤ p) :
    |S * t - y| ≤ R + S * p := by
  have h1 : S * t - y = (u - y) + S * d := by rw [ht]; ring
  rw [h1]
  refine (abs_add_le _ _).trans (add_le_add h ?_)
  rw [abs_mul, abs_of_nonneg hS]
  exact mul_le_mul_of_nonneg_left hd hS

/-- A convolution with a centred window: it looks `padding` positions of its input further in each direction. -/
theorem conv_near {cin p s : ℕ} (hs : 0 < s) {S R y z e f : ℤ} (hS : 0 ≤ S) (w : ConvW) {x x' : Image ℝ} {b b' : ℕ}
    (hx : Pos x) (hx' : Pos x') (h : Near cin S (R + S * p) y z (s * e) (s * f) x b x' b') (C : ℕ) :
    Near C (s * S) R y z e f (conv2d cin (2 * p + 1) s p w x) b (conv2d cin (2 * p + 1) s p w x') b' := by
  intro i j hi hj
  have hi0 : |S * (s * i) - y| ≤ R + S * p :=
    reach S R p _ (s * S * i) 0 y hS hi (by ring) (by simp)
  have hj0 : |S * (s * j) - z| ≤ R + S * p :=
    reach S R p _ (s * S * j) 0 z hS hj (by ring) (by simp)
  have hf : InFrame (conv2d cin (2 * p + 1) s p w x) i j ↔
      InFrame (conv2d cin (2 * p + 1) s p w x') (i + e) (j + f) := by
    rw [frame_conv cin p s hs w x hx, frame_conv cin p s hs w x' hx', (h _ _ hi0 hj0).1, mul_add, mul_add]
  refine ⟨hf, ?_⟩
  intro hin o _
  have hin' := hf.1 hin
  unfold conv2d
  dsimp only
  rw [Int.toNat_of_nonneg hin.1, Int.toNat_of_nonneg hin.2.2.1, Int.toNat_of_nonneg hin'.1,
    Int.toNat_of_nonneg hin'.2.2.1]
  congr 1
  refine Finset.sum_congr rfl fun c hc => Finset.sum_congr rfl fun di hdi => Finset.sum_congr rfl fun dj hdj => ?_
  congr 1
  rw [Finset.mem_range] at hc hdi hdj
  rw [h.padded (i * s + di - p) (j * s + dj - p)
    (reach S R p _ (s * S * i) (di - p) y hS hi (by ring) (by rw [abs_le]; constructor <;> omega))
    (reach S R p _ (s * S * j) (dj - p) z hS hj (by ring) (by rw [abs_le]; constructor <;> omega)) c hc]
  congr 1 <;> ring

theorem deconv_size (p n : ℕ) (hn : 0 < n) (i : ℤ) :
    (0 ≤ i ∧ i < (deconv (2 * p + 1) 2 p 1 n : ℕ)) ↔ (0 ≤ i / 2 ∧ i / 2 < n) := by
  have : deconv (2 * p + 1) 2 p 1 n = 2 * n := by
    unfold deconv
    omega
  rw [this]
  omega

theorem frame_deconv (cin p : ℕ) (w : ConvW) (x : Image ℝ) (hx : Pos x) (i j : ℤ) :
    InFrame (convTranspose2d cin (2 * p + 1) 2 p 1 w x) i j ↔ InFrame x (i / 2) (j / 2) := by
  have h1 := deconv_size p x.height hx.1 i
  have h2 := deconv_size p x.width hx.2 j
  unfold InFrame convTranspose2d
  dsimp only
  constructor
  · rintro ⟨a, b, c, d⟩
    have := h1.1 ⟨a, b⟩
    have := h2.1 ⟨c, d⟩
    tauto
  · rintro ⟨a, b, c, d⟩
    have := h1.2 ⟨a, b⟩
    have := h2.2 ⟨c, d⟩
    tauto

theorem deconv_pos (cin p : ℕ) (w : ConvW) (x : Image ℝ) : Pos (convTranspose2d cin (2 * p + 1) 2 p 1 w x) := by
  unfold Pos convTranspose2d deconv
  dsimp only
  omega

theorem reach2 (S R p t i d y : ℤ) (hS : 0 ≤ S) (h : |S * i - y| ≤ R) (ht : 2 * t = i + d) (hd : |d| ≤ p) :
    |2 * S * t - y| ≤ R + S * p := by
  have h1 : 2 * S * t - y = (S * i - y) + S * d := by
    rw [show 2 * S * t = S * (2 * t) by ring, ht]
    ring
  rw [h1]
  refine (abs_add_le _ _).trans (add_le_add h ?_)
  rw [abs_mul, abs_of_nonneg hS]
  exact mul_le_mul_of_nonneg_left hd hS

/-- A transposed convolution that doubles the size: it looks `padding` positions of its output further. -/
theorem deconv_near {cin p : ℕ} (hp : 0 < p) {S R y z e f : ℤ} (hS : 0 ≤ S) (w : ConvW) {x x' : Image ℝ} {b b' : ℕ}
    (hx : Pos x) (hx' : Pos x') (h : Near cin (2 * S) (R + S * p) y z e f x b x' b') (C : ℕ) :
    Near C S R y z (2 * e) (2 * f) (convTranspose2d cin (2 * p + 1) 2 p 1 w x) b
      (convTranspose2d cin (2 * p + 1) 2 p 1 w x') b' := by
  intro i j hi hj
  have hp' : (1 : ℤ) ≤ p := by exact_mod_cast hp
  have hi0 : |2 * S * (i / 2) - y| ≤ R + S * p :=
    reach2 S R p _ i (2 * (i / 2) - i) y hS hi (by ring) (by rw [abs_le]; constructor <;> omega)
  have hj0 : |2 * S * (j / 2) - z| ≤ R + S * p :=
    reach2 S R p _ j (2 * (j / 2) - j) z hS hj (by ring) (by rw [abs_le]; constructor <;> omega)
  have hf : InFrame (convTranspose2d cin (2 * p + 1) 2 p 1 w x) i j ↔
      InFrame (convTranspose2d cin (2 * p + 1) 2 p 1 w x') (i + 2 * e) (j + 2 * f) := by
    rw [frame_deconv cin p w x hx, frame_deconv cin p w x' hx', (h _ _ hi0 hj0).1,
      Int.add_mul_ediv_left _ _ (by norm_num), Int.add_mul_ediv_left _ _ (by norm_num)]
  refine ⟨hf, ?_⟩
  intro hin o _
  have hin' := hf.1 hin
  unfold convTranspose2d
  dsimp only
  rw [Int.toNat_of_nonneg hin.1, Int.toNat_of_nonneg hin.2.2.1, Int.toNat_of_nonneg hin'.1,
    Int.toNat_of_nonneg hin'.2.2.1]
  congr 1
  refine Finset.sum_congr rfl fun c hc => Finset.sum_congr rfl fun di hdi => Finset.sum_congr rfl fun dj hdj => ?_
  rw [Finset.mem_range] at hc hdi hdj
  have hcond : (((2 : ℕ) : ℤ) ∣ i + p - di ∧ ((2 : ℕ) : ℤ) ∣ j + p - dj) ↔
      (((2 : ℕ) : ℤ) ∣ i + 2 * e + p - di ∧ ((2 : ℕ) : ℤ) ∣ j + 2 * f + p - dj) := by
    push_cast
    omega
  by_cases hd : ((2 : ℕ) : ℤ) ∣ i + p - di ∧ ((2 : ℕ) : ℤ) ∣ j + p - dj
  · rw [if_pos hd, if_pos (hcond.1 hd)]
    congr 1
    push_cast at hd ⊢
    rw [h.padded ((i + p - di) / 2) ((j + p - dj) / 2)
      (reach2 S R p _ i (p - di) y hS hi (by omega) (by rw [abs_le]; constructor <;> omega))
      (reach2 S R p _ j (p - dj) z hS hj (by omega) (by rw [abs_le]; constructor <;> omega)) c hc]
    congr 1 <;> omega
  · rw [if_neg hd, if_neg (fun h => hd (hcond.2 h))]

theorem norm_near {n : ℕ} {S R y z e f : ℤ} (w : NormW) {x x' : Image ℝ} {b b' : ℕ}
    (h : Near n S R y z e f x b x' b') (C : ℕ) :
    Near C S R y z e f (channelNorm2d n w x) b (channelNorm2d n w x') b' := by
  intro i j hi hj
  obtain ⟨hf, hv⟩ := h i j hi hj
  refine ⟨hf, ?_⟩
  intro hin o _
  unfold channelNorm2d
  dsimp only
  have : (fun k : Fin n => x.pix b k i.toNat j.toNat) = fun k : Fin n => x'.pix b' k (i + e).toNat (j + f).toNat := by
    funext k
    exact hv hin k k.2
  rw [this]

theorem relu_near {C : ℕ} {S R y z e f : ℤ} {x x' : Image ℝ} {b b' : ℕ} (h : Near C S R y z e f x b x' b') :
    Near C S R y z e f (relu x) b (relu x') b' := by
  intro i j hi hj
  obtain ⟨hf, hv⟩ := h i j hi hj
  refine ⟨hf, ?_⟩
  intro hin c hc
  unfold relu
  dsimp only
  rw [hv hin c hc]

theorem add_near {C : ℕ} {S R y z e f : ℤ} {x x' u u' : Image ℝ} {b b' : ℕ} (h : Near C S R y z e f x b x' b')
    (g : Near C S R y z e f u b u' b') (hu : u.height = x.height ∧ u.width = x.width) :
    Near C S R y z e f (add x u) b (add x' u') b' := by
  intro i j hi hj
  obtain ⟨hf, hv⟩ := h i j hi hj
  obtain ⟨-, gv⟩ := g i j hi hj
  refine ⟨hf, ?_⟩
  intro hin c hc
  unfold add
  dsimp only
  have hin2 : InFrame u i j := by
    unfold InFrame
    rw [hu.1, hu.2]
    exact hin
  rw [hv hin c hc, gv hin2 c hc]

/-! ### Networks -/

theorem encoderBlock_pos (w : EncoderW) (k cin cout : ℕ) (x : Image ℝ) : Pos (encoderBlock w k cin cout x) := by
  unfold encoderBlock
  by_cases hk : k = 0
  · simp only [if_pos hk]
    exact conv_pos cin 7 1 3 (w.conv k) x
  · simp only [if_neg hk]
    exact conv_pos cin 3 2 1 (w.conv k) x

theorem encoderBlock_first {cin cout : ℕ} {S R y z e f : ℤ} (hS : 0 ≤ S) (w : EncoderW) {x x' : Image ℝ} {b b' : ℕ}
    (hx : Pos x) (hx' : Pos x') (h : Near cin S (R + S * 3) y z e f x b x' b') (C : ℕ) :
    Near C S R y z e f (encoderBlock w 0 cin cout x) b (encoderBlock w 0 cin cout x') b' := by
  unfold encoderBlock
  simp only [if_true]
  have := conv_near (p := 3) (s := 1) (e := e) (f := f) (by norm_num) hS (w.conv 0) hx hx'
    (by simpa using h) cout
  exact relu_near (norm_near _ (by simpa using this) C)

theorem encoderBlock_near {cin cout : ℕ} {S R y z e f : ℤ} (hS : 0 ≤ S) (w : EncoderW) (k : ℕ) (hk : k ≠ 0)
    {x x' : Image ℝ} {b b' : ℕ} (hx : Pos x) (hx' : Pos x')
    (h : Near cin S (R + S * 1) y z (2 * e) (2 * f) x b x' b') (C : ℕ) :
    Near C (2 * S) R y z e f (encoderBlock w k cin cout x) b (encoderBlock w k cin cout x') b' := by
  unfold encoderBlock
  simp only [if_neg hk]
  have := conv_near (p := 1) (s := 2) (e := e) (f := f) (by norm_num) hS (w.conv k) hx hx'
    (by simpa using h) cout
  exact relu_near (norm_near _ (by simpa using this) C)

/-- The convolutions that keep the size, with a window of three. -/
theorem conv3_near {cin : ℕ} {S R y z e f : ℤ} (hS : 0 ≤ S) (w : ConvW) {x x' : Image ℝ} {b b' : ℕ}
    (hx : Pos x) (hx' : Pos x') (h : Near cin S (R + S * 1) y z e f x b x' b') (C : ℕ) :
    Near C S R y z e f (conv2d cin 3 1 1 w x) b (conv2d cin 3 1 1 w x') b' := by
  have := conv_near (p := 1) (s := 1) (e := e) (f := f) (by norm_num) hS w hx hx' (by simpa using h) C
  simpa using this

theorem encoder_near {cin : ℕ} {R y z e f : ℤ} (w : EncoderW) {x x' : Image ℝ} {b b' : ℕ} (hx : Pos x) (hx' : Pos x')
    (h : Near cin 1 (R + 34) y z (16 * e) (16 * f) x b x' b') (C : ℕ) :
    Near C 16 R y z e f (encoder cin w x) b (encoder cin w x') b' := by
  unfold encoder
  dsimp only
  have h0 := encoderBlock_first (cout := 60) (S := 1) (R := R + 31) (by norm_num) w hx hx'
    (by rw [show R + 31 + 1 * 3 = R + 34 by ring]; exact h) 60
  have h1 := encoderBlock_near (cout := 120) (S := 1) (R := R + 30) (e := 8 * e) (f := 8 * f) (by norm_num) w 1 (by norm_num)
    (encoderBlock_pos _ _ _ _ _) (encoderBlock_pos _ _ _ _ _)
    (by rw [show R + 30 + 1 * 1 = R + 31 by ring, show 2 * (8 * e) = 16 * e by ring,
          show 2 * (8 * f) = 16 * f by ring]; exact h0) 120
  have h2 := encoderBlock_near (cout := 240) (S := 2) (R := R + 28) (e := 4 * e) (f := 4 * f) (by norm_num) w 2 (by norm_num)
    (encoderBlock_pos _ _ _ _ _) (encoderBlock_pos _ _ _ _ _)
    (by rw [show R + 28 + 2 * 1 = R + 30 by ring, show 2 * (4 * e) = 8 * e by ring,
          show 2 * (4 * f) = 8 * f by ring]; exact h1) 240
  have h3 := encoderBlock_near (cout := 480) (S := 4) (R := R + 24) (e := 2 * e) (f := 2 * f) (by norm_num) w 3 (by norm_num)
    (encoderBlock_pos _ _ _ _ _) (encoderBlock_pos _ _ _ _ _)
    (by rw [show R + 24 + 4 * 1 = R + 28 by ring, show 2 * (2 * e) = 4 * e by ring,
          show 2 * (2 * f) = 4 * f by ring]; exact h2) 480
  have h4 := encoderBlock_near (cout := 960) (S := 8) (R := R + 16) (e := e) (f := f) (by norm_num) w 4 (by norm_num)
    (encoderBlock_pos _ _ _ _ _) (encoderBlock_pos _ _ _ _ _)
    (by rw [show R + 16 + 8 * 1 = R + 24 by ring]; exact h3) 960
  exact conv3_near (by norm_num) (w.conv 5) (encoderBlock_pos _ _ _ _ _) (encoderBlock_pos _ _ _ _ _)
    (by rw [show R + 16 * 1 = R + 16 by ring]; exact h4) C

theorem hyperConv5_near {cin : ℕ} {S R y z e f : ℤ} (hS : 0 ≤ S) (w : ConvW) {x x' : Image ℝ} {b b' : ℕ}
    (hx : Pos x) (hx' : Pos x') (h : Near cin S (R + S * 2) y z (2 * e) (2 * f) x b x' b') (C : ℕ) :
    Near C (2 * S) R y z e f (hyperConv cin 5 2 w x) b (hyperConv cin 5 2 w x') b' := by
  have := conv_near (p := 2) (s := 2) (e := e) (f := f) (by norm_num) hS w hx hx' (by simpa using h) C
  simpa [hyperConv] using this

theorem hyperConv3_near {cin : ℕ} {S R y z e f : ℤ} (hS : 0 ≤ S) (w : ConvW) {x x' : Image ℝ} {b b' : ℕ}
    (hx : Pos x) (hx' : Pos x') (h : Near cin S (R + S * 1) y z e f x b x' b') (C : ℕ) :
    Near C S R y z e f (hyperConv cin 3 1 w x) b (hyperConv cin 3 1 w x') b' := by
  simpa [hyperConv] using conv3_near hS w hx hx' h C

theorem hyperDeconv_near {cin : ℕ} {S R y z e f : ℤ} (hS : 0 ≤ S) (w : ConvW) {x x' : Image ℝ} {b b' : ℕ}
    (hx : Pos x) (hx' : Pos x') (h : Near cin (2 * S) (R + S * 2) y z e f x b x' b') (C : ℕ) :
    Near C S R y z (2 * e) (2 * f) (hyperDeconv cin w x) b (hyperDeconv cin w x') b' := by
  have := deconv_near (p := 2) (by norm_num) hS w hx hx' (by simpa using h) C
  simpa [hyperDeconv] using this

theorem hyperConv_pos (cin k s : ℕ) (w : ConvW) (x : Image ℝ) : Pos (hyperConv cin k s w x) := conv_pos _ _ _ _ _ _

theorem hyperDeconv_pos (cin : ℕ) (w : ConvW) (x : Image ℝ) : Pos (hyperDeconv cin w x) := deconv_pos cin 2 w x

theorem relu_pos {x : Image ℝ} (h : Pos x) : Pos (relu x) := h

theorem norm_pos {n : ℕ} {w : NormW} {x : Image ℝ} (h : Pos x) : Pos (channelNorm2d n w x) := h

theorem hyperAnalysis_near {L H : ℕ} {R y z e f : ℤ} (w : ℕ → ConvW) {x x' : Image ℝ} {b b' : ℕ} (hx : Pos x)
    (hx' : Pos x') (h : Near L 16 (R + 112) y z (4 * e) (4 * f) x b x' b') (C : ℕ) :
    Near C 64 R y z e f (hyperAnalysis L H w x) b (hyperAnalysis L H w x') b' := by
  unfold hyperAnalysis
  dsimp only
  have h0 := relu_near (hyperConv3_near (S := 16) (R := R + 96) (by norm_num) (w 0) hx hx'
    (by rw [show R + 96 + 16 * 1 = R + 112 by ring]; exact h) H)
  have h1 := relu_near (hyperConv5_near (S := 16) (R := R + 64) (e := 2 * e) (f := 2 * f) (by norm_num) (w 1)
    (relu_pos (hyperConv_pos _ _ _ _ _)) (relu_pos (hyperConv_pos _ _ _ _ _))
    (by rw [show R + 64 + 16 * 2 = R + 96 by ring, show 2 * (2 * e) = 4 * e by ring,
          show 2 * (2 * f) = 4 * f by ring]; exact h0) H)
  exact hyperConv5_near (R := R) (e := e) (f := f) (S := 32) (by norm_num) (w 2)
    (relu_pos (hyperConv_pos _ _ _ _ _)) (relu_pos (hyperConv_pos _ _ _ _ _))
    (by rw [show R + 32 * 2 = R + 64 by ring]; exact h1) C

theorem hyperSynthesis_near {H : ℕ} {R y z e f : ℤ} (w : ℕ → ConvW) {x x' : Image ℝ} {b b' : ℕ} (hx : Pos x)
    (hx' : Pos x') (h : Near H 64 (R + 112) y z e f x b x' b') (C : ℕ) :
    Near C 16 R y z (4 * e) (4 * f) (hyperSynthesis H w x) b (hyperSynthesis H w x') b' := by
  unfold hyperSynthesis
  dsimp only
  have h0 := relu_near (hyperDeconv_near (R := R + 48) (S := 32) (by norm_num) (w 0) hx hx'
    (by rw [show R + 48 + 32 * 2 = R + 112 by ring]; exact h) H)
  have h1 := relu_near (hyperDeconv_near (R := R + 16) (S := 16) (by norm_num) (w 1)
    (relu_pos (hyperDeconv_pos _ _ _)) (relu_pos (hyperDeconv_pos _ _ _))
    (by rw [show R + 16 + 16 * 2 = R + 48 by ring]; exact h0) H)
  refine hyperConv3_near (R := R) (S := 16) (by norm_num) (w 2)
    (relu_pos (hyperDeconv_pos _ _ _)) (relu_pos (hyperDeconv_pos _ _ _)) ?_ C
  rw [show R + 16 * 1 = R + 16 by ring, show 4 * e = 2 * (2 * e) by ring, show 4 * f = 2 * (2 * f) by ring]
  exact h1

theorem conv3_size (cin : ℕ) (w : ConvW) (x : Image ℝ) (hx : Pos x) :
    (conv2d cin 3 1 1 w x).height = x.height ∧ (conv2d cin 3 1 1 w x).width = x.width := by
  have := hx.1
  have := hx.2
  unfold conv2d conv
  dsimp only
  omega

theorem residual_size (n : ℕ) (w : ResidualW) (x : Image ℝ) :
    (residualBlock n w x).height = x.height ∧ (residualBlock n w x).width = x.width := ⟨rfl, rfl⟩

theorem residual_near {n : ℕ} {S R y z e f : ℤ} (hS : 0 ≤ S) (w : ResidualW) {x x' : Image ℝ} {b b' : ℕ}
    (hx : Pos x) (hx' : Pos x') (h : Near n S (R + S * 2) y z e f x b x' b') :
    Near n S R y z e f (residualBlock n w x) b (residualBlock n w x') b' := by
  unfold residualBlock
  dsimp only
  have h0 := relu_near (norm_near w.norm1 (conv3_near (R := R + S * 1) hS w.conv1 hx hx'
    (by rw [show R + S * 1 + S * 1 = R + S * 2 by ring]; exact h) n) n)
  have h1 := norm_near w.norm2 (conv3_near (R := R) hS w.conv2
    (relu_pos (norm_pos (conv_pos n 3 1 1 w.conv1 x))) (relu_pos (norm_pos (conv_pos n 3 1 1 w.conv1 x'))) h0 n) n
  refine add_near (h.mono (by nlinarith)) h1 ?_
  have a := conv3_size n w.conv1 x hx
  have b := conv3_size n w.conv2 (relu (channelNorm2d n w.norm1 (conv2d n 3 1 1 w.conv1 x)))
    (conv_pos n 3 1 1 w.conv1 x)
  exact ⟨b.1.trans a.1, b.2.trans a.2⟩

theorem residBlocks_succ (w : GeneratorW) (n : ℕ) (x : Image ℝ) :
    residBlocks w (n + 1) x = residualBlock 960 (w.resid n) (residBlocks w n x) := by
  unfold residBlocks
  rw [List.range_succ, List.foldl_append]
  rfl

theorem residBlocks_size (w : GeneratorW) (n : ℕ) (x : Image ℝ) :
    (residBlocks w n x).height = x.height ∧ (residBlocks w n x).width = x.width := by
  induction n with
  | zero => exact ⟨rfl, rfl⟩
  | succ n ih =>
    rw [residBlocks_succ]
    exact ih

theorem residBlocks_near {S R y z e f : ℤ} (hS : 0 ≤ S) (w : GeneratorW) (n : ℕ) {x x' : Image ℝ} {b b' : ℕ}
    (hx : Pos x) (hx' : Pos x') (h : Near 960 S (R + S * 2 * n) y z e f x b x' b') :
    Near 960 S R y z e f (residBlocks w n x) b (residBlocks w n x') b' := by
  induction n generalizing R with
  | zero => simpa [residBlocks] using h
  | succ n ih =>
    rw [residBlocks_succ, residBlocks_succ]
    have hp : ∀ x : Image ℝ, Pos x → Pos (residBlocks w n x) := fun x hx => by
      have := residBlocks_size w n x
      exact ⟨by rw [this.1]; exact hx.1, by rw [this.2]; exact hx.2⟩
    refine residual_near hS _ (hp x hx) (hp x' hx') (ih ?_)
    have : R + S * 2 + S * 2 * (n : ℤ) = R + S * 2 * ((n + 1 : ℕ) : ℤ) := by push_cast; ring
    rw [this]
    exact h

theorem upBlock_near {cin cout : ℕ} {S R y z e f : ℤ} (hS : 0 ≤ S) (w : GeneratorW) (k : ℕ) {x x' : Image ℝ} {b b' : ℕ}
    (hx : Pos x) (hx' : Pos x') (h : Near cin (2 * S) (R + S * 1) y z e f x b x' b') (C : ℕ) :
    Near C S R y z (2 * e) (2 * f) (upBlock w k cin cout x) b (upBlock w k cin cout x') b' := by
  have := deconv_near (p := 1) (by norm_num) hS (w.up k) hx hx' (by simpa using h) cout
  exact relu_near (norm_near _ (by simpa using this) C)

theorem upBlock_pos (w : GeneratorW) (k cin cout : ℕ) (x : Image ℝ) : Pos (upBlock w k cin cout x) :=
  deconv_pos cin 1 (w.up k) x

theorem generator_near {L n : ℕ} {R y z e f : ℤ} (w : GeneratorW) {x x' : Image ℝ} {b b' : ℕ} (hx : Pos x)
    (hx' : Pos x') (h : Near L 16 (R + 34 + 32 * n) y z e f x b x' b') (C : ℕ) :
    Near C 1 R y z (16 * e) (16 * f) (generator L n w x) b (generator L n w x') b' := by
  unfold generator
  dsimp only
  have h0 := norm_near w.norm1 (conv3_near (S := 16) (R := R + 18 + 16 * 2 * n) (by norm_num) w.conv0
    (norm_pos hx) (norm_pos hx') (by rw [show R + 18 + 16 * 2 * n + 16 * 1 = R + 34 + 32 * (n : ℤ) by ring]; exact norm_near w.norm0 h L) 960) 960
  set u := channelNorm2d 960 w.norm1 (conv2d L 3 1 1 w.conv0 (channelNorm2d L w.norm0 x)) with hu
  set u' := channelNorm2d 960 w.norm1 (conv2d L 3 1 1 w.conv0 (channelNorm2d L w.norm0 x')) with hu'
  have pu : Pos u := conv_pos L 3 1 1 w.conv0 (channelNorm2d L w.norm0 x)
  have pu' : Pos u' := conv_pos L 3 1 1 w.conv0 (channelNorm2d L w.norm0 x')
  have h1 := add_near (h0.mono (by nlinarith : R + 18 ≤ _)) (residBlocks_near (by norm_num) w n pu pu' h0)
    (residBlocks_size w n u)
  set v := add u (residBlocks w n u) with hv
  set v' := add u' (residBlocks w n u') with hv'
  have pv : Pos v := pu
  have pv' : Pos v' := pu'
  have h2 := upBlock_near (cout := 480) (R := R + 10) (S := 8) (by norm_num) w 0 pv pv'
    (by rw [show R + 10 + 8 * 1 = R + 18 by ring]; exact h1) 480
  have h3 := upBlock_near (cout := 240) (R := R + 6) (S := 4) (by norm_num) w 1 (upBlock_pos _ _ _ _ _)
    (upBlock_pos _ _ _ _ _) (by rw [show R + 6 + 4 * 1 = R + 10 by ring]; exact h2) 240
  have h4 := upBlock_near (cout := 120) (R := R + 4) (S := 2) (by norm_num) w 2 (upBlock_pos _ _ _ _ _)
    (upBlock_pos _ _ _ _ _) (by rw [show R + 4 + 2 * 1 = R + 6 by ring]; exact h3) 120
  have h5 := upBlock_near (cout := 60) (R := R + 3) (S := 1) (by norm_num) w 3 (upBlock_pos _ _ _ _ _)
    (upBlock_pos _ _ _ _ _) (by rw [show R + 3 + 1 * 1 = R + 4 by ring]; exact h4) 60
  have h6 := conv_near (p := 3) (s := 1) (S := 1) (R := R) (e := 16 * e) (f := 16 * f) (by norm_num) (by norm_num)
    w.last (upBlock_pos _ _ _ _ _) (upBlock_pos _ _ _ _ _) (by
      rw [show R + 1 * ((3 : ℕ) : ℤ) = R + 3 by push_cast; ring,
        show ((1 : ℕ) : ℤ) * (16 * e) = 2 * (2 * (2 * (2 * e))) by push_cast; ring,
        show ((1 : ℕ) : ℤ) * (16 * f) = 2 * (2 * (2 * (2 * f))) by push_cast; ring]
      exact h5) C
  simpa using h6

/-! ### The autoencoder -/

theorem near_of_same {C : ℕ} {R y z y' z' : ℤ} {x x' : Image ℝ} {b b' : ℕ} (h : SameAround C R x b y z x' b' y' z') :
    Near C 1 R y z (y' - y) (z' - z) x b x' b' := by
  intro i j hi hj
  have := h (i - y) (j - z) (by simpa using hi) (by simpa using hj)
  rw [show y + (i - y) = i by ring, show z + (j - z) = j by ring, show y' + (i - y) = i + (y' - y) by ring,
    show z' + (j - z) = j + (z' - z) by ring] at this
  exact this

theorem encoderBlock_size (w : EncoderW) (k cin cout : ℕ) (hk : k ≠ 0) (x : Image ℝ) :
    (encoderBlock w k cin cout x).height = conv 3 2 1 x.height ∧
      (encoderBlock w k cin cout x).width = conv 3 2 1 x.width := by
  unfold encoderBlock
  simp only [if_neg hk]
  exact ⟨rfl, rfl⟩

theorem hific_sizes (cfg : Config) (w : Weights) (k : Coders Str HStr Lik) : (hific cfg w k).SizesOk where
  encoder x := by
    show (conv 3 1 1 _, conv 3 1 1 _) = _
    rw [(encoderBlock_size _ 4 _ _ (by norm_num) _).1, (encoderBlock_size _ 4 _ _ (by norm_num) _).2,
      (encoderBlock_size _ 3 _ _ (by norm_num) _).1, (encoderBlock_size _ 3 _ _ (by norm_num) _).2,
      (encoderBlock_size _ 2 _ _ (by norm_num) _).1, (encoderBlock_size _ 2 _ _ (by norm_num) _).2,
      (encoderBlock_size _ 1 _ _ (by norm_num) _).1, (encoderBlock_size _ 1 _ _ (by norm_num) _).2]
    rfl
  hyperAnalysis y := rfl
  mean z := rfl
  generator y := rfl

theorem quantize_near {C : ℕ} {S R y z e f : ℤ} {l l' m m' : Latent} {b b' : ℕ}
    (h : Near C S R y z e f l.image b l'.image b') (g : Near C S R y z e f m.image b m'.image b')
    (hm : m.size = l.size) :
    Near C S R y z e f (quantize l m).image b (quantize l' m').image b' := by
  intro i j hi hj
  obtain ⟨hf, hv⟩ := h i j hi hj
  obtain ⟨-, gv⟩ := g i j hi hj
  refine ⟨hf, ?_⟩
  intro hin c hc
  have hin2 : InFrame m.image i j := by
    unfold InFrame Latent.image
    rw [hm]
    exact hin
  have h1 := hv hin c hc
  have h2 := gv hin2 c hc
  unfold Latent.image at h1 h2
  unfold quantize Latent.image
  dsimp only at h1 h2 ⊢
  rw [h1, h2]

theorem quantize_pos {l : Latent} (h : Pos l.image) (m : Latent) : Pos (quantize l m).image := h

theorem median_near {C : ℕ} {S R y z e f : ℤ} {l l' : Latent} {b b' : ℕ} (m : Model Str HStr Lik)
    (h : Near C S R y z e f l.image b l'.image b') :
    Near C S R y z e f (m.median l.size).image b (m.median l'.size).image b' :=
  fun i j hi hj => ⟨(h i j hi hj).1, fun _ _ _ => rfl⟩

theorem image_latentOf (x : Image ℝ) : (latentOf x).image = x := rfl

/-- How far the networks of a model look. -/
structure Local (m : Model Str HStr Lik) (inC n : ℕ) : Prop where
  encPos : ∀ x, Pos (m.encoder x).image
  hyperPos : ∀ y, Pos (m.hyperAnalysis y).image
  enc : ∀ {x x' : Image ℝ} {b b' : ℕ} {R y z e f : ℤ}, Pos x → Pos x' →
    Near inC 1 (R + 34) y z (16 * e) (16 * f) x b x' b' → ∀ C,
    Near C 16 R y z e f (m.encoder x).image b (m.encoder x').image b'
  hyper : ∀ {x x' : Latent} {b b' : ℕ} {R y z e f : ℤ}, Pos x.image → Pos x'.image →
    (∀ C, Near C 16 (R + 112) y z (4 * e) (4 * f) x.image b x'.image b') → ∀ C,
    Near C 64 R y z e f (m.hyperAnalysis x).image b (m.hyperAnalysis x').image b'
  mean : ∀ {x x' : Latent} {b b' : ℕ} {R y z e f : ℤ}, Pos x.image → Pos x'.image →
    (∀ C, Near C 64 (R + 112) y z e f x.image b x'.image b') → ∀ C,
    Near C 16 R y z (4 * e) (4 * f) (m.synthesisMean x).image b (m.synthesisMean x').image b'
  gen : ∀ {x x' : Latent} {b b' : ℕ} {R y z e f : ℤ}, Pos x.image → Pos x'.image →
    (∀ C, Near C 16 (R + 34 + 32 * n) y z e f x.image b x'.image b') → ∀ C,
    Near C 1 R y z (16 * e) (16 * f) (m.generator x) b (m.generator x') b'

theorem hific_local (cfg : Config) (w : Weights) (k : Coders Str HStr Lik) :
    Local (hific cfg w k) cfg.inChannels cfg.numResidualBlocks where
  encPos x := conv_pos 960 3 1 1 (w.encoder.conv 5) _
  hyperPos y := hyperConv_pos cfg.hyperFeatures 5 2 (w.analysis 2) _
  enc hx hx' h C := encoder_near w.encoder hx hx' h C
  hyper hx hx' h C := hyperAnalysis_near w.analysis hx hx' (h _) C
  mean hx hx' h C := hyperSynthesis_near w.mean hx hx' (h _) C
  gen hx hx' h C := generator_near w.generator hx hx' (h _) C

/-- What `forward` reports in evaluation mode, as far as the images look the same. -/
theorem forward_near {m : Model Str HStr Lik} {inC n : ℕ} (hm : Local m inC n) (frozen frozen' : Bool)
    (u v u' v' : ℕ → ℕ → ℕ → ℕ → ℝ) {x x' : Image ℝ} {b b' : ℕ} (hx : Pos x) (hx' : Pos x') {R y z e f : ℤ}
    (h : Near inC 1 R y z (64 * e) (64 * f) x b x' b') {out out' : Output Lik}
    (ho : m.forward false frozen u v x = some out)
    (ho' : m.forward false frozen' u' v' x' = some out') (C : ℕ) :
    Near C 64 (R - 146) y z e f out.hyperLatent.image b out'.hyperLatent.image b' ∧
      Near C 16 (R - 258) y z (4 * e) (4 * f) out.latent.image b out'.latent.image b' ∧
      Near C 1 (R - 292 - 32 * n) y z (64 * e) (64 * f) out.image b out'.image b' := by
  rw [forward_quantised _ _ _ _ _ _ (Or.inl rfl)] at ho ho'
  dsimp only at ho ho'
  split_ifs at ho with hs
  split_ifs at ho' with hs'
  rw [Option.some.injEq] at ho ho'
  have h1 : ∀ C, Near C 16 (R - 34) y z (4 * e) (4 * f) (m.encoder x).image b (m.encoder x').image b' :=
    hm.enc hx hx' (by
      rw [show R - 34 + 34 = R by ring, show 16 * (4 * e) = 64 * e by ring, show 16 * (4 * f) = 64 * f by ring]
      exact h)
  have h2 : ∀ C, Near C 64 (R - 146) y z e f (m.hyperAnalysis (m.encoder x)).image b
      (m.hyperAnalysis (m.encoder x')).image b' :=
    hm.hyper (hm.encPos x) (hm.encPos x') (by
      rw [show R - 146 + 112 = R - 34 by ring]
      exact h1)
  have h3 : ∀ C, Near C 64 (R - 146) y z e f
      (quantize (m.hyperAnalysis (m.encoder x)) (m.median (m.hyperAnalysis (m.encoder x)).size)).image b
      (quantize (m.hyperAnalysis (m.encoder x')) (m.median (m.hyperAnalysis (m.encoder x')).size)).image b' := fun C =>
    quantize_near (h2 C) (median_near m (h2 C)) rfl
  have h4 : ∀ C, Near C 16 (R - 258) y z (4 * e) (4 * f)
      (m.synthesisMean (quantize (m.hyperAnalysis (m.encoder x))
        (m.median (m.hyperAnalysis (m.encoder x)).size))).image b
      (m.synthesisMean (quantize (m.hyperAnalysis (m.encoder x'))
        (m.median (m.hyperAnalysis (m.encoder x')).size))).image b' :=
    hm.mean (hm.hyperPos (m.encoder x)) (hm.hyperPos (m.encoder x')) (by
      rw [show R - 258 + 112 = R - 146 by ring]
      exact h3)
  have h5 := fun C => quantize_near ((h1 C).mono (by linarith)) (h4 C) (not_not.1 hs)
  have h6 := hm.gen (R := R - 292 - 32 * n) (quantize_pos (hm.encPos x) _) (quantize_pos (hm.encPos x') _) (by
    rw [show R - 292 - 32 * (n : ℤ) + 34 + 32 * n = R - 258 by ring]
    exact h5) C
  rw [show 16 * (4 * e) = 64 * e by ring, show 16 * (4 * f) = 64 * f by ring] at h6
  subst ho ho'
  exact ⟨h3 C, h5 C, h6⟩

theorem forward_size {m : Model Str HStr Lik} (hs : m.SizesOk) (frozen : Bool) (u v : ℕ → ℕ → ℕ → ℕ → ℝ) (x : Image ℝ)
    (out : Output Lik) (ho : m.forward false frozen u v x = some out) :
    out.image.height = generatorSize (encoderSize x.height) ∧ out.image.width = generatorSize (encoderSize x.width) := by
  rw [forward_quantised _ _ _ _ _ _ (Or.inl rfl)] at ho
  dsimp only at ho
  split_ifs at ho with h
  rw [Option.some.injEq] at ho
  subst ho
  dsimp only
  have h1 := hs.generator (quantize (m.encoder x) (m.synthesisMean (quantize (m.hyperAnalysis (m.encoder x))
    (m.median (m.hyperAnalysis (m.encoder x)).size))))
  rw [show (quantize (m.encoder x) (m.synthesisMean (quantize (m.hyperAnalysis (m.encoder x))
    (m.median (m.hyperAnalysis (m.encoder x)).size)))).size = (m.encoder x).size from rfl, hs.encoder x] at h1
  exact ⟨congrArg Prod.fst h1, congrArg Prod.snd h1⟩

/-- The padding of one axis: with reflection the padded part looks no further than the pixel's distance. -/
theorem pad_axis (h h' : ℕ) (y R e : ℤ) (hy : 0 ≤ y ∧ y < h) (he : 64 ∣ e) (hR : 0 ≤ R)
    (hw : ∀ t, |t - y| ≤ R → ((0 ≤ t ∧ t < h) ↔ (0 ≤ t + e ∧ t + e < h')))
    (ha : (64 - h % 64) % 64 < h) (ha' : (64 - h' % 64) % 64 < h') (t : ℤ) (ht : |t - y| ≤ R) :
    ((0 ≤ t ∧ t < (h + (64 - h % 64) % 64 : ℕ)) ↔ (0 ≤ t + e ∧ t + e < (h' + (64 - h' % 64) % 64 : ℕ))) ∧
      ((0 ≤ t ∧ t < (h + (64 - h % 64) % 64 : ℕ)) → ∃ r : ℤ, |r - y| ≤ R ∧ (0 ≤ r ∧ r < h) ∧
        PadMode.source .reflect h t.toNat = some r.toNat ∧
        PadMode.source .reflect h' (t + e).toNat = some (r + e).toNat) := by
  have h0 := hw y (by simpa using hR)
  have h1 := hw t ht
  rw [abs_le] at ht
  have key : t < h ∨ (h' : ℤ) = h + e := by
    by_cases hth : t < h
    · exact Or.inl hth
    · right
      have a := hw h (by rw [abs_le]; omega)
      have b := hw (h - 1) (by rw [abs_le]; omega)
      omega
  constructor
  · omega
  · intro hin
    by_cases hth : t < h
    · refine ⟨t, by rw [abs_le]; omega, by omega, ?_, ?_⟩
      · unfold PadMode.source
        dsimp only
        rw [if_pos (by omega)]
      · unfold PadMode.source
        dsimp only
        rw [if_pos (by omega)]
    · refine ⟨2 * (h - 1) - t, by rw [abs_le]; omega, by omega, ?_, ?_⟩
      · unfold PadMode.source
        dsimp only
        rw [if_neg (by omega)]
        congr 1
        omega
      · unfold PadMode.source
        dsimp only
        rw [if_neg (by omega)]
        congr 1
        omega

theorem pad_pix (x p : Image ℝ) (h w : ℕ) (hp : padImageToFactor x 64 = .ok (p, h, w)) (hx : Pos x) :
    p.height = x.height + (64 - x.height % 64) % 64 ∧ p.width = x.width + (64 - x.width % 64) % 64 ∧
      (64 - x.height % 64) % 64 < x.height ∧ (64 - x.width % 64) % 64 < x.width ∧
      ∀ b c i j r s, i < p.height → j < p.width → PadMode.source .reflect x.height i = some r →
        PadMode.source .reflect x.width j = some s → p.pix b c i j = x.pix b c r s := by
  have h0 := hx.1
  have w0 := hx.2
  unfold padImageToFactor at hp
  rw [if_neg (by norm_num)] at hp
  dsimp only at hp
  split_ifs at hp with hn
  · unfold padEnd at hp
    split_ifs at hp with ha
    simp only [PadMode.allowed, Bool.and_eq_true, decide_eq_true_eq] at ha
    simp only [Except.ok.injEq, Prod.mk.injEq] at hp
    obtain ⟨rfl, -, -⟩ := hp
    refine ⟨rfl, rfl, ha.1, ha.2, ?_⟩
    intro b c i j r s _ _ hr hs
    dsimp only
    rw [hr, hs]
  · rw [not_or, not_not, not_not] at hn
    simp only [Except.ok.injEq, Prod.mk.injEq] at hp
    obtain ⟨rfl, -, -⟩ := hp
    refine ⟨by omega, by omega, by omega, by omega, ?_⟩
    intro b c i j r s hi hj hr hs
    unfold PadMode.source at hr hs
    dsimp only at hr hs
    rw [if_pos hi] at hr
    rw [if_pos hj] at hs
    simp only [Option.some.injEq] at hr hs
    rw [hr, hs]

theorem pad_near {C : ℕ} {x x' p p' : Image ℝ} {b b' h w h' w' : ℕ} (hx : Pos x) (hx' : Pos x')
    (hp : padImageToFactor x 64 = .ok (p, h, w)) (hp' : padImageToFactor x' 64 = .ok (p', h', w'))
    {R y z e f : ℤ} (hR : 0 ≤ R) (hyz : InFrame x y z) (hn : Near C 1 R y z (64 * e) (64 * f) x b x' b') :
    Near C 1 R y z (64 * e) (64 * f) p b p' b' := by
  obtain ⟨p1, p2, a1, a2, pv⟩ := pad_pix x p h w hp hx
  obtain ⟨p1', p2', a1', a2', pv'⟩ := pad_pix x' p' h' w' hp' hx'
  have hc := (hn y z (by simpa using hR) (by simpa using hR)).1.1 hyz
  have r1 : ∀ t, |t - y| ≤ R → ((0 ≤ t ∧ t < x.height) ↔ (0 ≤ t + 64 * e ∧ t + 64 * e < x'.height)) := by
    intro t ht
    have g := (hn t z (by simpa using ht) (by simpa using hR)).1
    exact ⟨fun a => ⟨(g.1 ⟨a.1, a.2, hyz.2.2⟩).1, (g.1 ⟨a.1, a.2, hyz.2.2⟩).2.1⟩,
      fun a => ⟨(g.2 ⟨a.1, a.2, hc.2.2⟩).1, (g.2 ⟨a.1, a.2, hc.2.2⟩).2.1⟩⟩
  have r2 : ∀ t, |t - z| ≤ R → ((0 ≤ t ∧ t < x.width) ↔ (0 ≤ t + 64 * f ∧ t + 64 * f < x'.width)) := by
    intro t ht
    have g := (hn y t (by simpa using hR) (by simpa using ht)).1
    exact ⟨fun a => (g.1 ⟨hyz.1, hyz.2.1, a⟩).2.2, fun a => (g.2 ⟨hc.1, hc.2.1, a⟩).2.2⟩
  intro i j hi hj
  rw [one_mul] at hi hj
  obtain ⟨f1, s1⟩ := pad_axis x.height x'.height y R (64 * e) ⟨hyz.1, hyz.2.1⟩ ⟨e, rfl⟩ hR r1 a1 a1' i hi
  obtain ⟨f2, s2⟩ := pad_axis x.width x'.width z R (64 * f) hyz.2.2 ⟨f, rfl⟩ hR r2 a2 a2' j hj
  rw [← p1, ← p1'] at f1
  rw [← p2, ← p2'] at f2
  rw [← p1] at s1
  rw [← p2] at s2
  have hF : InFrame p i j ↔ InFrame p' (i + 64 * e) (j + 64 * f) :=
    ⟨fun a => ⟨(f1.1 ⟨a.1, a.2.1⟩).1, (f1.1 ⟨a.1, a.2.1⟩).2, f2.1 a.2.2⟩,
      fun a => ⟨(f1.2 ⟨a.1, a.2.1⟩).1, (f1.2 ⟨a.1, a.2.1⟩).2, f2.2 a.2.2⟩⟩
  refine ⟨hF, ?_⟩
  intro hin c hcC
  have hin' := hF.1 hin
  obtain ⟨r, hr, fr, sr, sr'⟩ := s1 ⟨hin.1, hin.2.1⟩
  obtain ⟨q, hq, fq, sq, sq'⟩ := s2 hin.2.2
  rw [pv b c _ _ _ _ (by have := hin.1; have := hin.2.1; omega) (by have := hin.2.2; omega) sr sq,
    pv' b' c _ _ _ _ (by have := hin'.1; have := hin'.2.1; omega) (by have := hin'.2.2; omega) sr' sq']
  exact (hn r q (by simpa using hr) (by simpa using hq)).2 ⟨fr.1, fr.2, fq.1, fq.2⟩ c hcC

/-! ### C132 -/

/-- **C132, encoder.** Each place of the latent depends only on the pixels of its own image at most 34 rows and columns
away from its corner, and in the same way everywhere: for two batches that look the same around `(16 i, 16 j)` and
`(16 i', 16 j')` the latents at `(i, j)` and `(i', j')` are the same. -/
theorem C132_encoder (cfg : Config) (w : Weights) (k : Coders Str HStr Lik) (x x' : Image ℝ) (hx : 0 < x.height ∧ 0 < x.width)
    (hx' : 0 < x'.height ∧ 0 < x'.width) (b b' i j i' j' : ℕ) (hi : i < ((hific cfg w k).encoder x).size.1)
    (hj : j < ((hific cfg w k).encoder x).size.2)
    (h : SameAround cfg.inChannels 34 x b (16 * i) (16 * j) x' b' (16 * i') (16 * j')) (c : ℕ) :
    ((hific cfg w k).encoder x).val b c i j = ((hific cfg w k).encoder x').val b' c i' j' := by
  have hn := near_of_same h
  rw [← mul_sub, ← mul_sub] at hn
  have := ((hific_local cfg w k).enc (R := 0) hx hx' (by simpa using hn) (c + 1) i j (by simp) (by simp)).2
    ⟨by simp, by exact_mod_cast hi, by simp, by exact_mod_cast hj⟩ c (by omega)
  simpa [Latent.image] using this

/-- **C132, latents.** In evaluation mode each place of the quantised hyper-latent that `forward` reports depends only
on the pixels of its image at most 146 rows and columns away from its corner, and each place of the quantised latent on
those at most 258 away; in the same way at all places that are a multiple of 64 pixels apart. -/
theorem C132_latents (cfg : Config) (w : Weights) (k : Coders Str HStr Lik) (frozen frozen' : Bool)
    (u v u' v' : ℕ → ℕ → ℕ → ℕ → ℝ) (x x' : Image ℝ) (hx : 0 < x.height ∧ 0 < x.width)
    (hx' : 0 < x'.height ∧ 0 < x'.width) (out out' : Output Lik)
    (ho : (hific cfg w k).forward false frozen u v x = some out)
    (ho' : (hific cfg w k).forward false frozen' u' v' x' = some out') (b b' : ℕ) :
    (∀ i j i' j' : ℕ, i < out.hyperLatent.size.1 → j < out.hyperLatent.size.2 →
      SameAround cfg.inChannels 146 x b (64 * i) (64 * j) x' b' (64 * i') (64 * j') →
      ∀ c, out.hyperLatent.val b c i j = out'.hyperLatent.val b' c i' j') ∧
    (∀ i j i' j' : ℕ, i < out.latent.size.1 → j < out.latent.size.2 → i' % 4 = i % 4 → j' % 4 = j % 4 →
      SameAround cfg.inChannels 258 x b (16 * i) (16 * j) x' b' (16 * i') (16 * j') →
      ∀ c, out.latent.val b c i j = out'.latent.val b' c i' j') := by
  constructor
  · intro i j i' j' hi hj h c
    have hn := near_of_same h
    rw [← mul_sub, ← mul_sub] at hn
    have := ((forward_near (hific_local cfg w k) frozen frozen' u v u' v' hx hx' hn ho ho' (c + 1)).1 i j (by simp) (by simp)).2
      ⟨by simp, by exact_mod_cast hi, by simp, by exact_mod_cast hj⟩ c (by omega)
    simpa [Latent.image] using this
  · intro i j i' j' hi hj di dj h c
    have hn := near_of_same h
    obtain ⟨e, he⟩ : ∃ e : ℤ, (i' : ℤ) - i = 4 * e := ⟨((i' : ℤ) - i) / 4, by omega⟩
    obtain ⟨f, hf⟩ : ∃ f : ℤ, (j' : ℤ) - j = 4 * f := ⟨((j' : ℤ) - j) / 4, by omega⟩
    rw [← mul_sub, ← mul_sub, he, hf, show (16 : ℤ) * (4 * e) = 64 * e by ring,
      show (16 : ℤ) * (4 * f) = 64 * f by ring] at hn
    have := ((forward_near (hific_local cfg w k) frozen frozen' u v u' v' hx hx' hn ho ho' (c + 1)).2.1 i j (by simp) (by simp)).2
      ⟨by simp, by exact_mod_cast hi, by simp, by exact_mod_cast hj⟩ c (by omega)
    rw [← he, ← hf] at this
    simpa [Latent.image] using this

/-- **C132, reconstruction.** For all weights, all numbers of features, all lossless range coders and any two batches
that `compress` accepts: if image `b` of the one around the pixel `(y, z)` looks like image `b'` of the other around
`(y', z')`, a multiple of 64 away, up to 292 pixels plus 32 for each residual block (580 for the nine of HiFiC), then
the two decoded pixels are the same. So a reconstruction depends neither on other images of the batch nor on anything
further away, nor on the place in the frame. -/
theorem C132_pixels (cfg : Config) (w : Weights) (k : Coders Str HStr Lik) (hl : (hific cfg w k).Lossless)
    (x x' : Image ℝ) (cx cx' : Compressed Str HStr) (hc : (hific cfg w k).nets.compress x = .ok cx)
    (hc' : (hific cfg w k).nets.compress x' = .ok cx') (b b' y z y' z' : ℕ) (hy : y < x.height) (hz : z < x.width)
    (hy' : y' % 64 = y % 64) (hz' : z' % 64 = z % 64)
    (h : SameAround cfg.inChannels (292 + 32 * cfg.numResidualBlocks) x b y z x' b' y' z') (c : ℕ) :
    ((hific cfg w k).nets.decompress cx).pix b c y z = ((hific cfg w k).nets.decompress cx').pix b' c y' z' := by
  have hx : Pos x := ⟨by omega, by omega⟩
  have hR : (0 : ℤ) ≤ 292 + 32 * cfg.numResidualBlocks := by positivity
  have h00 := h 0 0 (by simpa using hR) (by simpa using hR)
  rw [add_zero, add_zero, add_zero, add_zero] at h00
  have hfr : InFrame x y z := ⟨by simp, by exact_mod_cast hy, by simp, by exact_mod_cast hz⟩
  have hfr' := h00.1.1 hfr
  have hx' : Pos x' := by
    have := hfr'.1
    have := hfr'.2.1
    have := hfr'.2.2
    constructor <;> omega
  have hs := hific_sizes cfg w k
  obtain ⟨p, out, hp, ho, -, -, hpix, -⟩ :=
    C105_coding_partial (hific cfg w k) hs hl x hx.1 hx.2 cx hc false (fun _ _ _ _ => 0) (fun _ _ _ _ => 0)
  obtain ⟨p', out', hp', ho', -, -, hpix', -⟩ :=
    C105_coding_partial (hific cfg w k) hs hl x' hx'.1 hx'.2 cx' hc' false (fun _ _ _ _ => 0) (fun _ _ _ _ => 0)
  obtain ⟨e, he⟩ : ∃ e : ℤ, (y' : ℤ) - y = 64 * e := ⟨((y' : ℤ) - y) / 64, by omega⟩
  obtain ⟨f, hf⟩ : ∃ f : ℤ, (z' : ℤ) - z = 64 * f := ⟨((z' : ℤ) - z) / 64, by omega⟩
  have hn := near_of_same h
  rw [he, hf] at hn
  have pn := pad_near hx hx' hp hp' hR hfr hn
  have pp : Pos p := by
    obtain ⟨p1, p2, -⟩ := pad_pix x p _ _ hp hx
    exact ⟨by rw [p1]; have := hx.1; omega, by rw [p2]; have := hx.2; omega⟩
  have pp' : Pos p' := by
    obtain ⟨p1, p2, -⟩ := pad_pix x' p' _ _ hp' hx'
    exact ⟨by rw [p1]; have := hx'.1; omega, by rw [p2]; have := hx'.2; omega⟩
  have hfn := (forward_near (hific_local cfg w k) false false _ _ _ _ pp pp' pn ho ho' (c + 1)).2.2 y z (by simp) (by simp)
  rw [hpix, hpix']
  congr 1
  have hin : InFrame out.image y z := by
    obtain ⟨s1, s2⟩ := forward_size hs _ _ _ p out ho
    obtain ⟨p1, p2, -⟩ := pad_pix x p _ _ hp hx
    have := pp.1
    have := pp.2
    rw [encoderSize_eq _ (by omega), generatorSize_eq _ (by omega)] at s1 s2
    refine ⟨by simp, ?_, by simp, ?_⟩ <;> omega
  have := hfn.2 hin c (by omega)
  rw [← he, ← hf] at this
  simpa using this

/-- **C132, batches.** What decoding gives for an image does not depend on the other images that were compressed with
it, nor on its place in the batch. -/
theorem C132_batches (cfg : Config) (w : Weights) (k : Coders Str HStr Lik) (hl : (hific cfg w k).Lossless)
    (x x' : Image ℝ) (cx cx' : Compressed Str HStr) (hc : (hific cfg w k).nets.compress x = .ok cx)
    (hc' : (hific cfg w k).nets.compress x' = .ok cx') (b b' : ℕ) (hh : x'.height = x.height) (hw : x'.width = x.width)
    (h : ∀ c < cfg.inChannels, ∀ i < x.height, ∀ j < x.width, x'.pix b' c i j = x.pix b c i j) :
    ∀ c, ∀ y < x.height, ∀ z < x.width,
      ((hific cfg w k).nets.decompress cx').pix b' c y z = ((hific cfg w k).nets.decompress cx).pix b c y z := by
  intro c y hy z hz
  refine (C132_pixels cfg w k hl x x' cx cx' hc hc' b b' y z y z hy hz rfl rfl ?_ c).symm
  intro di dj _ _
  refine ⟨by unfold InFrame; rw [hh, hw], ?_⟩
  rintro ⟨a1, a2, a3, a4⟩ c hc
  exact (h c hc _ (by omega) _ (by omega)).symm

/-- **C132, tiles.** A tile whose corner is at multiples of 64 can be coded on its own: wherever it is at least 292
pixels plus 32 for each residual block away from the cuts, what decoding gives for the tile is what decoding gives for
the whole image. -/
theorem C132_tiles (cfg : Config) (w : Weights) (k : Coders Str HStr Lik) (hl : (hific cfg w k).Lossless)
    (x : Image ℝ) (top left height width : ℕ) (cx ct : Compressed Str HStr)
    (hc : (hific cfg w k).nets.compress x = .ok cx)
    (hct : (hific cfg w k).nets.compress (tile x top left height width) = .ok ct)
    (d1 : 64 ∣ top) (d2 : 64 ∣ left) (h1 : top + height ≤ x.height) (h2 : left + width ≤ x.width) (b c i j : ℕ)
    (hi : i < height) (hj : j < width)
    (m1 : top = 0 ∨ 292 + 32 * cfg.numResidualBlocks ≤ i)
    (m2 : top + height = x.height ∨ i + (292 + 32 * cfg.numResidualBlocks) < height)
    (m3 : left = 0 ∨ 292 + 32 * cfg.numResidualBlocks ≤ j)
    (m4 : left + width = x.width ∨ j + (292 + 32 * cfg.numResidualBlocks) < width) :
    ((hific cfg w k).nets.decompress ct).pix b c i j =
      ((hific cfg w k).nets.decompress cx).pix b c (top + i) (left + j) := by
  refine (C132_pixels cfg w k hl x (tile x top left height width) cx ct hc hct b b (top + i) (left + j) i j
    (by omega) (by omega) (by omega) (by omega) ?_ c).symm
  intro di dj hdi hdj
  rw [abs_le] at hdi hdj
  have hf : InFrame x ((top + i : ℕ) + di) ((left + j : ℕ) + dj) ↔
      InFrame (tile x top left height width) (i + di) (j + dj) := by
    unfold InFrame tile
    dsimp only
    push_cast
    omega
  refine ⟨hf, ?_⟩
  intro hin c _
  obtain ⟨a1, a2, a3, a4⟩ := hf.1 hin
  unfold tile
  dsimp only
  congr 1
  · push_cast
    omega
  · push_cast
    omega

/-! ### The margin is needed -/

/-- Range coders that hand over the symbols. -/
def plain : Coders Symbols Symbols ℝ where
  hyperLik _ := 1
  latentLik _ _ _ := 1
  encodeHyper s := s
  decodeHyper s _ := s
  encodeLatent s _ := s
  decodeLatent s _ := s

/-- Weights with which a decoded pixel tells whether there are three rows above it. -/
def edgeWeights : Weights :=
  let zero : ConvW := ⟨fun _ _ _ _ => 0, fun _ => 0⟩
  let one : NormW := ⟨fun _ => 0, fun _ => 1⟩
  { encoder := ⟨fun _ => zero, fun _ => one⟩
    generator := ⟨one, zero, one, fun _ => ⟨zero, one, zero, one⟩, fun _ => zero, fun _ => one,
      ⟨fun _ c di dj => if c = 0 ∧ di = 0 ∧ dj = 3 then 1 else 0, fun _ => 0⟩⟩
    analysis := fun _ => zero
    mean := fun _ => zero
    scale := fun _ => zero
    medians := fun _ => 0 }

theorem plain_lossless (cfg : Config) (w : Weights) : (hific cfg w plain).Lossless := ⟨fun _ => rfl, fun _ _ => rfl⟩

theorem edge_up (k cin cout : ℕ) (h : 0 < cout) (x : Image ℝ) (b i j : ℕ) :
    (upBlock edgeWeights.generator k cin cout x).pix b 0 i j = 1 := by
  simp [upBlock, relu, channelNorm2d, edgeWeights, h, Layers.Norm.channelNorm]

theorem edge_last (x : Image ℝ) (hx : ∀ b i j, x.pix b 0 i j = 1) (b c i j : ℕ) (hi : i < x.height) (hj : j < x.width) :
    (conv2d 60 7 1 3 edgeWeights.generator.last x).pix b c i j = if 3 ≤ i then 1 else 0 := by
  unfold conv2d
  dsimp only
  rw [Finset.sum_eq_single 0, Finset.sum_eq_single 0, Finset.sum_eq_single 3]
  · simp only [edgeWeights, zeroPadded, hx]
    by_cases h : 3 ≤ i
    · simp only [true_and, if_true, zero_add, one_mul]
      rw [if_pos h, if_pos (by push_cast; omega)]
    · simp only [true_and, if_true, zero_add, one_mul]
      rw [if_neg h, if_neg (by push_cast; omega)]
  · intro d _ hd
    simp [edgeWeights, hd]
  · simp
  · intro d _ hd
    simp [edgeWeights, hd]
  · simp
  · intro d _ hd
    simp [edgeWeights, hd]
  · simp

theorem edge_pixel (x : Image ℝ) (h0 : 0 < x.height) (w0 : 0 < x.width) (dh : 64 ∣ x.height) (dw : 64 ∣ x.width) :
    ∃ c, (hific {} edgeWeights plain).nets.compress x = .ok c ∧ ∀ b ch i j, i < x.height → j < x.width →
      ((hific {} edgeWeights plain).nets.decompress c).pix b ch i j = if 3 ≤ i then 1 else 0 := by
  have hs := hific_sizes {} edgeWeights plain
  obtain ⟨c, out, hc, ho, -, -, hp⟩ := C105_exact_partial _ hs (plain_lossless {} edgeWeights) x h0 w0 dh dw false
    (fun _ _ _ _ => 0) (fun _ _ _ _ => 0)
  refine ⟨c, hc, ?_⟩
  intro b ch i j hi hj
  rw [hp]
  obtain ⟨s1, s2⟩ := forward_size hs _ _ _ x out ho
  rw [encoderSize_eq _ (by omega), generatorSize_eq _ (by omega)] at s1 s2
  have hg : ∃ y, out.image = conv2d 60 7 1 3 edgeWeights.generator.last
      (upBlock edgeWeights.generator 3 120 60 y) := by
    rw [forward_quantised _ _ _ _ _ _ (Or.inl rfl)] at ho
    dsimp only at ho
    split_ifs at ho with h
    rw [Option.some.injEq] at ho
    subst ho
    exact ⟨_, rfl⟩
  obtain ⟨y, hy⟩ := hg
  have e1 : out.image.height = (upBlock edgeWeights.generator 3 120 60 y).height := by
    have := (upBlock_pos edgeWeights.generator 3 120 60 y).1
    rw [hy]
    unfold conv2d conv
    dsimp only
    omega
  have e2 : out.image.width = (upBlock edgeWeights.generator 3 120 60 y).width := by
    have := (upBlock_pos edgeWeights.generator 3 120 60 y).2
    rw [hy]
    unfold conv2d conv
    dsimp only
    omega
  rw [hy, edge_last _ (edge_up 3 120 60 (by norm_num) y) b ch i j (by omega) (by omega)]
  unfold clamp01
  split_ifs <;> simp

/-- **C132, seams.** Without a margin tiles do not fit: with some weights, every image of 128 rows decodes to 1 in row
64, while its lower tile, coded on its own, decodes to 0 there. -/
theorem C132_seams : ∃ (w : Weights) (k : Coders Symbols Symbols ℝ), (hific {} w k).Lossless ∧
    ∀ x : Image ℝ, x.height = 128 → x.width = 64 → ∃ cx ct, (hific {} w k).nets.compress x = .ok cx ∧
      (hific {} w k).nets.compress (tile x 64 0 64 64) = .ok ct ∧
      ∀ b c, ((hific {} w k).nets.decompress cx).pix b c (64 + 0) (0 + 0) = 1 ∧
        ((hific {} w k).nets.decompress ct).pix b c 0 0 = 0 := by
  refine ⟨edgeWeights, plain, plain_lossless _ _, ?_⟩
  intro x hh hw
  obtain ⟨cx, hc, hp⟩ := edge_pixel x (by omega) (by omega) (by omega) (by omega)
  obtain ⟨ct, hct, hpt⟩ := edge_pixel (tile x 64 0 64 64) (by simp [tile]) (by simp [tile]) (by simp [tile])
    (by simp [tile])
  refine ⟨cx, ct, hc, hct, ?_⟩
  intro b c
  rw [hp b c _ _ (by omega) (by omega), hpt b c _ _ (by simp [tile]) (by simp [tile])]
  simp

/-- A tile of 1280 rows of an image of 2560 rows, for the networks above: the hypotheses of `C132_tiles` hold at row 640. -/
example (x : Image ℝ) (hh : x.height = 2560) (hw : x.width = 64) : ∃ cx ct,
    (hific {} edgeWeights plain).nets.compress x = .ok cx ∧
    (hific {} edgeWeights plain).nets.compress (tile x 640 0 1280 64) = .ok ct ∧
    ∀ b c, ((hific {} edgeWeights plain).nets.decompress ct).pix b c 640 10 =
      ((hific {} edgeWeights plain).nets.decompress cx).pix b c (640 + 640) (0 + 10) := by
  obtain ⟨cx, hc, -⟩ := edge_pixel x (by omega) (by omega) (by omega) (by omega)
  obtain ⟨ct, hct, -⟩ := edge_pixel (tile x 640 0 1280 64) (by simp [tile]) (by simp [tile])
    (show 64 ∣ 1280 by norm_num) (show 64 ∣ 64 by norm_num)
  refine ⟨cx, ct, hc, hct, fun b c => ?_⟩
  exact C132_tiles {} edgeWeights plain (plain_lossless _ _) x 640 0 1280 64 cx ct hc hct (by norm_num) (by norm_num)
    (by omega) (by omega) b c 640 10 (by norm_num) (by norm_num) (Or.inr (by norm_num)) (Or.inr (by norm_num))
    (Or.inl rfl) (Or.inl (by omega))

/-- Two different batches of two images, the second with the images exchanged: the hypotheses of `C132_encoder` and
`C132_latents` hold everywhere. -/
example (x : Image ℝ) (hh : x.height = 128) (hw : x.width = 64) : ∃ out out',
    (hific {} edgeWeights plain).forward false false (fun _ _ _ _ => 0) (fun _ _ _ _ => 0) x = some out ∧
    (hific {} edgeWeights plain).forward false false (fun _ _ _ _ => 0) (fun _ _ _ _ => 0)
      ⟨128, 64, fun b => x.pix (1 - b)⟩ = some out' ∧
    (∀ c, ((hific {} edgeWeights plain).encoder x).val 0 c 7 3 =
      ((hific {} edgeWeights plain).encoder ⟨128, 64, fun b => x.pix (1 - b)⟩).val 1 c 7 3) ∧
    (∀ c, out.hyperLatent.val 0 c 1 0 = out'.hyperLatent.val 1 c 1 0) ∧
    ∀ c, out.latent.val 0 c 7 3 = out'.latent.val 1 c 7 3 := by
  have hs := hific_sizes {} edgeWeights plain
  have hl := plain_lossless {} edgeWeights
  obtain ⟨-, out, -, ho, -⟩ := C105_exact_partial _ hs hl x (by omega) (by omega) (by omega) (by omega) false
    (fun _ _ _ _ => 0) (fun _ _ _ _ => 0)
  obtain ⟨-, out', -, ho', -⟩ := C105_exact_partial _ hs hl ⟨128, 64, fun b => x.pix (1 - b)⟩ (by norm_num)
    (by norm_num) (show 64 ∣ 128 by norm_num) (show 64 ∣ 64 by norm_num) false (fun _ _ _ _ => 0) (fun _ _ _ _ => 0)
  have hsame : ∀ R y z, SameAround 3 R x 0 y z ⟨128, 64, fun b => x.pix (1 - b)⟩ 1 y z := fun R y z di dj _ _ =>
    ⟨by unfold InFrame; rw [hh, hw], fun _ _ _ => rfl⟩
  have he : ((hific {} edgeWeights plain).encoder x).size = (8, 4) := by
    rw [hs.encoder, hh, hw]
    decide
  have hq : out.latent.size = (8, 4) ∧ out.hyperLatent.size = (2, 1) := by
    have ho2 := ho
    rw [forward_quantised _ _ _ _ _ _ (Or.inl rfl)] at ho2
    dsimp only at ho2
    split_ifs at ho2 with h
    rw [Option.some.injEq] at ho2
    rw [← ho2]
    refine ⟨he, ?_⟩
    show ((hific {} edgeWeights plain).hyperAnalysis ((hific {} edgeWeights plain).encoder x)).size = _
    rw [hs.hyperAnalysis, he]
    decide
  obtain ⟨l1, l2⟩ := C132_latents {} edgeWeights plain false false _ _ _ _ x ⟨128, 64, fun b => x.pix (1 - b)⟩
    ⟨by omega, by omega⟩ ⟨by norm_num, by norm_num⟩ out out' ho ho' 0 1
  refine ⟨out, out', ho, ho', ?_, ?_, ?_⟩
  · exact C132_encoder {} edgeWeights plain x _ ⟨by omega, by omega⟩ ⟨by norm_num, by norm_num⟩ 0 1 7 3 7 3
      (by rw [he]; norm_num) (by rw [he]; norm_num) (hsame _ _ _)
  · exact l1 1 0 1 0 (by rw [hq.2]; norm_num) (by rw [hq.2]; norm_num) (hsame _ _ _)
  · exact l2 7 3 7 3 (by rw [hq.1]; norm_num) (by rw [hq.1]; norm_num) rfl rfl (hsame _ _ _)

end Verif.Models.HificNet
