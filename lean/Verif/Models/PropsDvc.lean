import Verif.Models.Dvc
import Mathlib.Algebra.Order.Round
import Mathlib.Algebra.Order.Archimedean.Real.Basic
import Mathlib.Tactic.Linarith
import Mathlib.Tactic.NormNum
import Mathlib.Tactic.Ring

/-!
C55 and C56: sizes and closed loop of the video codec.
-/

namespace Verif.Models.Dvc

/-! ### C55 -/

theorem convT_conv (c : Conf) (hs : 1 ≤ c.stride) (n : ℕ) (hn : 1 ≤ n) :
    ∃ m, c.conv n = .ok m ∧ 1 ≤ m ∧ c.convT m n = .ok n := by
  have h2 : 2 * c.padding ≤ c.kernel ∧ c.kernel ≤ 2 * c.padding + 1 := by unfold Conf.padding; omega
  set t := n + 2 * c.padding - c.kernel with ht
  have hle : c.kernel ≤ n + 2 * c.padding := by omega
  refine ⟨t / c.stride + 1, ?_, Nat.le_add_left 1 _, ?_⟩
  · unfold Conf.conv
    rw [if_neg (by omega)]
  · unfold Conf.convT
    have hd := Nat.div_add_mod t c.stride
    have hm := Nat.mod_lt t (show c.stride > 0 by omega)
    have e : (((t / c.stride + 1 : ℕ) : ℤ) - 1) * c.stride = ((c.stride * (t / c.stride) : ℕ) : ℤ) := by
      push_cast; ring
    dsimp only
    rw [e, if_neg (by omega)]

theorem convT2_conv2 (c : Conf) (hs : 1 ≤ c.stride) (n : Size) (hn : 1 ≤ n.1 ∧ 1 ≤ n.2) :
    ∃ m, c.conv2 n = .ok m ∧ (1 ≤ m.1 ∧ 1 ≤ m.2) ∧ c.convT2 m n = .ok n := by
  obtain ⟨a, h1, h2, h3⟩ := convT_conv c hs n.1 hn.1
  obtain ⟨b, h4, h5, h6⟩ := convT_conv c hs n.2 hn.2
  refine ⟨(a, b), ?_, ⟨h2, h5⟩, ?_⟩
  · unfold Conf.conv2; rw [h1, h4]; rfl
  · unfold Conf.convT2; dsimp only; rw [h3, h6]; rfl

theorem decodeLoop_encodeLoop (c : Conf) (hs : 1 ≤ c.stride) (k : ℕ) (n : Size)
    (hn : 1 ≤ n.1 ∧ 1 ≤ n.2) (pre : List Size) :
    ∃ lat s, c.encodeLoop k n pre = .ok (lat, pre ++ s) ∧ s.length = k ∧
      ∀ j, c.decodeLoop (k + j) lat (pre ++ s) = c.decodeLoop j n pre := by
  induction k generalizing n pre with
  | zero => exact ⟨n, [], by simp [Conf.encodeLoop], rfl, fun j => by simp⟩
  | succ k ih =>
    obtain ⟨m, h1, h2, h3⟩ := convT2_conv2 c hs n hn
    obtain ⟨lat, s, e1, e2, e3⟩ := ih m h2 (pre ++ [n])
    refine ⟨lat, n :: s, ?_, by simp [e2], ?_⟩
    · have : c.encodeLoop (k + 1) n pre = (c.conv2 n >>= fun m => c.encodeLoop k m (pre ++ [n])) := rfl
      rw [this, h1]
      show c.encodeLoop k m (pre ++ [n]) = _
      rw [e1]; simp
    · intro j
      have e := e3 (j + 1)
      rw [show k + 1 + j = k + (j + 1) by omega]
      rw [show pre ++ n :: s = pre ++ [n] ++ s by simp, e]
      have : c.decodeLoop (j + 1) m (pre ++ [n]) =
          (c.convT2 m ((pre ++ [n]).getLast?.getD (0, 0)) >>= fun x => c.decodeLoop j x (pre ++ [n]).dropLast) := rfl
      rw [this]
      simp only [List.getLast?_append, List.getLast?_singleton, Option.some_or, Option.getD_some,
        List.dropLast_concat]
      rw [h3]
      rfl

/-- **C55, encoder and decoder.** For every kernel, stride, number of layers and every image that is not empty, the
encoder accepts the image, and the decoder given the latent and the logged sizes returns exactly the size of the
image. -/
theorem C55_decoder_partial (c : Conf) (hs : 1 ≤ c.stride) (n : Size) (hn : 1 ≤ n.1 ∧ 1 ≤ n.2) :
    ∃ latent sizes, c.encode n = .ok (latent, sizes) ∧ c.decode latent sizes = .ok n := by
  obtain ⟨lat, s, e1, e2, e3⟩ := decodeLoop_encodeLoop c hs c.convs n hn []
  refine ⟨lat, s, by simpa [Conf.encode] using e1, ?_⟩
  unfold Conf.decode
  rw [if_neg (by simp [e2])]
  simpa [Conf.decodeLoop] using e3 0

/-- A list of sizes of the wrong length raises `ValueError`. -/
theorem C55_count_partial (c : Conf) (n : Size) (sizes : List Size) (h : sizes.length ≠ c.convs) :
    c.decode n sizes = .error .value := by
  unfold Conf.decode
  rw [if_pos h]

/-- C55_decoder_partial is not vacuous: the default networks and an odd size. -/
example : Conf.encode {} (17, 1080) = .ok ((2, 68), [(17, 1080), (9, 540), (5, 270), (3, 135)]) ∧
    Conf.decode {} (2, 68) [(17, 1080), (9, 540), (5, 270), (3, 135)] = .ok (17, 1080) := by decide +kernel

theorem conv_default (kernel : ℕ) (hk : kernel % 2 = 1) (n : ℕ) (hn : 1 ≤ n) :
    Conf.conv { kernel } n = .ok ((n + 1) / 2) := by
  unfold Conf.conv Conf.padding
  dsimp only
  rw [if_neg (by omega)]
  congr 1
  omega

theorem conv2_default (kernel : ℕ) (hk : kernel % 2 = 1) (a b : ℕ) (ha : 1 ≤ a) (hb : 1 ≤ b) :
    Conf.conv2 { kernel } (a, b) = .ok ((a + 1) / 2, (b + 1) / 2) := by
  unfold Conf.conv2
  dsimp only
  rw [conv_default kernel hk a ha, conv_default kernel hk b hb]
  rfl

/-- What the encoder does to an image of the given size with an odd kernel and the defaults otherwise. -/
theorem encode_default (kernel : ℕ) (hk : kernel % 2 = 1) (a b : ℕ) (ha : 1 ≤ a) (hb : 1 ≤ b) :
    Conf.encode { kernel } (a, b) = .ok (((a + 15) / 16, (b + 15) / 16),
      [(a, b), ((a + 1) / 2, (b + 1) / 2), ((a + 3) / 4, (b + 3) / 4), ((a + 7) / 8, (b + 7) / 8)]) := by
  have step : ∀ k (n m : Size) pre, Conf.conv2 { kernel } n = .ok m →
      Conf.encodeLoop { kernel } (k + 1) n pre = Conf.encodeLoop { kernel } k m (pre ++ [n]) := by
    intro k n m pre h
    show (Conf.conv2 { kernel } n >>= fun m => Conf.encodeLoop { kernel } k m (pre ++ [n])) = _
    rw [h]; rfl
  have e1 : ((a + 1) / 2 + 1) / 2 = (a + 3) / 4 := by omega
  have e2 : ((a + 3) / 4 + 1) / 2 = (a + 7) / 8 := by omega
  have e3 : ((a + 7) / 8 + 1) / 2 = (a + 15) / 16 := by omega
  have f1 : ((b + 1) / 2 + 1) / 2 = (b + 3) / 4 := by omega
  have f2 : ((b + 3) / 4 + 1) / 2 = (b + 7) / 8 := by omega
  have f3 : ((b + 7) / 8 + 1) / 2 = (b + 15) / 16 := by omega
  show Conf.encodeLoop { kernel } 4 (a, b) [] = _
  rw [step 3 _ _ _ (conv2_default kernel hk a b ha hb)]
  rw [step 2 _ _ _ (conv2_default kernel hk _ _ (by omega) (by omega)), e1, f1]
  rw [step 1 _ _ _ (conv2_default kernel hk _ _ (by omega) (by omega)), e2, f2]
  rw [step 0 _ _ _ (conv2_default kernel hk _ _ (by omega) (by omega)), e3, f3]
  rfl

theorem decode_last (c : Conf) (lat : Size) (s : List Size) (n : Size) (h : (s ++ [n]).length = c.convs)
    (hbad : c.convT2 lat n = .error .value) : c.decode lat (s ++ [n]) = .error .value := by
  unfold Conf.decode
  rw [if_neg (by simpa using h)]
  have : c.convs = c.layers - 1 + 1 := rfl
  rw [this]
  show (c.convT2 lat ((s ++ [n]).getLast?.getD (0, 0)) >>= fun x => c.decodeLoop _ x (s ++ [n]).dropLast) = _
  simp only [List.getLast?_append, List.getLast?_singleton, Option.some_or, Option.getD_some]
  rw [hbad]
  rfl

/-- A decoder fed with half of an odd last size raises. -/
theorem convT2_odd (kernel : ℕ) (hk : kernel % 2 = 1) (a b : ℕ) (h : a % 2 = 1 ∨ b % 2 = 1) :
    Conf.convT2 { kernel } (a / 2, b / 2) (a, b) = .error .value := by
  have key : ∀ n : ℕ, Conf.convT { kernel } (n / 2) n = if n % 2 = 1 then .error .value else .ok n := by
    intro n
    unfold Conf.convT Conf.padding
    dsimp only
    by_cases hn : n % 2 = 1
    · rw [if_pos hn, if_pos (by omega)]
    · rw [if_neg hn, if_neg (by omega)]
  unfold Conf.convT2
  dsimp only
  rw [key a, key b]
  rcases h with h | h
  · rw [if_pos h]; rfl
  · rw [if_pos h]
    by_cases ha : a % 2 = 1
    · rw [if_pos ha]; rfl
    · rw [if_neg ha]; rfl

theorem pool_ok (a b : ℕ) (ha : 2 ≤ a) (hb : 2 ≤ b) : pool (a, b) = .ok (a / 2, b / 2) := by
  unfold pool
  rw [if_neg (by dsimp only; omega)]

theorem pool_err (a b : ℕ) (h : a < 2 ∨ b < 2) : pool (a, b) = .error .runtime := by
  unfold pool
  rw [if_pos (by dsimp only; omega)]

theorem pyramid_spec (k : ℕ) (n : Size) :
    (2 ^ k ≤ n.1 ∧ 2 ^ k ≤ n.2 → ∃ rest, pyramid k n = .ok (n :: rest)) ∧
      (n.1 < 2 ^ k ∨ n.2 < 2 ^ k → (1 ≤ n.1 ∧ 1 ≤ n.2) → pyramid k n = .error .runtime) := by
  induction k generalizing n with
  | zero => exact ⟨fun _ => ⟨[], rfl⟩, fun h h' => by simp at h; omega⟩
  | succ k ih =>
    obtain ⟨a, b⟩ := n
    have e : pyramid (k + 1) (a, b) = (pool (a, b) >>= fun m => pyramid k m >>= fun rest => pure ((a, b) :: rest)) := rfl
    have hp : 2 ^ (k + 1) = 2 * 2 ^ k := by ring
    have h1 : 1 ≤ 2 ^ k := Nat.one_le_two_pow
    rw [e]
    constructor
    · rintro ⟨ha, hb⟩
      dsimp only at ha hb
      rw [pool_ok a b (by omega) (by omega)]
      obtain ⟨rest, hr⟩ := (ih (a / 2, b / 2)).1 ⟨by dsimp only; omega, by dsimp only; omega⟩
      refine ⟨(a / 2, b / 2) :: rest, ?_⟩
      show (pyramid k (a / 2, b / 2) >>= fun rest => pure ((a, b) :: rest)) = _
      rw [hr]; rfl
    · rintro h ⟨ha, hb⟩
      dsimp only at h ha hb
      by_cases hs : a < 2 ∨ b < 2
      · rw [pool_err a b hs]; rfl
      · rw [pool_ok a b (by omega) (by omega)]
        have := (ih (a / 2, b / 2)).2 (by dsimp only; omega) ⟨by dsimp only; omega, by dsimp only; omega⟩
        show (pyramid k (a / 2, b / 2) >>= fun rest => pure ((a, b) :: rest)) = _
        rw [this]; rfl

theorem foldl_last (l : List Size) (n x : Size) : (l ++ [n]).foldl (fun _ image => image) x = n := by simp

theorem flowSize_ok (n : Size) (h : 16 ≤ n.1 ∧ 16 ≤ n.2) : flowSize 5 n n = .ok n := by
  obtain ⟨rest, hr⟩ := (pyramid_spec 4 n).1 (by simpa using h)
  unfold flowSize
  rw [if_neg (by simp)]
  rw [hr]
  show Except.ok _ = _
  rw [List.reverse_cons, foldl_last]

theorem flowSize_err (n : Size) (h : n.1 < 16 ∨ n.2 < 16) (h1 : 1 ≤ n.1 ∧ 1 ≤ n.2) :
    flowSize 5 n n = .error .runtime := by
  have hr := (pyramid_spec 4 n).2 (by simpa using h) h1
  unfold flowSize
  rw [if_neg (by simp)]
  rw [hr]
  rfl

theorem compensate_ok (n : Size) (h : 16 ≤ n.1 ∧ 16 ≤ n.2) : compensate 3 n n n = .ok n := by
  obtain ⟨a, b⟩ := n
  dsimp only at h
  unfold compensate
  rw [if_neg (by simp)]
  show (pool (a, b) >>= fun m => compensateLayer 2 m >>= fun _ => pure (a, b)) = _
  rw [pool_ok a b (by omega) (by omega)]
  show ((pool (a / 2, b / 2) >>= fun m => compensateLayer 1 m >>= fun _ => pure (a / 2, b / 2)) >>=
    fun _ => pure (a, b)) = _
  rw [pool_ok (a / 2) (b / 2) (by omega) (by omega)]
  rfl

/-- **C55, motion compensation.** It accepts only images, warped images and flows of one size, and returns an image
of that size. -/
theorem C55_compensate (levels : ℕ) (image1 image2 flow n : Size) (h : compensate levels image1 image2 flow = .ok n) :
    image1 = image2 ∧ image1 = flow ∧ n = image1 := by
  unfold compensate at h
  by_cases hc : image1 ≠ image2 ∨ image1 ≠ flow
  · rw [if_pos hc] at h; cases h
  · rw [if_neg hc] at h
    push Not at hc
    refine ⟨hc.1, hc.2, ?_⟩
    match levels, h with
    | 0, h => cases h; rfl
    | 1, h => cases h; rfl
    | k + 2, h =>
      change (pool image1 >>= fun m => compensateLayer (k + 1) m >>= fun _ => pure image1) = .ok n at h
      dsimp only [bind, Except.bind] at h
      split at h
      · cases h
      · split at h
        · cases h
        · cases h; rfl

/-- The size of the last feature map before the latent. -/
def lastSize (n : ℕ) : ℕ := (n + 7) / 8

/-- **C55, whole codec.** With the default networks, `compress` accepts exactly pairs of images of equal size of at
least 16 in both directions (among images that are not empty); and `decompress` with the same reference then returns
an image of that size exactly if an eighth of the height and of the width, rounded up, are even; otherwise it raises
`ValueError`. -/
theorem C55_whole_partial (n : Size) (h1 : 1 ≤ n.1 ∧ 1 ≤ n.2) :
    ((∃ r, compressSizes n n = .ok r) ↔ 16 ≤ n.1 ∧ 16 ≤ n.2) ∧
      ∀ r, compressSizes n n = .ok r →
        r.1.1 = ((n.1 + 15) / 16, (n.2 + 15) / 16) ∧ r.2.1 = r.1.1 ∧
        decompressSizes n r.1.2 r.2.2 =
          if Even (lastSize n.1) ∧ Even (lastSize n.2) then .ok n else .error .value := by
  obtain ⟨a, b⟩ := n
  dsimp only at h1
  by_cases h : 16 ≤ a ∧ 16 ≤ b
  · have hflow := flowSize_ok (a, b) h
    have henc3 := encode_default 3 rfl a b h1.1 h1.2
    have henc5 := encode_default 5 rfl a b h1.1 h1.2
    have hdec3 : Conf.decode { kernel := 3 } ((a + 15) / 16, (b + 15) / 16)
      [(a, b), ((a + 1) / 2, (b + 1) / 2), ((a + 3) / 4, (b + 3) / 4), ((a + 7) / 8, (b + 7) / 8)] = .ok (a, b) := by
      obtain ⟨l, s, e1, e2⟩ := C55_decoder_partial { kernel := 3 } (by decide) (a, b) h1
      rw [henc3] at e1
      injection e1 with e1
      injection e1 with e11 e12
      rw [e11, e12, e2]
    have hdec5 : Conf.decode { kernel := 5 } ((a + 15) / 16, (b + 15) / 16)
      [(a, b), ((a + 1) / 2, (b + 1) / 2), ((a + 3) / 4, (b + 3) / 4), ((a + 7) / 8, (b + 7) / 8)] = .ok (a, b) := by
      obtain ⟨l, s, e1, e2⟩ := C55_decoder_partial { kernel := 5 } (by decide) (a, b) h1
      rw [henc5] at e1
      injection e1 with e1
      injection e1 with e11 e12
      rw [e11, e12, e2]
    have hcomp := compensate_ok (a, b) h
    set sizes := [(a, b), ((a + 1) / 2, (b + 1) / 2), ((a + 3) / 4, (b + 3) / 4), ((a + 7) / 8, (b + 7) / 8)] with hsz
    have hc : compressSizes (a, b) (a, b) =
        .ok ((((a + 15) / 16, (b + 15) / 16), sizes), (((a + 15) / 16, (b + 15) / 16), sizes)) := by
      unfold compressSizes
      rw [hflow]
      dsimp only [bind, Except.bind]
      rw [henc3]
      dsimp only
      rw [hdec3]
      dsimp only
      rw [hcomp]
      dsimp only
      rw [henc5]
      simp [pure, Except.pure]
    refine ⟨⟨fun _ => h, fun _ => ⟨_, hc⟩⟩, ?_⟩
    intro r hr
    rw [hc] at hr
    injection hr with hr
    subst hr
    refine ⟨rfl, rfl, ?_⟩
    have hask : askedSize sizes = ((a + 7) / 8 / 2, (b + 7) / 8 / 2) := rfl
    dsimp only
    unfold decompressSizes
    rw [hask]
    by_cases he : Even (lastSize a) ∧ Even (lastSize b)
    · rw [if_pos he]
      have ha2 := Nat.even_iff.1 he.1
      have hb2 := Nat.even_iff.1 he.2
      unfold lastSize at ha2 hb2
      rw [show (a + 7) / 8 / 2 = (a + 15) / 16 by omega, show (b + 7) / 8 / 2 = (b + 15) / 16 by omega]
      rw [hdec3]
      dsimp only [bind, Except.bind]
      rw [hcomp]
      dsimp only
      rw [hdec5]
      simp [pure, Except.pure]
    · rw [if_neg he]
      have hodd : (a + 7) / 8 % 2 = 1 ∨ (b + 7) / 8 % 2 = 1 := by
        by_contra hn
        push Not at hn
        exact he ⟨Nat.even_iff.2 (by unfold lastSize; omega), Nat.even_iff.2 (by unfold lastSize; omega)⟩
      have hbad := decode_last { kernel := 3 } ((a + 7) / 8 / 2, (b + 7) / 8 / 2)
        [(a, b), ((a + 1) / 2, (b + 1) / 2), ((a + 3) / 4, (b + 3) / 4)] ((a + 7) / 8, (b + 7) / 8) rfl
        (convT2_odd 3 rfl _ _ hodd)
      rw [show [(a, b), ((a + 1) / 2, (b + 1) / 2), ((a + 3) / 4, (b + 3) / 4)] ++ [((a + 7) / 8, (b + 7) / 8)] =
        sizes from rfl] at hbad
      rw [hbad]
      rfl
  · have hbad : compressSizes (a, b) (a, b) = .error .runtime := by
      unfold compressSizes
      rw [flowSize_err (a, b) (by dsimp only; omega) h1]
      rfl
    refine ⟨⟨fun ⟨r, hr⟩ => ?_, fun h' => absurd h' h⟩, fun r hr => ?_⟩
    · rw [hbad] at hr; cases hr
    · rw [hbad] at hr; cases hr

/-- Images of different sizes raise `ValueError`. -/
theorem C55_shapes_partial (n n' : Size) (h : n ≠ n') : compressSizes n n' = .error .value := by
  unfold compressSizes flowSize
  rw [if_pos h]
  rfl

/-- C55_whole_partial is not vacuous: 256 × 448 comes back. -/
example : Even (lastSize 256) ∧ Even (lastSize 448) := by decide

/-- **C55 is violated**: the latent size that `decompress` asks for is not the one the encoder produced. Already for
full-HD frames `compress` succeeds and `decompress` raises; and so for frames of unbounded size. -/
theorem C55_violated :
    (∃ r, compressSizes (1080, 1920) (1080, 1920) = .ok r ∧ askedSize r.1.2 ≠ r.1.1 ∧
      decompressSizes (1080, 1920) r.1.2 r.2.2 = .error .value) ∧
      ∀ k, ∃ n, k ≤ n ∧ ∃ r, compressSizes (n, n) (n, n) = .ok r ∧
        decompressSizes (n, n) r.1.2 r.2.2 = .error .value := by
  constructor
  · obtain ⟨h1, h2⟩ := C55_whole_partial (1080, 1920) (by decide)
    obtain ⟨r, hr⟩ := h1.2 (by decide)
    refine ⟨r, hr, ?_, ?_⟩
    · have he := (h2 r hr).1
      have hr' : compressSizes (1080, 1920) (1080, 1920) = .ok (((68, 120),
          [(1080, 1920), (540, 960), (270, 480), (135, 240)]), ((68, 120),
          [(1080, 1920), (540, 960), (270, 480), (135, 240)])) := by decide +kernel
      rw [hr] at hr'
      injection hr' with hr'
      subst hr'
      decide
    · rw [(h2 r hr).2.2, if_neg (by decide)]
  · intro k
    refine ⟨16 * k + 24, by omega, ?_⟩
    obtain ⟨h1, h2⟩ := C55_whole_partial (16 * k + 24, 16 * k + 24) (by constructor <;> dsimp only <;> omega)
    obtain ⟨r, hr⟩ := h1.2 (by constructor <;> dsimp only <;> omega)
    refine ⟨r, hr, ?_⟩
    rw [(h2 r hr).2.2, if_neg]
    rintro ⟨h, -⟩
    have := Nat.even_iff.1 h
    unfold lastSize at this
    dsimp only at this
    omega

/-! ### C56 -/

variable {ι Flow Lat Str : Type}

/-- A bottleneck is lossless: decoding with the right size returns the quantised latent. -/
def Bottleneck.Lossless (b : Bottleneck Lat Str) (size : Lat → Size) : Prop :=
  ∀ y, b.decompress (b.compress y) (size y) = b.quantize y

/-- The size that `decompress` asks for is the one the encoders produce (see C55 for when this holds). -/
def Nets.SizesAgree (m : Nets ι Flow Lat Str) : Prop :=
  (∀ f, askedSize (m.motionEncoder f).2 = m.latentSize (m.motionEncoder f).1) ∧
    ∀ r, askedSize (m.residualEncoder r).2 = m.latentSize (m.residualEncoder r).1

/-- The prediction of the second image that a receiver can make: flow through the quantised latent, warp,
compensation. -/
def Nets.prediction (m : Nets ι Flow Lat Str) (image1 image2 : ι → ℝ) : ι → ℝ :=
  let latent := m.motionEncoder (m.motionEstimator image1 image2)
  let flow := m.motionDecoder (m.motionBottleneck.quantize latent.1) latent.2
  m.motionCompensation image1 (m.warp image1 flow) flow

/-- The residual coder on its own: encode, quantise, decode. -/
def Nets.codeResidual (m : Nets ι Flow Lat Str) (r : ι → ℝ) : ι → ℝ :=
  m.residualDecoder (m.residualBottleneck.quantize (m.residualEncoder r).1) (m.residualEncoder r).2

/-- **C56, reconstruction.** For all networks, with lossless bottlenecks whose sizes agree: `decompress` of what
`compress` sent is the prediction plus the coded difference between the image and that same prediction, clamped. -/
theorem C56_reconstruction (m : Nets ι Flow Lat Str) (h1 : m.motionBottleneck.Lossless m.latentSize)
    (h2 : m.residualBottleneck.Lossless m.latentSize) (hs : m.SizesAgree) (image1 image2 : ι → ℝ) :
    m.decompress image1 (m.compress image1 image2) = fun i =>
      max 0 (min 1 (m.prediction image1 image2 i +
        m.codeResidual (fun j => image2 j - m.prediction image1 image2 j) i)) := by
  unfold Nets.decompress Nets.compress
  dsimp only
  rw [hs.1, hs.2, h1, h2]
  rfl

/-- **C56, training output.** The estimate of `forward` in evaluation mode is the reconstruction, before clamping. -/
theorem C56_forward (m : Nets ι Flow Lat Str) (h1 : m.motionBottleneck.Lossless m.latentSize)
    (h2 : m.residualBottleneck.Lossless m.latentSize) (hs : m.SizesAgree) (image1 image2 : ι → ℝ) :
    m.decompress image1 (m.compress image1 image2) = fun i => max 0 (min 1 (m.forward image1 image2 i)) := by
  rw [C56_reconstruction m h1 h2 hs]
  rfl

/-- **C56, no drift.** If the residual coder errs by at most `δ` on its own, then over any sequence of frames every
reconstruction of the sender is within `δ` of the frame and within the range of images, however many frames came
before, and the receiver's reconstructions are the sender's. -/
theorem C56_no_drift (m : Nets ι Flow Lat Str) (h1 : m.motionBottleneck.Lossless m.latentSize)
    (h2 : m.residualBottleneck.Lossless m.latentSize) (hs : m.SizesAgree) (δ : ℝ)
    (hδ : ∀ r i, |m.codeResidual r i - r i| ≤ δ) (start : ι → ℝ) (images : List (ι → ℝ))
    (hr : ∀ x ∈ images, ∀ i, 0 ≤ x i ∧ x i ≤ 1) :
    m.receive start ((m.send start images).map Prod.fst) = (m.send start images).map Prod.snd ∧
      List.Forall₂ (fun x y => ∀ i, |y i - x i| ≤ δ ∧ 0 ≤ y i ∧ y i ≤ 1) images
        (m.receive start ((m.send start images).map Prod.fst)) := by
  induction images generalizing start with
  | nil => exact ⟨rfl, List.Forall₂.nil⟩
  | cons x xs ih =>
    have hx := hr x (by simp)
    obtain ⟨e1, e2⟩ := ih (m.decompress start (m.compress start x)) fun y hy => hr y (by simp [hy])
    constructor
    · show _ :: m.receive _ _ = _ :: _
      rw [e1]
    · refine List.Forall₂.cons ?_ e2
      intro i
      rw [C56_reconstruction m h1 h2 hs]
      set p := m.prediction start x with hp
      have hd := hδ (fun j => x j - p j) i
      rw [abs_le] at hd
      obtain ⟨hx0, hx1⟩ := hx i
      have hδ0 : 0 ≤ δ := by linarith [hd.1, hd.2]
      refine ⟨?_, le_max_left _ _, max_le (by norm_num) (min_le_left _ _)⟩
      rw [abs_le]
      constructor
      · have : x i - δ ≤ min 1 (p i + m.codeResidual (fun j => x j - p j) i) :=
          le_min (by linarith) (by linarith)
        linarith [le_max_right (0 : ℝ) (min 1 (p i + m.codeResidual (fun j => x j - p j) i))]
      · have : max 0 (min 1 (p i + m.codeResidual (fun j => x j - p j) i)) ≤ x i + δ :=
          max_le (by linarith) (le_trans (min_le_right _ _) (by linarith))
        linarith

/-- Bottlenecks that round to integers. -/
noncomputable def exampleBottleneck : Bottleneck (Fin 2 → ℝ) (Fin 2 → ℤ) where
  compress y i := round (y i)
  decompress s _ i := s i
  quantize y i := round (y i)

/-- Networks that predict the reference plus a quantised shift, and code residuals in steps of a quarter. -/
noncomputable def exampleNets : Nets (Fin 2) (Fin 2 → ℝ) (Fin 2 → ℝ) (Fin 2 → ℤ) where
  motionEstimator a b i := b i - a i
  motionEncoder f := (f, [(8, 8)])
  motionBottleneck := exampleBottleneck
  motionDecoder y _ := y
  warp a f i := a i + f i / 2
  motionCompensation _ b _ := b
  residualEncoder r := (fun i => 4 * r i, [(8, 8)])
  residualBottleneck := exampleBottleneck
  residualDecoder y _ i := y i / 4
  latentSize _ := (4, 4)

/-- C56 is not vacuous: all hypotheses hold for these networks, with an error of an eighth. -/
example : exampleNets.motionBottleneck.Lossless exampleNets.latentSize ∧
    exampleNets.residualBottleneck.Lossless exampleNets.latentSize ∧ exampleNets.SizesAgree ∧
    ∀ r i, |exampleNets.codeResidual r i - r i| ≤ 1 / 8 := by
  refine ⟨fun y => rfl, fun y => rfl, ⟨fun f => by simp [exampleNets, askedSize], fun r => by simp [exampleNets, askedSize]⟩, ?_⟩
  intro r i
  show |((round (4 * r i) : ℤ) : ℝ) / 4 - r i| ≤ 1 / 8
  have h := abs_sub_round (4 * r i)
  rw [abs_le] at h ⊢
  constructor <;> linarith [h.1, h.2]

/-- **C56, tables.** `update` refreshes both bottlenecks, whatever either of them reports: with `force` (the default)
both get the current tables, without it the missing ones are computed; and it returns whether anything changed. -/
theorem C56_update (motion residual : Option ℕ) (currentMotion currentResidual : ℕ) :
    update motion residual currentMotion currentResidual true = ((some currentMotion, some currentResidual), true) ∧
      ((update motion residual currentMotion currentResidual false).1 =
        (some (motion.getD currentMotion), some (residual.getD currentResidual))) ∧
      ((update motion residual currentMotion currentResidual false).2 = true ↔ motion = none ∨ residual = none) := by
  cases motion <;> cases residual <;> simp [update, updateTables]

end Verif.Models.Dvc
