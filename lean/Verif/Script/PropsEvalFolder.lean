import Verif.Script.EvalFolder
import Verif.Train.PropsPatches
import Verif.Train.PropsAccum
import Verif.Train.PropsPsnr

/-!
C112: evaluating a model on a folder of images.
-/

namespace Verif.Script.EvalFolder

open Verif.Train.Patches (Images Metric Metrics updatePatchFid)
open Verif.Train.Psnr (Decibel calcPsnr)

variable {ι : Type}

/-! ### Specification -/

/-- The tensor that the model gets for a picture: the levels divided by 255. -/
noncomputable def scaled (p : Picture) : Images ℝ := ⟨1, 3, p.height, p.width, fun _ c i j => (p.level c i j : ℕ) / 255⟩

/-- The model returns images of the shape that it got. -/
def KeepsShape (codec : Codec) : Prop :=
  ∀ x : Images ℝ, (codec.decompress (codec.compress x)).batch = x.batch ∧
    (codec.decompress (codec.compress x)).chan = x.chan ∧
    (codec.decompress (codec.compress x)).height = x.height ∧ (codec.decompress (codec.compress x)).width = x.width

/-- The decoded value of a picture, brought into `[0, 1]`. -/
noncomputable def decodedValue (codec : Codec) (p : Picture) (c i j : ℕ) : ℝ :=
  min (max ((codec.decompress (codec.compress (scaled p))).el 0 c i j) 0) 1

/-- The decoded level: the nearest of 0, ..., 255, the upper one of two. -/
noncomputable def decodedLevel (codec : Codec) (p : Picture) (c i j : ℕ) : ℤ := ⌊255 * decodedValue codec p c i j + 1 / 2⌋

/-- The rate of a picture: bits of its pickled stream per pixel. -/
noncomputable def rateOf (codec : Codec) (p : Picture) : ℝ :=
  8 * codec.pickleSize (codec.compress (scaled p)) / (p.height * p.width)

/-- The mean square error of the decoded levels of a picture. -/
noncomputable def errorOf (codec : Codec) (p : Picture) : ℝ :=
  (∑ k : Fin 3 × Fin p.height × Fin p.width,
    ((decodedLevel codec p k.1 k.2.1 k.2.2 : ℝ) - (p.level k.1 k.2.1 k.2.2 : ℕ)) ^ 2) / (3 * (p.height * p.width))

/-- The MS-SSIM of the decoded levels of a picture, for the range 255 and the default weights. -/
def HasMsssim (codec : Codec) (p : Picture) (r : ℝ) : Prop :=
  Verif.Functional.MsSsim.msSsim ⟨255, 11, 0.01, 0.03, 1.5⟩ [0.0448, 0.2856, 0.3001, 0.2363, 0.1333] "none"
    ⟨1, 3, p.height, p.width, fun _ c i j => decodedLevel codec p c i j⟩
    ⟨1, 3, p.height, p.width, fun _ c i j => (p.level c i j : ℕ)⟩ = .ok (.perImage [r])

/-- The LPIPS of a decoded picture. -/
noncomputable def lpipsOf (nets : Nets ι) (codec : Codec) (p : Picture) : ℝ :=
  nets.lpips { codec.decompress (codec.compress (scaled p)) with
    el := fun b c i j => min (max ((codec.decompress (codec.compress (scaled p))).el b c i j) 0) 1 } (scaled p)

/-- The complete blocks of 256 by 256 of the grid that starts at `(s, s)`, row by row. -/
def gridBlocks (value : ℕ → ℕ → ℕ → ℤ) (s h w : ℕ) : List Block :=
  (List.range ((h - s) / 256)).flatMap fun gy => (List.range ((w - s) / 256)).map fun gx => fun c i j =>
    value c (s + (256 * gy + i)) (s + (256 * gx + j))

/-- The blocks that count for the distance: those of the grid at `(0, 0)` and, if both sides are at least 384, those of the
grid at `(128, 128)`. -/
def allBlocks (value : ℕ → ℕ → ℕ → ℤ) (h w : ℕ) : List Block :=
  gridBlocks value 0 h w ++ if 384 ≤ h ∧ 384 ≤ w then gridBlocks value 128 h w else []

/-- The blocks of the original pictures. -/
def originalBlocks (pics : List Picture) : List Block :=
  pics.flatMap fun p => allBlocks (fun c i j => ((p.level c i j : ℕ) : ℤ)) p.height p.width

/-- The blocks of the decoded pictures; a tie goes to the even level here. -/
noncomputable def decodedBlocks (codec : Codec) (pics : List Picture) : List Block :=
  pics.flatMap fun p => allBlocks (fun c i j => roundHalfEven (255 * decodedValue codec p c i j)) p.height p.width

/-- The mean of a feature over a list of blocks. -/
noncomputable def sampleMean (f : Block → ι → ℝ) (bs : List Block) (i : ι) : ℝ := (bs.map fun b => f b i).sum / bs.length

/-- The (unbiased) covariance of two features over a list of blocks. -/
noncomputable def sampleCov (f : Block → ι → ℝ) (bs : List Block) (i j : ι) : ℝ :=
  (bs.map fun b => (f b i - sampleMean f bs i) * (f b j - sampleMean f bs j)).sum / (bs.length - 1)

/-- The distance of the features of two lists of blocks. -/
noncomputable def fidOf (nets : Nets ι) (real fake : List Block) : ℝ :=
  nets.distance (sampleMean nets.features real) (sampleCov nets.features real) (sampleMean nets.features fake)
    (sampleCov nets.features fake)

/-- The mean of a function of the pictures. -/
noncomputable def average (pics : List Picture) (f : Picture → ℝ) : ℝ := (pics.map f).sum / pics.length

/-- The report that a user expects for a list of pictures. -/
def Expected (nets : Nets ι) (codec : Codec) (pics : List Picture) (r : Report) : Prop :=
  r.rate = average pics (rateOf codec) ∧
  ((∃ p ∈ pics, errorOf codec p = 0) → r.psnr = .infinite) ∧
  ((∀ p ∈ pics, errorOf codec p ≠ 0) →
    r.psnr = .finite (average pics fun p => 20 * Real.logb 10 (255 / Real.sqrt (errorOf codec p)))) ∧
  (∃ score : Picture → ℝ, (∀ p ∈ pics, HasMsssim codec p (score p)) ∧ r.msssim = some (average pics score)) ∧
  r.lpips = average pics (lpipsOf nets codec) ∧
  r.fid = fidOf nets (originalBlocks pics) (decodedBlocks codec pics)

/-- The pictures of a folder: its names that end in `.png` all stand for pictures, and these are they. -/
def PicturesOf (folder : List Entry) (pics : List Picture) : Prop :=
  (folder.filter fun e => decide (['.', 'p', 'n', 'g'] <:+ e.name)).map Entry.content = pics.map Content.picture

/-! ### Lemmas -/

theorem range_mul (a b : ℕ) {α : Type} (g : ℕ → α) :
    (List.range (a * b)).map g = (List.range a).flatMap fun y => (List.range b).map fun x => g (y * b + x) := by
  induction a with
  | zero => simp
  | succ a ih =>
    rw [Nat.succ_mul, List.range_add, List.map_append, ih, List.range_succ, List.flatMap_append]
    simp [List.map_map, Function.comp_def]

/-- The patches of one image are the blocks of the grid. -/
theorem blocks_patches {q : ℝ → ℤ} {x : Images ℝ} {r : Images ℤ} (hb : x.batch = 1) (hc : x.chan = 3)
    (hh : 256 ≤ x.height) (hw : 256 ≤ x.width) (h : Verif.Train.Patches.patches q 256 x = .ok r) (s : ℕ)
    (value : ℕ → ℕ → ℕ → ℤ) (hv : ∀ c i j, q (x.el 0 c i j) = value c (s + i) (s + j)) (H W : ℕ)
    (hH : H - s = x.height) (hW : W - s = x.width) : blocks r = gridBlocks value s H W := by
  obtain ⟨r', e, n, -, -, -, hel⟩ := Verif.Train.Patches.C58_patches q 256 x (by norm_num) hc hh hw
  rw [h] at e
  injection e with e
  subst e
  rw [hb, one_mul] at n
  unfold blocks gridBlocks
  rw [n, range_mul, hH, hW]
  rw [List.flatMap_def, List.flatMap_def]
  congr 1
  refine List.map_congr_left fun gy hgy => ?_
  refine List.map_congr_left fun gx hgx => ?_
  rw [List.mem_range] at hgy hgx
  funext c i j
  have := hel 0 gy gx c i j hgy hgx c.2 i.2 j.2
  rw [zero_mul, zero_add] at this
  rw [this, hv]
  congr 1 <;> ring

/-- The blocks of a kind that FID has got. -/
def seenBlocks (us : Metric ℤ) (real : Bool) : List Block :=
  (us.filter fun u => u.2 = real).flatMap fun u => blocks u.1

theorem blocks_length (x : Images ℤ) : (blocks x).length = x.batch := by simp [blocks]

theorem moments_fold (f : Block → ι → ℝ) (real : Bool) : ∀ (us : Metric ℤ) (bs : List Block),
    us.foldl (fun m u => if u.2 = real then Moments.update f m u.1 else m)
      (⟨bs.length, fun i => (bs.map fun b => f b i).sum, fun i j => (bs.map fun b => f b i * f b j).sum⟩ : Moments ι) =
    ⟨(bs ++ seenBlocks us real).length, fun i => ((bs ++ seenBlocks us real).map fun b => f b i).sum,
      fun i j => ((bs ++ seenBlocks us real).map fun b => f b i * f b j).sum⟩ := by
  intro us
  induction us with
  | nil => intro bs; simp [seenBlocks]
  | cons u us ih =>
    intro bs
    rw [List.foldl_cons]
    by_cases hu : u.2 = real
    · rw [if_pos hu]
      have e : Moments.update f (⟨bs.length, fun i => (bs.map fun b => f b i).sum,
          fun i j => (bs.map fun b => f b i * f b j).sum⟩ : Moments ι) u.1 =
          ⟨(bs ++ blocks u.1).length, fun i => ((bs ++ blocks u.1).map fun b => f b i).sum,
            fun i j => ((bs ++ blocks u.1).map fun b => f b i * f b j).sum⟩ := by
        simp [Moments.update, blocks_length]
      rw [e, ih (bs ++ blocks u.1)]
      have e2 : seenBlocks (u :: us) real = blocks u.1 ++ seenBlocks us real := by
        simp [seenBlocks, hu]
      rw [e2, List.append_assoc]
    · rw [if_neg hu, ih bs]
      have e2 : seenBlocks (u :: us) real = seenBlocks us real := by
        simp [seenBlocks, hu]
      rw [e2]

theorem moments_eq (f : Block → ι → ℝ) (us : Metric ℤ) (real : Bool) :
    moments f us real = ⟨(seenBlocks us real).length, fun i => ((seenBlocks us real).map fun b => f b i).sum,
      fun i j => ((seenBlocks us real).map fun b => f b i * f b j).sum⟩ := by
  have := moments_fold f real us []
  simpa [moments] using this

/-- The two forms of the covariance agree. -/
theorem cov_eq (f : Block → ι → ℝ) (bs : List Block) (hn : bs ≠ []) (i j : ι) :
    (⟨bs.length, fun i => (bs.map fun b => f b i).sum, fun i j => (bs.map fun b => f b i * f b j).sum⟩ : Moments ι).cov i j
      = sampleCov f bs i j := by
  have hl : (bs.length : ℝ) ≠ 0 := by
    have : 0 < bs.length := List.length_pos_iff.2 hn
    positivity
  have key : ∀ (a b : ℝ) (l : List Block), (l.map fun x => (f x i - a) * (f x j - b)).sum =
      (l.map fun x => f x i * f x j).sum - b * (l.map fun x => f x i).sum - a * (l.map fun x => f x j).sum +
        l.length * (a * b) := by
    intro a b l
    induction l with
    | nil => simp
    | cons x l ih =>
      simp only [List.map_cons, List.sum_cons, ih, List.length_cons]
      push_cast
      ring
  unfold Moments.cov sampleCov Moments.mean
  rw [key]
  unfold sampleMean
  congr 1
  field_simp
  ring

theorem fid_eq (nets : Nets ι) (us : Metric ℤ) :
    fidCompute nets (some us) =
      if (seenBlocks us true).length < 2 ∨ (seenBlocks us false).length < 2 then .error .runtime
      else .ok (fidOf nets (seenBlocks us true) (seenBlocks us false)) := by
  unfold fidCompute
  dsimp only [Option.getD]
  rw [moments_eq, moments_eq]
  dsimp only
  split_ifs with h
  · rfl
  · push Not at h
    have h1 : seenBlocks us true ≠ [] := by rintro e; rw [e] at h; simp at h
    have h2 : seenBlocks us false ≠ [] := by rintro e; rw [e] at h; simp at h
    have e1 := fun i j => cov_eq nets.features (seenBlocks us true) h1 i j
    have e2 := fun i j => cov_eq nets.features (seenBlocks us false) h2 i j
    unfold fidOf
    rw [← funext fun i => funext fun j => e1 i j, ← funext fun i => funext fun j => e2 i j]
    rfl

theorem seenBlocks_append (us vs : Metric ℤ) (real : Bool) :
    seenBlocks (us ++ vs) real = seenBlocks us real ++ seenBlocks vs real := by
  simp [seenBlocks]

theorem rescale_toTensor (p : Picture) :
    rescale (toTensor p) = ⟨1, 3, p.height, p.width, fun _ c i j => ((p.level c i j : ℕ) : ℝ)⟩ := by
  unfold rescale toTensor
  congr 1
  funext b c i j
  have e : ((p.level c i j : ℕ) : ℝ) / 255 * 255 + 0.5 = ((p.level c i j : ℕ) : ℝ) + 1 / 2 := by ring
  have : ⌊((p.level c i j : ℕ) : ℝ) + 1 / 2⌋ = ((p.level c i j : ℕ) : ℤ) := by
    rw [Int.floor_eq_iff]
    push_cast
    constructor <;> linarith
  rw [e, this]
  simp

theorem toByte_level (p : Picture) (b c i j : ℕ) : toByte ((toTensor p).el b c i j) = ((p.level c i j : ℕ) : ℤ) := by
  unfold toByte toTensor
  dsimp only
  have e : ((p.level c i j : ℕ) : ℝ) / 255 * 255 = (((p.level c i j : ℕ) : ℤ) : ℝ) := by push_cast; ring
  rw [e, roundHalfEven_int]

/-- The FID updates of one round. -/
theorem fid_step (codec : Codec) (hk : KeepsShape codec) (p : Picture) (hh : 256 ≤ p.height) (hw : 256 ≤ p.width)
    (us : Metric ℤ) :
    ∃ n vs, updatePatchFid toByte 256 (toTensor p) (clamp (codec.decompress (codec.compress (toTensor p))))
        ⟨some us, none, none⟩ = .ok (n, ⟨some (us ++ vs), none, none⟩) ∧
      seenBlocks vs true = originalBlocks [p] ∧ seenBlocks vs false = decodedBlocks codec [p] := by
  obtain ⟨k1, k2, k3, k4⟩ := hk (toTensor p)
  set y := clamp (codec.decompress (codec.compress (toTensor p))) with hy
  have b1 : y.batch = 1 := k1
  have b2 : y.chan = 3 := k2
  have b3 : y.height = p.height := k3
  have b4 : y.width = p.width := k4
  obtain ⟨m', hok, hsel⟩ := Verif.Train.Patches.C58_partial toByte 256 (toTensor p) y ⟨some us, none, none⟩ (by norm_num)
    rfl hh hw b2 b1 b3 b4 (by simp)
  have hs2 : m'.fidSwav = none := (hsel _ (by simp)).1 rfl
  have hs3 : m'.kid = none := (hsel Metrics.kid (by simp)).1 rfl
  have hlev : ∀ c i j, toByte ((toTensor p).el 0 c i j) = ((p.level c (0 + i) (0 + j) : ℕ) : ℤ) := by
    intro c i j
    rw [toByte_level, zero_add, zero_add]
  have hdec : ∀ c i j, toByte (y.el 0 c i j) = roundHalfEven (255 * decodedValue codec p c (0 + i) (0 + j)) := by
    intro c i j
    rw [zero_add, zero_add, mul_comm]
    rfl
  obtain ⟨r, f, er, ef, hcase⟩ := Verif.Train.Patches.C58_contents_partial toByte 256 (toTensor p) y _ _ m' hok
  have gr := blocks_patches (x := toTensor p) rfl rfl hh hw er 0 (fun c i j => ((p.level c i j : ℕ) : ℤ)) hlev p.height
    p.width rfl rfl
  have gf := blocks_patches (x := y) b1 b2 (by omega) (by omega) ef 0
    (fun c i j => roundHalfEven (255 * decodedValue codec p c i j)) hdec p.height p.width (by omega) (by omega)
  rcases hcase with ⟨hsmall, hf, -, -⟩ | ⟨r', f', er', ef', h1, h2, hf, -, -⟩
  · refine ⟨Verif.Train.Patches.totalCount 256 1 p.height p.width, [(r, true), (f, false)], ?_, ?_, ?_⟩
    · have hm' : m' = ⟨some (us ++ [(r, true), (f, false)]), none, none⟩ := by
        have := hf us rfl
        cases m'
        simp_all
      rw [hok, hm']
      rfl
    · have hn : ¬ (384 ≤ p.height ∧ 384 ≤ p.width) := by
        have a1 : (toTensor p).height = p.height := rfl
        have a2 : (toTensor p).width = p.width := rfl
        rw [a1, a2] at hsmall
        omega
      simp [seenBlocks, originalBlocks, allBlocks, gr, hn]
    · have hn : ¬ (384 ≤ p.height ∧ 384 ≤ p.width) := by
        have a1 : (toTensor p).height = p.height := rfl
        have a2 : (toTensor p).width = p.width := rfl
        rw [a1, a2] at hsmall
        omega
      simp [seenBlocks, decodedBlocks, allBlocks, gf, hn]
  · have a1 : (toTensor p).height = p.height := rfl
    have a2 : (toTensor p).width = p.width := rfl
    rw [a1] at h1
    rw [a2] at h2
    have hn : 384 ≤ p.height ∧ 384 ≤ p.width := by omega
    have gr' := blocks_patches (x := Verif.Train.Patches.crop 128 (toTensor p)) rfl rfl
      (by show 256 ≤ p.height - 128; omega) (by show 256 ≤ p.width - 128; omega) er' 128
      (fun c i j => ((p.level c i j : ℕ) : ℤ))
      (by
        intro c i j
        show toByte ((toTensor p).el 0 c (i + 128) (j + 128)) = _
        rw [toByte_level, add_comm i, add_comm j]) p.height p.width rfl rfl
    have gf' := blocks_patches (x := Verif.Train.Patches.crop 128 y) b1 b2
      (by show 256 ≤ y.height - 128; omega) (by show 256 ≤ y.width - 128; omega) ef' 128
      (fun c i j => roundHalfEven (255 * decodedValue codec p c i j))
      (by
        intro c i j
        show toByte (y.el 0 c (i + 128) (j + 128)) = _
        rw [hdec, zero_add, zero_add, add_comm i, add_comm j]) p.height p.width
      (by show p.height - 128 = y.height - 128; omega) (by show p.width - 128 = y.width - 128; omega)
    refine ⟨Verif.Train.Patches.totalCount 256 1 p.height p.width, [(r, true), (f, false)] ++ [(r', true), (f', false)],
      ?_, ?_, ?_⟩
    · have hm' : m' = ⟨some (us ++ ([(r, true), (f, false)] ++ [(r', true), (f', false)])), none, none⟩ := by
        have := hf us rfl
        cases m'
        simp_all
      rw [hok, hm']
      rfl
    · simp [seenBlocks, originalBlocks, allBlocks, gr, gr', hn]
    · simp [seenBlocks, decodedBlocks, allBlocks, gf, gf', hn]

/-- PSNR of a picture. -/
theorem psnr_eq (x y : Images ℝ) (H W : ℕ) (h1 : x.batch = 1) (h2 : x.chan = 3) (h3 : x.height = H) (h4 : x.width = W)
    (h : sameShape x y) :
    psnr x y = .ok (Verif.Train.Psnr.decibel 255 ((∑ k : Fin 3 × Fin H × Fin W,
      (x.el 0 k.1 k.2.1 k.2.2 - y.el 0 k.1 k.2.1 k.2.2) ^ 2) / (3 * (H * W)))) := by
  obtain ⟨b, c, hh, w, el⟩ := x
  dsimp only at h1 h2 h3 h4
  subst h1 h2 h3 h4
  unfold psnr
  rw [if_pos h]
  unfold calcPsnr Verif.Train.Psnr.mse
  congr 3
  · rw [Fintype.sum_prod_type]
    simp [values]
  · simp [Fintype.card_prod]

/-- The level in decibel of a picture. -/
noncomputable def decibelOf (codec : Codec) (p : Picture) : Decibel := Verif.Train.Psnr.decibel 255 (errorOf codec p)

theorem rescale_decoded (codec : Codec) (hk : KeepsShape codec) (p : Picture) :
    (rescale (clamp (codec.decompress (codec.compress (toTensor p))))).batch = 1 ∧
    (rescale (clamp (codec.decompress (codec.compress (toTensor p))))).chan = 3 ∧
    (rescale (clamp (codec.decompress (codec.compress (toTensor p))))).height = p.height ∧
    (rescale (clamp (codec.decompress (codec.compress (toTensor p))))).width = p.width ∧
    ∀ c i j, (rescale (clamp (codec.decompress (codec.compress (toTensor p))))).el 0 c i j = decodedLevel codec p c i j := by
  obtain ⟨k1, k2, k3, k4⟩ := hk (toTensor p)
  refine ⟨k1, k2, k3, k4, fun c i j => ?_⟩
  show ((⌊min (max _ 0) 1 * 255 + 0.5⌋ : ℤ) : ℝ) = _
  unfold decodedLevel decodedValue
  have e : (0.5 : ℝ) = 1 / 2 := by norm_num
  rw [e, mul_comm]
  rfl

theorem largeEnough (p : Verif.Functional.MsSsim.Params) (hp : p.windowSize = 11) (x : Verif.Functional.MsSsim.Batch)
    (hh : 256 ≤ x.height) (hw : 256 ≤ x.width) : Verif.Functional.MsSsim.LargeEnough p 5 x := by
  intro s hs
  rw [hp]
  have : s = 0 ∨ s = 1 ∨ s = 2 ∨ s = 3 ∨ s = 4 := by omega
  unfold Verif.Functional.MsSsim.sizeAt
  rcases this with rfl | rfl | rfl | rfl | rfl <;> constructor <;> omega

/-- MS-SSIM in one round. -/
theorem msssim_step (codec : Codec) (hk : KeepsShape codec) (p : Picture) (hh : 256 ≤ p.height) (hw : 256 ≤ p.width)
    (s : Verif.Train.Accum.State) :
    ∃ r, HasMsssim codec p r ∧
      Verif.Train.Accum.update msssimConfig s
        (toBatch (rescale (clamp (codec.decompress (codec.compress (toTensor p)))))) (toBatch (rescale (toTensor p))) =
      .ok ⟨s.scoreSum + r, s.total + 1⟩ := by
  obtain ⟨b1, b2, b3, b4, b5⟩ := rescale_decoded codec hk p
  set x := rescale (clamp (codec.decompress (codec.compress (toTensor p)))) with hx
  have hgood : msssimConfig.params.Good := by
    refine ⟨?_, ?_, ?_, ?_⟩ <;> norm_num [msssimConfig]
  obtain ⟨-, hok⟩ := Verif.Functional.MsSsim.C45_rejects hgood (factors := msssimConfig.factors)
    (by simp [msssimConfig, Verif.Functional.MsSsim.defaultFactors]) (toBatch x) (toBatch (rescale (toTensor p)))
    (by show 0 < x.chan; omega)
  obtain ⟨out, hout⟩ := hok (largeEnough _ rfl _ (by show 256 ≤ x.height; omega) (by show 256 ≤ x.width; omega)) "sum"
    (by simp)
  obtain ⟨rs, hrs, rfl⟩ := Verif.Train.Accum.msSsim_sum msssimConfig _ _ out hout
  have hpairs : Verif.Train.Accum.pairs (toBatch x) (toBatch (rescale (toTensor p))) =
      [(⟨1, 3, p.height, p.width, fun _ c i j => decodedLevel codec p c i j⟩,
        ⟨1, 3, p.height, p.width, fun _ c i j => (p.level c i j : ℕ)⟩)] := by
    have hb : (toBatch x).batch = 1 := b1
    unfold Verif.Train.Accum.pairs
    rw [hb, rescale_toTensor]
    have e : (toBatch x).image 0 = ⟨1, 3, p.height, p.width, fun _ c i j => (decodedLevel codec p c i j : ℝ)⟩ := by
      unfold Verif.Functional.MsSsim.Batch.image toBatch
      simp only [b2, b3, b4]
      congr 1
      funext _ c i j
      exact b5 c i j
    show [((toBatch x).image 0, _)] = _
    rw [e]
    rfl
  rw [hpairs] at hrs
  obtain ⟨r, rest, hr, hrest, rfl⟩ := List.forall₂_cons_left_iff.1 hrs
  rw [List.forall₂_nil_left_iff] at hrest
  subst hrest
  refine ⟨r, hr, ?_⟩
  unfold Verif.Train.Accum.update
  rw [hout]
  have hb : (toBatch x).batch = 1 := b1
  simp [Except.bind, hb]

/-- One round for a picture that is large enough. -/
theorem step_ok (nets : Nets ι) (codec : Codec) (hk : KeepsShape codec) (e : Entry) (p : Picture)
    (he : e.content = .picture p) (hh : 256 ≤ p.height) (hw : 256 ≤ p.width) (s : State) (us : Metric ℤ)
    (hs : s.fid = ⟨some us, none, none⟩) :
    ∃ r vs, HasMsssim codec p r ∧ seenBlocks vs true = originalBlocks [p] ∧
      seenBlocks vs false = decodedBlocks codec [p] ∧
      step nets codec s e = .ok ⟨s.bpp ++ [rateOf codec p], s.psnr ++ [decibelOf codec p],
        ⟨s.msssim.scoreSum + r, s.msssim.total + 1⟩, s.lpipsSum + lpipsOf nets codec p, s.lpipsTotal + 1,
        ⟨some (us ++ vs), none, none⟩⟩ := by
  obtain ⟨n, vs, hv, hv1, hv2⟩ := fid_step codec hk p hh hw us
  obtain ⟨r, hr, hm⟩ := msssim_step codec hk p hh hw s.msssim
  refine ⟨r, vs, hr, hv1, hv2, ?_⟩
  obtain ⟨b1, b2, b3, b4, b5⟩ := rescale_decoded codec hk p
  obtain ⟨k1, k2, k3, k4⟩ := hk (toTensor p)
  have hbpp : bitsPerPixel (codec.pickleSize (codec.compress (toTensor p))) (toTensor p) = .ok (rateOf codec p) := by
    unfold bitsPerPixel
    have e1 : (toTensor p).batch * (toTensor p).height * (toTensor p).width = p.height * p.width := by
      show 1 * p.height * p.width = _
      ring
    rw [e1, if_neg (by positivity)]
    unfold rateOf
    push_cast
    rw [mul_comm]
    rfl
  have hps : psnr (rescale (clamp (codec.decompress (codec.compress (toTensor p))))) (rescale (toTensor p)) =
      .ok (decibelOf codec p) := by
    rw [psnr_eq _ _ p.height p.width b1 b2 b3 b4 ⟨b1, b2, b3, b4⟩]
    unfold decibelOf errorOf
    simp only [b5, rescale_toTensor]
  have hval : valid (clamp (codec.decompress (codec.compress (toTensor p)))) ∧ valid (toTensor p) := by
    refine ⟨⟨k2, fun b c i j _ _ _ _ => ⟨?_, ?_⟩⟩, ⟨rfl, fun b c i j _ _ _ _ => ⟨?_, ?_⟩⟩⟩
    · exact le_min (le_max_right _ _) zero_le_one
    · exact min_le_right _ _
    · show (0 : ℝ) ≤ _ / _
      positivity
    · show ((p.level c i j : ℕ) : ℝ) / 255 ≤ 1
      rw [div_le_one (by norm_num)]
      have := (p.level c i j).2
      exact_mod_cast (by omega : (p.level c i j : ℕ) ≤ 255)
  unfold step
  rw [he]
  dsimp only
  rw [hbpp]
  dsimp only
  rw [hs, hv]
  dsimp only
  rw [hps]
  dsimp only
  rw [hm]
  dsimp only
  rw [if_pos hval]
  have hb : (clamp (codec.decompress (codec.compress (toTensor p)))).batch = 1 := k1
  rw [hb]
  rfl

/-- One round for anything else fails. -/
theorem step_error (nets : Nets ι) (codec : Codec) (e : Entry) (s : State) (us : Metric ℤ)
    (hs : s.fid = ⟨some us, none, none⟩) (hbad : ∀ p, e.content = .picture p → p.height < 256 ∨ p.width < 256) :
    ∃ er, step nets codec s e = .error er := by
  unfold step
  cases hc : e.content with
  | unreadable => exact ⟨_, rfl⟩
  | picture p =>
    dsimp only
    cases bitsPerPixel (codec.pickleSize (codec.compress (toTensor p))) (toTensor p) with
    | error er => exact ⟨_, rfl⟩
    | ok bpp =>
      dsimp only
      have := (Verif.Train.Patches.C58_rejects toByte 256 (toTensor p)
        (clamp (codec.decompress (codec.compress (toTensor p)))) s.fid).2 (by rw [hs]; simp) (hbad p hc)
      rw [this]
      exact ⟨_, rfl⟩

/-- The loop over pictures that are large enough. -/
theorem loop_ok (nets : Nets ι) (codec : Codec) (hk : KeepsShape codec) : ∀ (es : List Entry) (pics : List Picture)
    (_ : es.map Entry.content = pics.map Content.picture) (_ : ∀ p ∈ pics, 256 ≤ p.height ∧ 256 ≤ p.width)
    (s : State) (us : Metric ℤ) (_ : s.fid = ⟨some us, none, none⟩),
    ∃ rs vs, List.Forall₂ (HasMsssim codec) pics rs ∧ seenBlocks vs true = originalBlocks pics ∧
      seenBlocks vs false = decodedBlocks codec pics ∧
      loop nets codec s es = .ok ⟨s.bpp ++ pics.map (rateOf codec), s.psnr ++ pics.map (decibelOf codec),
        ⟨s.msssim.scoreSum + rs.sum, s.msssim.total + pics.length⟩,
        s.lpipsSum + (pics.map (lpipsOf nets codec)).sum, s.lpipsTotal + pics.length, ⟨some (us ++ vs), none, none⟩⟩ := by
  intro es
  induction es with
  | nil =>
    intro pics hp _ s us hs
    cases pics with
    | cons p pics => simp at hp
    | nil =>
      refine ⟨[], [], .nil, rfl, rfl, ?_⟩
      simp [loop, ← hs]
  | cons e es ih =>
    intro pics hp hl s us hs
    cases pics with
    | nil => simp at hp
    | cons p pics =>
      simp only [List.map_cons, List.cons.injEq] at hp
      obtain ⟨r, vs, hr, hv1, hv2, hstep⟩ := step_ok nets codec hk e p hp.1 (hl p (by simp)).1 (hl p (by simp)).2 s us hs
      obtain ⟨rs, ws, hrs, hw1, hw2, hloop⟩ := ih pics hp.2 (fun q hq => hl q (by simp [hq]))
        (us := us ++ vs) (s := ⟨s.bpp ++ [rateOf codec p], s.psnr ++ [decibelOf codec p],
        ⟨s.msssim.scoreSum + r, s.msssim.total + 1⟩, s.lpipsSum + lpipsOf nets codec p, s.lpipsTotal + 1,
        ⟨some (us ++ vs), none, none⟩⟩) rfl
      refine ⟨r :: rs, vs ++ ws, .cons hr hrs, ?_, ?_, ?_⟩
      · rw [seenBlocks_append, hv1, hw1]
        simp [originalBlocks]
      · rw [seenBlocks_append, hv2, hw2]
        simp [decodedBlocks]
      · unfold loop
        rw [hstep]
        dsimp only
        rw [hloop]
        simp [add_assoc, add_comm 1]

/-- The loop fails otherwise. -/
theorem loop_error (nets : Nets ι) (codec : Codec) (hk : KeepsShape codec) : ∀ (es : List Entry)
    (_ : ∃ e ∈ es, ∀ p, e.content = .picture p → p.height < 256 ∨ p.width < 256)
    (s : State) (us : Metric ℤ) (_ : s.fid = ⟨some us, none, none⟩), ∃ er, loop nets codec s es = .error er := by
  intro es
  induction es with
  | nil => rintro ⟨e, he, -⟩; simp at he
  | cons e es ih =>
    intro hbad s us hs
    by_cases hb : ∀ p, e.content = .picture p → p.height < 256 ∨ p.width < 256
    · obtain ⟨er, her⟩ := step_error nets codec e s us hs hb
      exact ⟨er, by unfold loop; rw [her]⟩
    · push Not at hb
      obtain ⟨p, hp, h1, h2⟩ := hb
      obtain ⟨r, vs, -, -, -, hstep⟩ := step_ok nets codec hk e p hp h1 h2 s us hs
      obtain ⟨e', he', hbad'⟩ := hbad
      have : e' ∈ es := by
        rcases List.mem_cons.1 he' with rfl | h
        · rcases hbad' p hp with h | h <;> omega
        · exact h
      obtain ⟨er, her⟩ := ih ⟨e', this, hbad'⟩ (us := us ++ vs) (s := ⟨s.bpp ++ [rateOf codec p], s.psnr ++ [decibelOf codec p],
        ⟨s.msssim.scoreSum + r, s.msssim.total + 1⟩, s.lpipsSum + lpipsOf nets codec p, s.lpipsTotal + 1,
        ⟨some (us ++ vs), none, none⟩⟩) rfl
      exact ⟨er, by unfold loop; rw [hstep]; exact her⟩

/-- The mean of levels in decibel. -/
theorem fold_decibel (codec : Codec) : ∀ (pics : List Picture) (d : Decibel),
    (pics.map (decibelOf codec)).foldl addDecibel d =
      match d with
      | .infinite => .infinite
      | .finite x => open Classical in if ∃ p ∈ pics, errorOf codec p = 0 then .infinite else
        .finite (x + (pics.map fun p => 20 * Real.logb 10 255 - 10 * Real.logb 10 (errorOf codec p)).sum) := by
  intro pics
  induction pics with
  | nil => intro d; cases d <;> simp
  | cons p pics ih =>
    intro d
    rw [List.map_cons, List.foldl_cons, ih]
    cases d with
    | infinite => rfl
    | finite x =>
      unfold decibelOf Verif.Train.Psnr.decibel
      by_cases h : errorOf codec p = 0
      · simp [h, addDecibel]
      · simp only [h, if_false, addDecibel]
        have : (∃ q ∈ p :: pics, errorOf codec q = 0) ↔ ∃ q ∈ pics, errorOf codec q = 0 := by simp [h]
        simp only [this]
        split_ifs
        · rfl
        · simp [add_assoc]

theorem errorOf_nonneg (codec : Codec) (p : Picture) : 0 ≤ errorOf codec p := by
  unfold errorOf
  exact div_nonneg (Finset.sum_nonneg fun _ _ => sq_nonneg _) (by positivity)

theorem logb_error {e : ℝ} (h : 0 < e) :
    20 * Real.logb 10 255 - 10 * Real.logb 10 e = 20 * Real.logb 10 (255 / Real.sqrt e) := by
  rw [Real.logb_div (by norm_num) (Real.sqrt_pos.2 h).ne', Real.sqrt_eq_rpow, Real.logb_rpow_eq_mul_logb_of_pos h]
  ring

theorem glob_eq (folder : List Entry) :
    glob folder = folder.filter fun e => decide (['.', 'p', 'n', 'g'] <:+ e.name) := by
  unfold glob
  refine List.filter_congr fun e _ => ?_
  rw [Bool.eq_iff_iff, List.isSuffixOf_iff_suffix]
  simp [suffix]

theorem gridBlocks_length (value : ℕ → ℕ → ℕ → ℤ) (s h w : ℕ) :
    (gridBlocks value s h w).length = ((h - s) / 256) * ((w - s) / 256) := by
  simp [gridBlocks]

theorem allBlocks_length (value : ℕ → ℕ → ℕ → ℤ) (h w : ℕ) :
    (allBlocks value h w).length =
      h / 256 * (w / 256) + if 384 ≤ h ∧ 384 ≤ w then (h - 128) / 256 * ((w - 128) / 256) else 0 := by
  unfold allBlocks
  rw [List.length_append, gridBlocks_length]
  split_ifs
  · rw [gridBlocks_length]; simp
  · simp

theorem decodedBlocks_length (codec : Codec) (pics : List Picture) :
    (decodedBlocks codec pics).length = (originalBlocks pics).length := by
  unfold decodedBlocks originalBlocks
  rw [List.length_flatMap, List.length_flatMap]
  congr 1
  refine List.map_congr_left fun p _ => ?_
  rw [allBlocks_length, allBlocks_length]

/-- There are enough patches: two pictures, or one with two patches. -/
theorem enough_iff (pics : List Picture) (hl : ∀ p ∈ pics, 256 ≤ p.height ∧ 256 ≤ p.width) :
    2 ≤ (originalBlocks pics).length ↔
      2 ≤ pics.length ∨ ∃ p ∈ pics, 512 ≤ p.height ∨ 512 ≤ p.width ∨ (384 ≤ p.height ∧ 384 ≤ p.width) := by
  have one : ∀ h w : ℕ, 256 ≤ h → 256 ≤ w →
      1 ≤ h / 256 * (w / 256) + (if 384 ≤ h ∧ 384 ≤ w then (h - 128) / 256 * ((w - 128) / 256) else 0) ∧
      (2 ≤ h / 256 * (w / 256) + (if 384 ≤ h ∧ 384 ≤ w then (h - 128) / 256 * ((w - 128) / 256) else 0) ↔
        512 ≤ h ∨ 512 ≤ w ∨ (384 ≤ h ∧ 384 ≤ w)) := by
    intro h w hh hw
    have a1 : 1 ≤ h / 256 := by omega
    have a2 : 1 ≤ w / 256 := by omega
    have a3 : 1 ≤ h / 256 * (w / 256) := Nat.mul_pos a1 a2
    refine ⟨by omega, ?_⟩
    by_cases hb : 384 ≤ h ∧ 384 ≤ w
    · have : 1 ≤ (h - 128) / 256 * ((w - 128) / 256) := Nat.mul_pos (by omega) (by omega)
      rw [if_pos hb]
      constructor
      · intro _; exact Or.inr (Or.inr hb)
      · intro _; omega
    · rw [if_neg hb, Nat.add_zero]
      constructor
      · intro h2
        by_contra hc
        push Not at hc
        have e1 : h / 256 = 1 := by omega
        have e2 : w / 256 = 1 := by omega
        rw [e1, e2] at h2
        omega
      · rintro (h1 | h1 | h1)
        · calc 2 ≤ h / 256 := by omega
            _ ≤ h / 256 * (w / 256) := Nat.le_mul_of_pos_right _ a2
        · calc 2 ≤ w / 256 := by omega
            _ ≤ h / 256 * (w / 256) := Nat.le_mul_of_pos_left _ a1
        · exact absurd h1 hb
  have hlen : ∀ p : Picture, (originalBlocks [p]).length = _ := fun p => by
    unfold originalBlocks
    rw [List.flatMap_cons, List.flatMap_nil, List.append_nil, allBlocks_length]
  match pics, hl with
  | [], _ => simp [originalBlocks]
  | [p], hl =>
    rw [hlen, (one _ _ (hl p (by simp)).1 (hl p (by simp)).2).2]
    simp
  | p :: q :: rest, hl =>
    have e : (originalBlocks (p :: q :: rest)).length =
        (originalBlocks [p]).length + ((originalBlocks [q]).length + (originalBlocks rest).length) := by
      simp [originalBlocks]
    have h1 := (one _ _ (hl p (by simp)).1 (hl p (by simp)).2).1
    have h2 := (one _ _ (hl q (by simp)).1 (hl q (by simp)).2).1
    rw [← hlen] at h1 h2
    rw [e]
    constructor
    · intro _; left; simp
    · intro _; omega

/-- The end of the script for pictures that are large enough. -/
theorem main_ok (nets : Nets ι) (codec : Codec) (hk : KeepsShape codec) (folder : List Entry) (pics : List Picture)
    (hp : PicturesOf folder pics) (hl : ∀ p ∈ pics, 256 ≤ p.height ∧ 256 ≤ p.width) :
    (2 ≤ (originalBlocks pics).length → ∃ r, main nets codec folder = .ok r ∧ Expected nets codec pics r) ∧
    ((originalBlocks pics).length < 2 → ∃ er, main nets codec folder = .error er) := by
  obtain ⟨rs, vs, hrs, hv1, hv2, hloop⟩ := loop_ok nets codec hk (glob folder) pics (by rw [glob_eq]; exact hp) hl
    State.init [] rfl
  unfold main
  rw [hloop]
  dsimp only
  unfold finish
  dsimp only [State.init, List.nil_append]
  constructor
  · intro h2
    have hne : pics ≠ [] := by
      rintro rfl
      simp [originalBlocks] at h2
    have hlen : pics.length ≠ 0 := by simpa using hne
    have hd : ¬ ((seenBlocks vs true).length < 2 ∨ (seenBlocks vs false).length < 2) := by
      rw [hv1, hv2, decodedBlocks_length]
      omega
    have hmean : mean (pics.map (rateOf codec)) = .ok (average pics (rateOf codec)) := by
      unfold mean average
      rw [List.length_map, if_neg hlen]
    have hdb : ∃ d, meanDecibel (pics.map (decibelOf codec)) = .ok d ∧
        ((∃ p ∈ pics, errorOf codec p = 0) → d = .infinite) ∧
        ((∀ p ∈ pics, errorOf codec p ≠ 0) →
          d = .finite (average pics fun p => 20 * Real.logb 10 (255 / Real.sqrt (errorOf codec p)))) := by
      unfold meanDecibel
      rw [List.length_map, if_neg hlen, fold_decibel]
      refine ⟨_, rfl, ?_, ?_⟩
      · intro h
        dsimp only
        rw [if_pos h]
      · intro h
        dsimp only
        rw [if_neg (by push Not; exact h)]
        dsimp only
        rw [zero_add]
        unfold average
        congr 3
        refine List.map_congr_left fun p hp => ?_
        exact logb_error (lt_of_le_of_ne (errorOf_nonneg codec p) (Ne.symm (h p hp)))
    obtain ⟨d, hd1, hd2, hd3⟩ := hdb
    refine ⟨⟨average pics (rateOf codec), d, some (rs.sum / pics.length), average pics (lpipsOf nets codec),
      fidOf nets (originalBlocks pics) (decodedBlocks codec pics)⟩, ?_, rfl, hd2, hd3, ?_, rfl, rfl⟩
    · rw [hmean, hd1, fid_eq, if_neg hd, hv1, hv2]
      simp [bind, Except.bind, pure, Except.pure, Verif.Train.Accum.compute, Verif.Train.Accum.State.init, hlen, average, hne]
    · have : ∃ score : Picture → ℝ, ∀ p ∈ pics, HasMsssim codec p (score p) := by
        have hex : ∀ p ∈ pics, ∃ r, HasMsssim codec p r := by
          intro p hp
          exact ⟨_, (msssim_step codec hk p (hl p hp).1 (hl p hp).2 ⟨0, 0⟩).choose_spec.1⟩
        classical
        exact ⟨fun p => if h : p ∈ pics then (hex p h).choose else 0, fun p hp => by
          dsimp only; rw [dif_pos hp]; exact (hex p hp).choose_spec⟩
      obtain ⟨score, hscore⟩ := this
      refine ⟨score, hscore, ?_⟩
      have hu : ∀ p r r', HasMsssim codec p r → HasMsssim codec p r' → r = r' := by
        intro p r r' h h'
        unfold HasMsssim at h h'
        rw [h] at h'
        simpa using h'
      have : rs = pics.map score := by
        clear hloop hd3 hd2 hd1 hv1 hv2 hd hmean hlen hne h2 hp
        induction hrs with
        | nil => rfl
        | cons h hrs ih =>
          rw [List.map_cons, ← ih (fun p hp => hl p (by simp [hp])) (fun p hp => hscore p (by simp [hp]))]
          rw [hu _ _ _ h (hscore _ (by simp))]
      rw [this]
      rfl
  · intro h2
    have hd : (seenBlocks vs true).length < 2 ∨ (seenBlocks vs false).length < 2 := by
      rw [hv1]
      exact Or.inl h2
    rw [fid_eq, if_pos hd]
    cases mean (pics.map (rateOf codec)) with
    | error er => exact ⟨er, rfl⟩
    | ok a =>
      cases meanDecibel (pics.map (decibelOf codec)) with
      | error er => exact ⟨er, rfl⟩
      | ok b => exact ⟨_, rfl⟩

/-! ### C112 -/

/-- **C112, the report.** Whenever the script finishes: every name that ends in `.png` stands for a picture, and what is
reported is the mean rate, the mean PSNR (infinite as soon as one picture is reproduced exactly), the mean MS-SSIM and the
mean LPIPS over these pictures, each counted once, and the FID of all their patches. -/
theorem C112_report (nets : Nets ι) (codec : Codec) (hk : KeepsShape codec) (folder : List Entry) (r : Report)
    (h : main nets codec folder = .ok r) : ∃ pics, PicturesOf folder pics ∧ Expected nets codec pics r := by
  by_cases hbad : ∃ e ∈ glob folder, ∀ p, e.content = .picture p → p.height < 256 ∨ p.width < 256
  · obtain ⟨er, her⟩ := loop_error nets codec hk _ hbad State.init [] rfl
    unfold main at h
    rw [her] at h
    exact (nomatch h)
  · push Not at hbad
    obtain ⟨pics, hp, hl⟩ : ∃ pics : List Picture, (glob folder).map Entry.content = pics.map Content.picture ∧
        ∀ p ∈ pics, 256 ≤ p.height ∧ 256 ≤ p.width := by
      clear h
      revert hbad
      generalize glob folder = l
      intro hbad
      induction l with
      | nil => exact ⟨[], rfl, by simp⟩
      | cons e es ih =>
        obtain ⟨pics, hp, hl⟩ := ih fun e he => hbad e (by simp [he])
        obtain ⟨p, h1, h2⟩ := hbad e (by simp)
        refine ⟨p :: pics, by simp [hp, h1], ?_⟩
        intro q hq
        rcases List.mem_cons.1 hq with rfl | hq
        · exact h2
        · exact hl q hq
    have hp' : PicturesOf folder pics := by unfold PicturesOf; rw [← glob_eq]; exact hp
    obtain ⟨a, b⟩ := main_ok nets codec hk folder pics hp' hl
    refine ⟨pics, hp', ?_⟩
    by_cases h2 : 2 ≤ (originalBlocks pics).length
    · obtain ⟨r', hr', he⟩ := a h2
      rw [h] at hr'
      injection hr' with hr'
      rw [hr']
      exact he
    · obtain ⟨er, her⟩ := b (by omega)
      rw [h] at her
      exact (nomatch her)

/-- **C112, when there is a report.** Exactly if every name that ends in `.png` stands for a picture, all of these are at
least 256 pixels high and wide, and there are two of them or one that is large enough for two patches. -/
theorem C112_exact (nets : Nets ι) (codec : Codec) (hk : KeepsShape codec) (folder : List Entry) :
    (∃ r, main nets codec folder = .ok r) ↔
      ∃ pics, PicturesOf folder pics ∧ (∀ p ∈ pics, 256 ≤ p.height ∧ 256 ≤ p.width) ∧
        (2 ≤ pics.length ∨ ∃ p ∈ pics, 512 ≤ p.height ∨ 512 ≤ p.width ∨ (384 ≤ p.height ∧ 384 ≤ p.width)) := by
  constructor
  · rintro ⟨r, h⟩
    obtain ⟨pics, hp, -⟩ := C112_report nets codec hk folder r h
    by_cases hl : ∀ p ∈ pics, 256 ≤ p.height ∧ 256 ≤ p.width
    · obtain ⟨-, b⟩ := main_ok nets codec hk folder pics hp hl
      by_cases h2 : 2 ≤ (originalBlocks pics).length
      · exact ⟨pics, hp, hl, (enough_iff pics hl).1 h2⟩
      · obtain ⟨er, her⟩ := b (by omega)
        rw [h] at her
        exact (nomatch her)
    · push Not at hl
      obtain ⟨p, hpm, hsmall⟩ := hl
      have : Content.picture p ∈ (glob folder).map Entry.content := by
        rw [glob_eq]
        have := hp
        unfold PicturesOf at this
        rw [this]
        exact List.mem_map.2 ⟨p, hpm, rfl⟩
      obtain ⟨e, he, hc⟩ := List.mem_map.1 this
      obtain ⟨er, her⟩ := loop_error nets codec hk (glob folder) ⟨e, he, fun q hq => by
        rw [hc] at hq
        injection hq with hq
        subst hq
        by_contra hcon
        push Not at hcon
        have := hsmall hcon.1
        omega⟩ State.init [] rfl
      unfold main at h
      rw [her] at h
      exact (nomatch h)
  · rintro ⟨pics, hp, hl, h2⟩
    obtain ⟨r, hr, -⟩ := (main_ok nets codec hk folder pics hp hl).1 ((enough_iff pics hl).2 h2)
    exact ⟨r, hr⟩

theorem perm_sum {l l' : List Block} (h : l.Perm l') (f : Block → ℝ) : (l.map f).sum = (l'.map f).sum :=
  (h.map f).sum_eq

theorem fidOf_perm (nets : Nets ι) {a a' b b' : List Block} (h : a.Perm a') (h' : b.Perm b') :
    fidOf nets a b = fidOf nets a' b' := by
  have hm : ∀ {l l' : List Block}, l.Perm l' → sampleMean nets.features l = sampleMean nets.features l' := by
    intro l l' hl
    funext i
    unfold sampleMean
    rw [perm_sum hl, hl.length_eq]
  have hc : ∀ {l l' : List Block}, l.Perm l' → sampleCov nets.features l = sampleCov nets.features l' := by
    intro l l' hl
    funext i j
    unfold sampleCov
    rw [hm hl, perm_sum hl, hl.length_eq]
  unfold fidOf
  rw [hm h, hm h', hc h, hc h']

theorem average_perm {pics pics' : List Picture} (h : pics.Perm pics') (f : Picture → ℝ) :
    average pics f = average pics' f := by
  unfold average
  rw [(h.map f).sum_eq, h.length_eq]

/-- **C112, order.** The order in which the file system lists the folder does not matter. -/
theorem C112_order (nets : Nets ι) (codec : Codec) (hk : KeepsShape codec) (folder folder' : List Entry)
    (hperm : folder.Perm folder') (r : Report) (h : main nets codec folder = .ok r) :
    main nets codec folder' = .ok r := by
  obtain ⟨pics, hp, hl, h2⟩ := (C112_exact nets codec hk folder).1 ⟨r, h⟩
  have hpp : ∃ pics', PicturesOf folder' pics' ∧ pics.Perm pics' := by
    have h1 := (hperm.filter fun e => decide (['.', 'p', 'n', 'g'] <:+ e.name)).map Entry.content
    unfold PicturesOf at hp
    rw [hp] at h1
    let back : Content → Option Picture := fun c => match c with | .picture p => some p | .unreadable => none
    set cs := (folder'.filter fun e => decide (['.', 'p', 'n', 'g'] <:+ e.name)).map Entry.content with hcs
    have hall : ∀ c ∈ cs, ∃ p, c = Content.picture p := by
      intro c hc
      obtain ⟨p, -, hp⟩ := List.mem_map.1 (h1.mem_iff.2 hc)
      exact ⟨p, hp.symm⟩
    have hback : cs = (cs.filterMap back).map Content.picture := by
      clear h1
      clear_value cs
      clear hcs
      induction cs with
      | nil => rfl
      | cons c cs ih =>
        obtain ⟨p, rfl⟩ := hall c (by simp)
        have hb : back (.picture p) = some p := rfl
        rw [List.filterMap_cons, hb]
        dsimp only
        rw [List.map_cons, ← ih fun c hc => hall c (by simp [hc])]
    refine ⟨cs.filterMap back, by unfold PicturesOf; rw [← hcs]; exact hback, ?_⟩
    have h3 := h1.filterMap back
    rw [List.filterMap_map] at h3
    have h4 : List.filterMap (back ∘ Content.picture) pics = pics := by
      have : (back ∘ Content.picture) = some := rfl
      rw [this, List.filterMap_some]
    rw [h4] at h3
    exact h3
  obtain ⟨pics', hp', hperm'⟩ := hpp
  have hl' : ∀ p ∈ pics', 256 ≤ p.height ∧ 256 ≤ p.width := fun p hp => hl p (hperm'.mem_iff.2 hp)
  have hob : (originalBlocks pics).Perm (originalBlocks pics') := hperm'.flatMap_right _
  have hdb : (decodedBlocks codec pics).Perm (decodedBlocks codec pics') := hperm'.flatMap_right _
  have h2' := (enough_iff pics hl).2 h2
  obtain ⟨r1, hr1, e1⟩ := (main_ok nets codec hk folder pics hp hl).1 h2'
  rw [h] at hr1
  injection hr1 with hr1
  subst hr1
  obtain ⟨r2, hr2, e2⟩ := (main_ok nets codec hk folder' pics' hp' hl').1 (by rw [← hob.length_eq]; exact h2')
  rw [hr2]
  obtain ⟨a1, a2, a3, ⟨f, f1, f2⟩, a5, a6⟩ := e1
  obtain ⟨b1, b2, b3, ⟨g, g1, g2⟩, b5, b6⟩ := e2
  have q1 : r.rate = r2.rate := by rw [a1, b1, average_perm hperm']
  have q2 : r.psnr = r2.psnr := by
    by_cases hz : ∃ p ∈ pics, errorOf codec p = 0
    · rw [a2 hz, b2 (by obtain ⟨p, hp, e⟩ := hz; exact ⟨p, hperm'.mem_iff.1 hp, e⟩)]
    · push Not at hz
      rw [a3 hz, b3 fun p hp => hz p (hperm'.mem_iff.2 hp), average_perm hperm']
  have q3 : r.msssim = r2.msssim := by
    rw [f2, g2]
    congr 1
    rw [average_perm hperm']
    unfold average
    congr 2
    refine List.map_congr_left fun p hp => ?_
    have x1 := f1 p (hperm'.mem_iff.2 hp)
    have x2 := g1 p hp
    unfold HasMsssim at x1 x2
    rw [x1] at x2
    simpa using x2
  have q5 : r.lpips = r2.lpips := by rw [a5, b5, average_perm hperm']
  have q6 : r.fid = r2.fid := by rw [a6, b6, fidOf_perm nets hob hdb]
  cases r
  cases r2
  simp_all

/-- **C112, other files.** Names that do not end in `.png` do not matter; among them are `.PNG` and `.jpg`. -/
theorem C112_other (nets : Nets ι) (codec : Codec) (folder : List Entry) :
    main nets codec folder = main nets codec (folder.filter fun e => decide (['.', 'p', 'n', 'g'] <:+ e.name)) := by
  unfold main
  rw [glob_eq, glob_eq, List.filter_filter]
  simp

/-- **C112 is violated for an empty folder**, and for one without a name in `.png`: there is no report but a
`ZeroDivisionError`. -/
theorem C112_violated_empty (nets : Nets ι) (codec : Codec) (folder : List Entry)
    (h : ∀ e ∈ folder, ¬ ['.', 'p', 'n', 'g'] <:+ e.name) : main nets codec folder = .error .zeroDivision := by
  have : glob folder = [] := by
    rw [glob_eq, List.filter_eq_nil_iff]
    intro e he
    simpa using h e he
  unfold main
  rw [this]
  rfl

/-- **C112 is violated for small pictures**: one picture less than 256 pixels high or wide, which the model compresses,
and for which rate, PSNR and LPIPS are defined, and the other pictures are not reported either. -/
theorem C112_violated_small (nets : Nets ι) (codec : Codec) (hk : KeepsShape codec) (folder : List Entry) (e : Entry)
    (he : e ∈ folder) (hn : ['.', 'p', 'n', 'g'] <:+ e.name) (p : Picture) (hc : e.content = .picture p)
    (hp : p.height < 256 ∨ p.width < 256) : ∃ er, main nets codec folder = .error er := by
  obtain ⟨er, her⟩ := loop_error nets codec hk (glob folder) ⟨e, by
    rw [glob_eq]; exact List.mem_filter.2 ⟨he, by simpa using hn⟩, fun q hq => by
      rw [hc] at hq
      injection hq with hq
      subst hq
      exact hp⟩ State.init [] rfl
  exact ⟨er, by unfold main; rw [her]⟩

/-- The rate of a set of pictures: all bits per all pixels. -/
noncomputable def totalRate (codec : Codec) (pics : List Picture) : ℝ :=
  (pics.map fun p => 8 * (codec.pickleSize (codec.compress (scaled p)) : ℝ)).sum /
    (pics.map fun p => (p.height * p.width : ℝ)).sum

/-- **C112, rate.** For pictures of one size the reported rate is the number of all bits per number of all pixels. -/
theorem C112_rate_partial (codec : Codec) (pics : List Picture) (n : ℕ)
    (h : ∀ p ∈ pics, p.height * p.width = n) : average pics (rateOf codec) = totalRate codec pics := by
  unfold average totalRate
  have e1 : pics.map (rateOf codec) =
      pics.map fun p => 8 * (codec.pickleSize (codec.compress (scaled p)) : ℝ) * (1 / n) := by
    refine List.map_congr_left fun p hp => ?_
    unfold rateOf
    have : ((p.height : ℝ) * p.width) = n := by exact_mod_cast h p hp
    rw [this, mul_one_div]
  have e2 : (pics.map fun p => (p.height * p.width : ℝ)).sum = pics.length * n := by
    rw [List.map_congr_left (g := fun _ => (n : ℝ)) fun p hp => by exact_mod_cast h p hp]
    simp
  rw [e1, e2, List.sum_map_mul_right]
  rw [mul_one_div, div_div, mul_comm (n : ℝ)]

/-- A codec for examples: it stores nothing but its streams have 1000 bytes. -/
noncomputable def exampleCodec : Codec := ⟨Images ℝ, id, id, fun _ => 1000⟩

theorem exampleCodec_keeps : KeepsShape exampleCodec := fun _ => ⟨rfl, rfl, rfl, rfl⟩

/-- A picture for examples. -/
def examplePicture (h w : ℕ) : Picture := ⟨h, w, fun c i j => ⟨(c + i + j) % 256, Nat.mod_lt _ (by norm_num)⟩⟩

/-- **C112 is violated for the rate** of pictures of different sizes: it is the mean of the rates of the pictures, not
the rate of the set. -/
theorem C112_violated_rate (nets : Nets ι) : ∃ (codec : Codec) (pics : List Picture) (r : Report), KeepsShape codec ∧
    main nets codec (pics.map fun p => ⟨['a', '.', 'p', 'n', 'g'], .picture p⟩) = .ok r ∧
    totalRate codec pics < r.rate := by
  have hp : PicturesOf ([examplePicture 256 256, examplePicture 512 256].map fun p =>
      (⟨['a', '.', 'p', 'n', 'g'], .picture p⟩ : Entry)) [examplePicture 256 256, examplePicture 512 256] := by
    unfold PicturesOf
    rfl
  obtain ⟨r, hr⟩ := (C112_exact nets exampleCodec exampleCodec_keeps _).2
    ⟨[examplePicture 256 256, examplePicture 512 256], hp, by simp [examplePicture], Or.inl (by simp)⟩
  obtain ⟨r', hr', he⟩ := (main_ok nets exampleCodec exampleCodec_keeps _ _ hp (by simp [examplePicture])).1
    ((enough_iff _ (by simp [examplePicture])).2 (Or.inl (by simp)))
  rw [hr] at hr'
  injection hr' with hr'
  subst hr'
  refine ⟨exampleCodec, _, r, exampleCodec_keeps, hr, ?_⟩
  rw [he.1]
  have hsize : ∀ x, (exampleCodec.pickleSize (exampleCodec.compress x) : ℝ) = 1000 := fun x => by
    show ((1000 : ℕ) : ℝ) = 1000
    norm_num
  unfold average totalRate rateOf
  simp only [hsize]
  norm_num [examplePicture]

/-- Non-vacuity: a folder with one picture of 384 by 400 pixels, a text file and a picture in JPEG is reported on, for
every choice of networks; the rate is that of the picture, and its PSNR is infinite since the codec is lossless. -/
example (nets : Nets ι) : ∃ r, main nets exampleCodec
    [⟨['a', '.', 'p', 'n', 'g'], .picture (examplePicture 384 400)⟩, ⟨['b', '.', 't', 'x', 't'], .unreadable⟩,
      ⟨['c', '.', 'j', 'p', 'g'], .picture (examplePicture 100 100)⟩] = .ok r ∧ r.rate = 8000 / 153600 := by
  have hp : PicturesOf [⟨['a', '.', 'p', 'n', 'g'], .picture (examplePicture 384 400)⟩,
      ⟨['b', '.', 't', 'x', 't'], .unreadable⟩, ⟨['c', '.', 'j', 'p', 'g'], .picture (examplePicture 100 100)⟩]
      [examplePicture 384 400] := by
    unfold PicturesOf
    rfl
  obtain ⟨r, hr, he⟩ := (main_ok nets exampleCodec exampleCodec_keeps _ _ hp (by simp [examplePicture])).1
    ((enough_iff _ (by simp [examplePicture])).2 (Or.inr ⟨examplePicture 384 400, by simp, by simp [examplePicture]⟩))
  refine ⟨r, hr, ?_⟩
  rw [he.1]
  norm_num [average, rateOf, exampleCodec, examplePicture]

end Verif.Script.EvalFolder
