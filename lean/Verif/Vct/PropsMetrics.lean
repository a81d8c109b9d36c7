import Verif.Vct.Metrics
import Verif.Train.PropsPsnr
import Mathlib.Analysis.Convex.SpecificFunctions.Basic
import Mathlib.Analysis.Convex.Jensen

/-!
C97: losses and metrics of the video project.
-/

namespace Verif.Vct.Metrics

open scoped BigOperators
open Verif.Train.Psnr

variable {T : ℕ} {ι κ : Type} [Fintype ι] [Fintype κ]

/-! ### Rates and losses -/

theorem sum_rateFrame (lik : Fin T → ι → ℝ) : ∑ t, rateFrame lik t = rateTotal lik := by
  unfold rateFrame rateTotal
  rw [Finset.sum_div]

/-- The information content of all elements in bits. -/
noncomputable def bits (lik : Fin T → ι → ℝ) : ℝ := ∑ t, ∑ i, -Real.logb 2 (lik t i)

theorem rateTotal_eq (lik : Fin T → ι → ℝ) : rateTotal lik = bits lik := by
  unfold rateTotal bits Real.logb
  rw [div_neg, Finset.sum_div, ← Finset.sum_neg_distrib]
  refine Finset.sum_congr rfl fun t _ => ?_
  rw [Finset.sum_div, ← Finset.sum_neg_distrib]

/-- The mean squared error of all frames together. -/
noncomputable def mseAll (x y : Fin T → κ → ℝ) : ℝ := (∑ t, ∑ i, (x t i - y t i) ^ 2) / (T * Fintype.card κ)

/-- **C97, losses.** The mean of the rates of the frames is the information content of the latents per pixel of all frames;
the mean of the combined losses is this plus lambda times the mean squared error of the video in 8-bit units. -/
theorem C97_losses (lam : ℝ) (B H W : ℕ) (lik : Fin T → ι → ℝ) (x y : Fin T → κ → ℝ) :
    mean (rateLossFrame B H W lik) = bits lik / (B * H * W * T) ∧ rateLoss B H W lik = bits lik / (B * H * W * T) ∧
      mean (combinedFrame lam B H W lik x y) =
        lam * mseAll (fun t i => 255 * x t i) (fun t i => 255 * y t i) + bits lik / (B * H * W * T) := by
  have h1 : mean (rateLossFrame B H W lik) = bits lik / (B * H * W * T) := by
    unfold mean rateLossFrame
    rw [← Finset.sum_div, sum_rateFrame, rateTotal_eq, div_div]
  refine ⟨h1, by unfold rateLoss; rw [rateTotal_eq], ?_⟩
  have h2 : mean (combinedFrame lam B H W lik x y) = scaling lam * mean (distFrame x y) + mean (rateLossFrame B H W lik) := by
    unfold mean combinedFrame
    rw [Finset.sum_add_distrib, ← Finset.mul_sum]
    ring
  rw [h2, h1]
  congr 1
  unfold mean distFrame mse mseAll scaling
  rw [← Finset.sum_div, div_div]
  have : ∑ t, ∑ i, (255 * x t i - 255 * y t i) ^ 2 = 255 ^ 2 * ∑ t, ∑ i, (x t i - y t i) ^ 2 := by
    rw [Finset.mul_sum]
    refine Finset.sum_congr rfl fun t _ => ?_
    rw [Finset.mul_sum]
    refine Finset.sum_congr rfl fun i _ => ?_
    ring
  rw [this, mul_comm (Fintype.card κ : ℝ) (T : ℝ)]
  ring

/-- **C97, minimised loss.** The loss weights the first frame once and every other frame ten times. -/
theorem C97_weighted (lam : ℝ) (B H W n : ℕ) (lik : Fin (n + 1) → ι → ℝ) (x y : Fin (n + 1) → κ → ℝ) :
    loss lam B H W lik x y = (combinedFrame lam B H W lik x y 0 +
      10 * ∑ t : Fin n, combinedFrame lam B H W lik x y t.succ) / (n + 1) := by
  unfold loss mean
  rw [Fin.sum_univ_succ, Finset.mul_sum]
  have h0 : weight (0 : Fin (n + 1)) = 1 := rfl
  have hs : ∀ t : Fin n, weight t.succ = 10 := fun t => if_neg (by simp)
  rw [h0, mul_one]
  simp only [hs]
  push_cast
  congr 2
  refine Finset.sum_congr rfl fun t _ => ?_
  ring

/-- **C97, no negative rates.** With likelihoods between 0 and 1 all rates are non-negative. -/
theorem C97_nonneg (B H W : ℕ) (lik : Fin T → ι → ℝ) (h : ∀ t i, 0 < lik t i ∧ lik t i ≤ 1) (t : Fin T) :
    0 ≤ rateLossFrame B H W lik t ∧ 0 ≤ rateLoss B H W lik := by
  have hl : ∀ t i, Real.log (lik t i) ≤ 0 := fun t i => Real.log_nonpos (h t i).1.le (h t i).2
  have h2 : -Real.log 2 ≤ 0 := by
    have := Real.log_pos (by norm_num : (1 : ℝ) < 2)
    linarith
  constructor
  · exact div_nonneg (div_nonneg_of_nonpos (Finset.sum_nonpos fun i _ => hl t i) h2) (by positivity)
  · exact div_nonneg (div_nonneg_of_nonpos (Finset.sum_nonpos fun t _ => Finset.sum_nonpos fun i _ => hl t i) h2)
      (by positivity)

/-- **C97, test rates.** For videos of two frames or more both estimates are in bits per pixel, over all frames and over all
but the first: together with the first frame's bits the second gives the first. -/
theorem C97_test_partial (H W n : ℕ) (hH : 0 < H) (hW : 0 < W) (hn : 0 < n) (lik : Fin (n + 1) → ι → ℝ) (b : ℝ) (bs : List ℝ) :
    (∃ r r1, testRates H W lik = .ok (r, r1) ∧ r * (H * W * (n + 1)) = bits lik ∧
      r1 * (H * W * n) = bits (fun t : Fin n => lik t.succ)) ∧
    ∃ r r1, testBits H W (n + 1) (b :: bs) = .ok (r, r1) ∧ r * (H * W * (n + 1)) = b + bs.sum ∧ r1 * (H * W * n) = bs.sum := by
  have hp : 0 < H * W := Nat.mul_pos hH hW
  have p1 : H * W * (n + 1) ≠ 0 := (Nat.mul_pos hp (Nat.succ_pos n)).ne'
  have p2 : H * W * (n + 1 - 1) ≠ 0 := (Nat.mul_pos hp hn).ne'
  have q1 : ((H * W * (n + 1) : ℕ) : ℝ) ≠ 0 := by exact_mod_cast p1
  have q2 : ((H * W * (n + 1 - 1) : ℕ) : ℝ) ≠ 0 := by exact_mod_cast p2
  have e1 : ((H : ℝ) * W * (n + 1)) = ((H * W * (n + 1) : ℕ) : ℝ) := by push_cast; ring
  have e2 : ((H : ℝ) * W * n) = ((H * W * (n + 1 - 1) : ℕ) : ℝ) := by rw [Nat.add_sub_cancel]; push_cast; ring
  have ht : rateTail lik = bits (fun t : Fin n => lik t.succ) := by
    rw [← rateTotal_eq]
    unfold rateTail rateTotal
    rw [Fin.sum_univ_succ]
    simp
  constructor
  · refine ⟨rateTotal lik / ((H * W * (n + 1) : ℕ) : ℝ), rateTail lik / ((H * W * (n + 1 - 1) : ℕ) : ℝ), ?_, ?_, ?_⟩
    · unfold testRates pyDiv
      rw [if_neg p1, if_neg p2]
      rfl
    · rw [e1, div_mul_cancel₀ _ q1, rateTotal_eq]
    · rw [e2, div_mul_cancel₀ _ q2, ht]
  · refine ⟨(b :: bs).sum / ((H * W * (n + 1) : ℕ) : ℝ), bs.sum / ((H * W * (n + 1 - 1) : ℕ) : ℝ), ?_, ?_, ?_⟩
    · unfold testBits pyDiv
      rw [if_neg p1, if_neg p2]
      rfl
    · rw [e1, div_mul_cancel₀ _ q1, List.sum_cons]
    · rw [e2, div_mul_cancel₀ _ q2]

/-- **C97, violated: single frames.** The test of a video of one frame always raises, and no metric is logged. -/
theorem C97_violated_single (H W : ℕ) (hH : 0 < H) (hW : 0 < W) (lik : Fin 1 → ι → ℝ) (bs : List ℝ) :
    testRates H W lik = .error .zeroDivision ∧ testBits H W 1 bs = .error .zeroDivision := by
  have p1 : H * W * 1 ≠ 0 := (Nat.mul_pos (Nat.mul_pos hH hW) Nat.one_pos).ne'
  unfold testRates testBits pyDiv
  rw [if_neg p1, if_neg p1]
  exact ⟨rfl, rfl⟩

/-! ### 8-bit PSNR -/

/-- A conversion of floats to 8-bit integers: it truncates what fits; what it does with other values is undefined. -/
def Legal (cast : ℝ → UInt8) : Prop := ∀ x : ℝ, 0 ≤ x → x < 256 → ((cast x).toNat : ℤ) = ⌊x⌋

theorem legal_eq (c c' : ℝ → UInt8) (h : Legal c) (h' : Legal c') (x : ℝ) (h0 : 0 ≤ x) (h1 : x < 256) : c x = c' x := by
  apply UInt8.toNat_inj.1
  have := (h x h0 h1).trans (h' x h0 h1).symm
  exact_mod_cast this

theorem clamp_mem (x : ℝ) : 0 ≤ clamp x ∧ clamp x ≤ 1 :=
  ⟨le_max_left _ _, max_le (by norm_num) (min_le_right _ _)⟩

/-- The 8-bit value that is nearest to `255 * x` for `x` in the unit interval, halves upwards, and the nearest bound outside. -/
noncomputable def nearestByte (x : ℝ) : ℤ := ⌊clamp x * 255 + 1 / 2⌋

theorem toByte_eq (c : ℝ → UInt8) (h : Legal c) (x : ℝ) (h0 : -(1 / 510) ≤ x) (h1 : x < 511 / 510) :
    ((toByte c x).toNat : ℤ) = nearestByte x := by
  unfold toByte nearestByte
  rw [h _ (by linarith) (by linarith)]
  unfold clamp
  rcases le_total x 0 with hx | hx
  · rw [min_eq_left (by linarith), max_eq_left hx]
    have a : ⌊x * 255 + 0.5⌋ = (0 : ℤ) := Int.floor_eq_iff.2 ⟨by push_cast; linarith, by push_cast; linarith⟩
    have b : ⌊(0 : ℝ) * 255 + 1 / 2⌋ = (0 : ℤ) := Int.floor_eq_iff.2 ⟨by norm_num, by norm_num⟩
    rw [a, b]
  · rcases le_total x 1 with hx1 | hx1
    · rw [min_eq_left hx1, max_eq_right hx]
      norm_num
    · rw [min_eq_right hx1, max_eq_right (by norm_num)]
      have a : ⌊x * 255 + 0.5⌋ = (255 : ℤ) := Int.floor_eq_iff.2 ⟨by push_cast; linarith, by push_cast; linarith⟩
      have b : ⌊(1 : ℝ) * 255 + 1 / 2⌋ = (255 : ℤ) := Int.floor_eq_iff.2 ⟨by norm_num, by norm_num⟩
      rw [a, b]

/-- The PSNR of the 8-bit images nearest to reconstruction and video. -/
noncomputable def psnrNearest (recon video : κ → ℝ) : Decibel :=
  calcPsnr (fun i => (nearestByte (recon i) : ℝ)) (fun i => (nearestByte (video i) : ℝ)) 255

theorem clamp_clamp (x : ℝ) : clamp (clamp x) = clamp x := by
  obtain ⟨h0, h1⟩ := clamp_mem x
  generalize clamp x = y at h0 h1
  unfold clamp
  rw [min_eq_left h1, max_eq_right h0]

theorem nearestByte_clamp (x : ℝ) : nearestByte (clamp x) = nearestByte x := by
  unfold nearestByte
  rw [clamp_clamp]

theorem psnr8_nearest (c : ℝ → UInt8) (h : Legal c) (recon video : κ → ℝ) (hr : ∀ i, -(1 / 510) ≤ recon i ∧ recon i < 511 / 510)
    (hv : ∀ i, 0 ≤ video i ∧ video i ≤ 1) :
    psnr8 false (fun i => toByte c (recon i)) (fun i => toByte c (video i)) = psnrNearest recon video := by
  unfold psnr8 psnrNearest
  simp only [Bool.false_eq_true, if_false]
  congr 1
  · funext i
    have := toByte_eq c h (recon i) (hr i).1 (hr i).2
    exact_mod_cast this
  · funext i
    have := toByte_eq c h (video i) (by linarith [(hv i).1]) (by linarith [(hv i).2])
    exact_mod_cast this

/-- **C97, test PSNR.** With float arithmetic in the metric, the test reports the PSNR of the nearest 8-bit images, for every
reconstruction and whatever the conversion does outside the range. -/
theorem C97_psnr_partial (c : ℝ → UInt8) (h : Legal c) (recon video : κ → ℝ) (hv : ∀ i, 0 ≤ video i ∧ video i ≤ 1) :
    psnrTest c false recon video = psnrNearest recon video := by
  unfold psnrTest
  rw [psnr8_nearest c h (fun i => clamp (recon i)) video (fun i => ⟨by linarith [(clamp_mem (recon i)).1],
    by linarith [(clamp_mem (recon i)).2]⟩) hv]
  unfold psnrNearest
  simp only [nearestByte_clamp]

/-- **C97, training PSNR: what holds.** If no value of the reconstruction is farther than half a grey level outside the unit
interval, training and validation report the same. -/
theorem C97_psnr_train_partial (c : ℝ → UInt8) (h : Legal c) (recon video : κ → ℝ)
    (hr : ∀ i, -(1 / 510) ≤ recon i ∧ recon i < 511 / 510) (hv : ∀ i, 0 ≤ video i ∧ video i ≤ 1) :
    psnrTrain c false recon video = psnrNearest recon video := psnr8_nearest c h recon video hr hv

/-- The usual conversion: truncation, then the lowest eight bits. -/
noncomputable def wrapCast (x : ℝ) : UInt8 := UInt8.ofNat (⌊x⌋ % 256).toNat

/-- Saturating conversion. -/
noncomputable def saturate (x : ℝ) : UInt8 := UInt8.ofNat (max 0 (min ⌊x⌋ 255)).toNat

theorem wrapCast_legal : Legal wrapCast := by
  intro x h0 h1
  have f0 : 0 ≤ ⌊x⌋ := Int.floor_nonneg.2 h0
  have f1 : ⌊x⌋ < 256 := Int.floor_lt.2 (by exact_mod_cast h1)
  unfold wrapCast
  rw [UInt8.toNat_ofNat', Int.emod_eq_of_lt f0 f1]
  omega

theorem saturate_legal : Legal saturate := by
  intro x h0 h1
  have f0 : 0 ≤ ⌊x⌋ := Int.floor_nonneg.2 h0
  have f1 : ⌊x⌋ < 256 := Int.floor_lt.2 (by exact_mod_cast h1)
  unfold saturate
  rw [UInt8.toNat_ofNat', min_eq_left (by omega), max_eq_right f0]
  omega

/-- **C97, violated: training PSNR.** A white frame that is reconstructed one grey level too bright has 0 dB in training and
validation with the usual conversion, the value of the worst possible reconstruction; with another legal conversion, and in
the test, it has infinite PSNR. -/
theorem C97_violated_psnr [Nonempty κ] :
    psnrTrain wrapCast false (fun _ : κ => 256 / 255) (fun _ => 1) = .finite 0 ∧
      psnrTrain saturate false (fun _ : κ => 256 / 255) (fun _ => 1) = .infinite ∧
      (∀ c, Legal c → psnrTest c false (fun _ : κ => 256 / 255) (fun _ => 1) = .infinite) := by
  have hcard : (Fintype.card κ : ℝ) ≠ 0 := by exact_mod_cast Fintype.card_ne_zero
  have f1 : ⌊(256 / 255 * 255 + 0.5 : ℝ)⌋ = 256 := Int.floor_eq_iff.2 ⟨by norm_num, by norm_num⟩
  have f2 : ⌊(1 * 255 + 0.5 : ℝ)⌋ = 255 := Int.floor_eq_iff.2 ⟨by norm_num, by norm_num⟩
  have b1 : toByte wrapCast (256 / 255) = 0 := by unfold toByte wrapCast; rw [f1]; rfl
  have b2 : toByte wrapCast 1 = 255 := by unfold toByte wrapCast; rw [f2]; rfl
  have b3 : toByte saturate (256 / 255) = 255 := by unfold toByte saturate; rw [f1]; rfl
  have b4 : toByte saturate 1 = 255 := by unfold toByte saturate; rw [f2]; rfl
  refine ⟨?_, ?_, fun c hc => ?_⟩
  · unfold psnrTrain psnr8
    simp only [Bool.false_eq_true, if_false, b1, b2]
    unfold calcPsnr mse decibel
    have : (∑ _i : κ, (((0 : UInt8).toNat : ℝ) - ((255 : UInt8).toNat : ℝ)) ^ 2) / (Fintype.card κ : ℝ) = 255 ^ 2 := by
      have z : (0 : UInt8).toNat = 0 := rfl
      have w : (255 : UInt8).toNat = 255 := rfl
      rw [Finset.sum_const, z, w, Finset.card_univ, nsmul_eq_mul]
      field_simp
      norm_num
    rw [this, if_neg (by norm_num)]
    congr 1
    have hl : Real.logb 10 ((255 : ℝ) ^ 2) = 2 * Real.logb 10 255 := by
      rw [Real.logb_pow]
      norm_num
    rw [hl]
    ring
  · unfold psnrTrain psnr8
    simp only [Bool.false_eq_true, if_false, b3, b4]
    unfold calcPsnr mse decibel
    rw [if_pos]
    simp
  · rw [C97_psnr_partial c hc _ _ (fun _ => ⟨by norm_num, le_rfl⟩)]
    unfold psnrNearest
    have e1 : nearestByte (256 / 255) = nearestByte 1 := by
      unfold nearestByte clamp
      rw [min_eq_right (by norm_num), min_eq_right le_rfl]
    simp only [e1]
    unfold calcPsnr mse decibel
    rw [if_pos]
    simp

/-- **C97, violated: integer arithmetic.** With a version of the metric that computes with 8-bit integers, a reconstruction
that is 16 grey levels wrong everywhere has infinite PSNR, in training and in the test. -/
theorem C97_violated_arithmetic [Nonempty κ] (c : ℝ → UInt8) (h : Legal c) (g : ℕ) (hg : g + 16 ≤ 255) :
    psnrTrain c true (fun _ : κ => (g : ℝ) / 255) (fun _ => ((g + 16 : ℕ) : ℝ) / 255) = .infinite ∧
      psnrTest c true (fun _ : κ => (g : ℝ) / 255) (fun _ => ((g + 16 : ℕ) : ℝ) / 255) = .infinite := by
  have hb : ∀ n : ℕ, n ≤ 255 → toByte c ((n : ℝ) / 255) = UInt8.ofNat n := by
    intro n hn
    apply UInt8.toNat_inj.1
    have hn' : (n : ℝ) ≤ 255 := by exact_mod_cast hn
    have h0 : (0 : ℝ) ≤ n := Nat.cast_nonneg n
    have e : (n : ℝ) / 255 * 255 + 0.5 = n + 0.5 := by ring
    have := h (n + 0.5) (by linarith) (by linarith)
    have f : ⌊((n : ℝ) + 0.5)⌋ = (n : ℤ) := Int.floor_eq_iff.2 ⟨by push_cast; linarith, by push_cast; linarith⟩
    unfold toByte
    rw [e, UInt8.toNat_ofNat']
    rw [f] at this
    omega
  have hc : ∀ n : ℕ, n ≤ 255 → clamp ((n : ℝ) / 255) = (n : ℝ) / 255 := by
    intro n hn
    have hn' : (n : ℝ) ≤ 255 := by exact_mod_cast hn
    have h0 : (0 : ℝ) ≤ n := Nat.cast_nonneg n
    unfold clamp
    rw [min_eq_left (by rw [div_le_one (by norm_num)]; exact hn'), max_eq_right (by positivity)]
  have ha : UInt8.ofNat (g + 16) = UInt8.ofNat g + 16 := by
    apply UInt8.toNat_inj.1
    rw [UInt8.toNat_add, UInt8.toNat_ofNat', UInt8.toNat_ofNat']
    have : (16 : UInt8).toNat = 16 := rfl
    rw [this]
    omega
  have key := (C83_violated (ι := κ) (fun _ => UInt8.ofNat g) 255).1
  constructor
  · unfold psnrTrain psnr8
    simp only [if_true]
    rw [hb g (by omega), hb (g + 16) hg, ha]
    exact key
  · unfold psnrTest psnr8
    simp only [if_true]
    rw [hc g (by omega), hb g (by omega), hb (g + 16) hg, ha]
    exact key

/-! ### PSNR over frames -/

/-- **C97, PSNR over frames.** The logged mean of the values of the frames is at least the PSNR of the mean squared error of
all frames together, with equality for equal errors: values of training and test are not comparable. -/
theorem C97_frames (n : ℕ) (hn : 0 < n) (err : Fin n → ℝ) (h : ∀ t, 0 < err t) :
    -10 * Real.logb 10 (mean err) ≤ psnrFrames err ∧
      ((∀ t t', err t = err t') → -10 * Real.logb 10 (mean err) = psnrFrames err) := by
  have hn' : (n : ℝ) ≠ 0 := by exact_mod_cast hn.ne'
  have hpos : (0 : ℝ) < n := by exact_mod_cast hn
  have hlog10 : 0 < Real.log 10 := Real.log_pos (by norm_num)
  have hpf : psnrFrames err = -10 * (∑ t, Real.log (err t)) / n / Real.log 10 := by
    unfold psnrFrames mean Real.logb
    rw [← Finset.mul_sum, ← Finset.sum_div]
    ring
  constructor
  · have hj := strictConcaveOn_log_Ioi.concaveOn.le_map_sum (t := Finset.univ) (w := fun _ : Fin n => (1 : ℝ) / n) (p := err)
      (fun _ _ => by positivity) (by simp [hn']) (fun t _ => h t)
    simp only [smul_eq_mul] at hj
    rw [← Finset.mul_sum, ← Finset.mul_sum] at hj
    have hm : mean err = 1 / n * ∑ t, err t := by unfold mean; ring
    rw [hpf, hm]
    unfold Real.logb
    have : -10 * (Real.log (1 / n * ∑ t, err t) / Real.log 10) = -10 * Real.log (1 / n * ∑ t, err t) / Real.log 10 := by ring
    rw [this]
    apply div_le_div_of_nonneg_right _ hlog10.le
    have e : -10 * (∑ t, Real.log (err t)) / n = -10 * (1 / n * ∑ t, Real.log (err t)) := by ring
    rw [e]
    linarith
  · intro he
    have t0 : Fin n := ⟨0, hn⟩
    have hc : err = fun _ => err t0 := funext fun t => he t t0
    have hm : mean err = err t0 := by
      unfold mean
      rw [hc]
      simp
      field_simp
    rw [hm, hpf, hc]
    unfold Real.logb
    simp
    field_simp

/-- Two frames, two elements each: the hypotheses hold. -/
example : ∀ (t : Fin 2) (i : Fin 2), 0 < (fun (t : Fin 2) (_ : Fin 2) => if t = 0 then (1 : ℝ) / 2 else 1 / 4) t i ∧
    (fun (t : Fin 2) (_ : Fin 2) => if t = 0 then (1 : ℝ) / 2 else 1 / 4) t i ≤ 1 := by
  intro t i
  fin_cases t <;> norm_num

example : bits (fun (t : Fin 2) (_ : Fin 2) => if t = 0 then (1 : ℝ) / 2 else 1 / 4) = 6 := by
  unfold bits
  simp only [Fin.sum_univ_two]
  have h1 : Real.logb 2 (1 / 2) = -1 := by
    rw [one_div, Real.logb_inv]
    norm_num
  have h2 : Real.logb 2 (1 / 4) = -2 := by
    rw [one_div, Real.logb_inv, show (4 : ℝ) = 2 ^ (2 : ℕ) by norm_num, Real.logb_pow]
    norm_num
  norm_num [h1, h2]

end Verif.Vct.Metrics
