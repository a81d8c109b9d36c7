import Verif.Train.VideoValidation
import Verif.Train.PropsValidation

/-!
# C140: what validation and test of the video project report
-/

namespace Verif.Train.Validation

open scoped BigOperators
open Verif.Vct

/-- The mean over the frames of a video. -/
noncomputable def overFrames {T : ℕ} (f : Fin T → ℝ) : ℝ := (∑ t, f t) / T

/-- Distortion in squared 8-bit grey levels and rate in bits per pixel of a frame, weighted by `lam`. -/
noncomputable def frameCost {T : ℕ} (lam : ℝ) (height width : ℕ) (v : Clip T) (t : Fin T) : ℝ :=
  lam * (255 ^ 2 * v.err t) + bpp height width (v.lik t)

theorem overFrames_average {T : ℕ} {α : Type} (b : List α) (f : α → Fin T → ℝ) :
    overFrames (fun t => average b fun v => f v t) = average b fun v => overFrames (f v) := by
  unfold overFrames average
  have h : ∀ l : List α, (∑ t, (l.map fun v => f v t).sum) = (l.map fun v => ∑ t, f v t).sum := by
    intro l
    induction l with
    | nil => simp
    | cons a l ih => simp only [List.map_cons, List.sum_cons, Finset.sum_add_distrib, ih]
  have h' : ∀ l : List α, (l.map fun v => (∑ t, f v t) / (T : ℝ)).sum = (l.map fun v => ∑ t, f v t).sum / T := by
    intro l
    induction l with
    | nil => simp
    | cons a l ih => simp only [List.map_cons, List.sum_cons, ih, add_div]
  rw [← Finset.sum_div, h, h', div_right_comm]

theorem frameRate {T : ℕ} (b : List (Clip T)) (height width : ℕ) (t : Fin T) :
    rateOfFrame b t / (b.length * height * width) = average b fun v => bpp height width (v.lik t) := by
  have h : ∀ l : List (Clip T), (l.map fun v => bpp height width (v.lik t)).sum =
      (l.map fun v => ((v.lik t).map Real.log).sum).sum / -Real.log 2 / (height * width) := by
    intro l
    induction l with
    | nil => simp
    | cons a l ih =>
      have e : bpp height width (a.lik t) = ((a.lik t).map Real.log).sum / -Real.log 2 / (height * width) := by
        rw [← bits_bpp, Rate.bits, Nat.cast_mul]
      simp only [List.map_cons, List.sum_cons, ih, e]
      ring
  rw [average, h, rateOfFrame, mul_assoc, div_mul_eq_div_div_swap]

/-- **C140, validation.** However the videos are spread over batches and devices, validation reports averages over the videos of
their averages over the frames: the mean squared error, bits per pixel, the cost, the cost with ten times the weight for all
frames but the first, and the PSNR; the reported cost is the weighted sum of the reported distortion and rate. -/
theorem C140_validation {T : ℕ} (hT : 0 < T) (lam : ℝ) (height width : ℕ) (devices : List (List (List (Clip T))))
    (hb : ∀ bs ∈ devices, ∀ b ∈ bs, b ≠ []) :
    ∃ r, validate (evalClips lam height width) devices = .ok r ∧
      r "val_distortion_loss" = average devices.flatten.flatten (fun v => overFrames v.err) ∧
      r "val_rate_loss" = average devices.flatten.flatten (fun v => overFrames fun t => bpp height width (v.lik t)) ∧
      r "val_combined_loss" = average devices.flatten.flatten (fun v => overFrames (frameCost lam height width v)) ∧
      r "val_combined_loss_weighted" = average devices.flatten.flatten (fun v => overFrames fun t =>
        (if t.1 = 0 then 1 else 10) * frameCost lam height width v t) ∧
      r "val_PSNR" = average devices.flatten.flatten (fun v => overFrames v.psnr) ∧
      r "val_PSNR_int" = average devices.flatten.flatten (fun v => overFrames v.psnrInt) ∧
      r "val_combined_loss" = lam * 255 ^ 2 * r "val_distortion_loss" + r "val_rate_loss" := by
  obtain ⟨r, h1, h2⟩ := validate_table (· ≠ []) (fun _ h => h) (evalClips (T := T) lam height width)
    [("val_distortion_loss", fun v => overFrames v.err),
      ("val_rate_loss", fun v => overFrames fun t => bpp height width (v.lik t)),
      ("val_combined_loss", fun v => overFrames (frameCost lam height width v)),
      ("val_combined_loss_weighted", fun v => overFrames fun t => (if t.1 = 0 then 1 else 10) * frameCost lam height width v t),
      ("val_PSNR", fun v => overFrames v.psnr), ("val_PSNR_int", fun v => overFrames v.psnrInt)]
    (by simp) (by
      intro b hbn
      have hboth : ∀ f : Clip T → Fin T → ℝ, meanBoth f b = average b fun v => overFrames (f v) := by
        intro f
        rw [← overFrames_average]
        unfold meanBoth overFrames average
        have h : ∀ l : List (Clip T), (∑ t, (l.map fun v => f v t).sum) = (l.map fun v => ∑ t, f v t).sum := by
          intro l
          induction l with
          | nil => simp
          | cons a l ih => simp only [List.map_cons, List.sum_cons, Finset.sum_add_distrib, ih]
        rw [← Finset.sum_div, h, div_div]
      have hmean : ∀ f : Fin T → ℝ, Metrics.mean f = overFrames f := fun _ => rfl
      have hcomb : ∀ t, Metrics.scaling lam * meanLoss (fun v => v.err t) b +
          rateOfFrame b t / (b.length * height * width) = average b fun v => frameCost lam height width v t := by
        intro t
        rw [frameRate]
        show Metrics.scaling lam * average b (fun v => v.err t) + _ = _
        rw [← average_mul, ← average_add]
        congr 1
        funext v
        simp only [frameCost, Metrics.scaling]
        ring
      unfold evalClips
      have hw : (fun t : Fin T => (average b fun v => frameCost lam height width v t) * Metrics.weight t) =
          fun t : Fin T => average b fun v => (if t.1 = 0 then 1 else 10) * frameCost lam height width v t := by
        funext t
        rw [mul_comm, ← average_mul]
        rfl
      have hd : (fun t => meanLoss (fun v : Clip T => v.err t) b) = fun t => average b fun v => v.err t := rfl
      simp only [if_neg hT.ne', hboth, hmean, hcomb, hw, hd, List.map_cons, List.map_nil]
      simp only [frameRate, overFrames_average]) devices hb
  refine ⟨r, h1, ?_⟩
  have a1 := h2 "val_distortion_loss" (fun v => overFrames v.err) (by simp)
  have a2 := h2 "val_rate_loss" (fun v => overFrames fun t => bpp height width (v.lik t)) (by simp)
  have a3 := h2 "val_combined_loss" (fun v => overFrames (frameCost lam height width v)) (by simp)
  refine ⟨a1, a2, a3, h2 _ _ (by simp), h2 _ (fun v => overFrames v.psnr) (by simp),
    h2 _ (fun v => overFrames v.psnrInt) (by simp), ?_⟩
  rw [a1, a2, a3, ← average_mul, ← average_add]
  congr 1
  funext v
  unfold overFrames frameCost
  rw [Finset.sum_add_distrib, ← Finset.mul_sum, ← Finset.mul_sum]
  ring

/-! ### Test -/

/-- Bits per pixel of a video. -/
noncomputable def filmBpp (v : Film) : ℝ := v.bits.sum / (v.height * v.width * v.frames)

/-- The information content of the likelihoods of frames, in bits. -/
noncomputable def content (lik : List (List ℝ)) : ℝ := (lik.map fun l => (l.map fun p => -Real.logb 2 p).sum).sum

theorem rateOf_content (lik : List (List ℝ)) : rateOf lik = content lik := by
  unfold rateOf content
  induction lik with
  | nil => simp
  | cons l ls ih =>
    simp only [List.map_cons, List.sum_cons, add_div, ih]
    rw [show (l.map fun p => -Real.logb 2 p).sum = _ from (Rate.C82_bits l).1.symm]
    rfl

/-- **C140, test.** Over videos of two frames or more, one per batch, on any number of devices, the test reports for every key the
average over the videos, of whatever lengths and sizes, each with the same weight: the PSNR before and after coding, the bits per
pixel estimated from the likelihoods and those of the code, with and without the first frame.  The PSNR after coding is reported
under the name `psnt_int`. -/
theorem C140_test (devices : List (List Film)) (hv : ∀ vs ∈ devices, ∀ v ∈ vs, 2 ≤ v.frames ∧ 0 < v.height ∧ 0 < v.width) :
    ∃ r, validate evalFilms (devices.map fun vs => vs.map fun v => [v]) = .ok r ∧
      r "cts_psnr" = average devices.flatten (·.ctsPsnr) ∧
      r "cts_rate" = average devices.flatten (fun v => content v.lik / (v.height * v.width * v.frames)) ∧
      r "cts_rate_x1" = average devices.flatten (fun v => content v.lik.tail / (v.height * v.width * (v.frames - 1))) ∧
      r "psnt_int" = average devices.flatten (·.psnr) ∧
      r "bpp" = average devices.flatten filmBpp ∧
      r "bpp_xfirst" = average devices.flatten (fun v => v.bits.tail.sum / (v.height * v.width * (v.frames - 1))) := by
  obtain ⟨r, h1, h2⟩ := validate_table (fun b => ∃ v : Film, b = [v] ∧ 2 ≤ v.frames ∧ 0 < v.height ∧ 0 < v.width)
    (by rintro b ⟨v, rfl, -⟩; simp) evalFilms
    [("cts_psnr", Film.ctsPsnr), ("cts_rate", fun v => content v.lik / (v.height * v.width * v.frames)),
      ("cts_rate_x1", fun v => content v.lik.tail / (v.height * v.width * (v.frames - 1))), ("psnt_int", Film.psnr),
      ("bpp", filmBpp), ("bpp_xfirst", fun v => v.bits.tail.sum / (v.height * v.width * (v.frames - 1)))]
    (by simp) (by
      rintro b ⟨v, rfl, h2, h3, h4⟩
      have p1 : v.height * v.width * v.frames ≠ 0 := (Nat.mul_pos (Nat.mul_pos h3 h4) (by omega)).ne'
      have p2 : v.height * v.width * (v.frames - 1) ≠ 0 := (Nat.mul_pos (Nat.mul_pos h3 h4) (by omega)).ne'
      have one : ∀ f : Film → ℝ, average [v] f = f v := fun f => by simp [average]
      simp only [evalFilms, evalFilm, divide, if_neg p1, if_neg p2, bind, Except.bind, pure, Except.pure, rateOf_content,
        List.drop_one, List.map_cons, List.map_nil, one, filmBpp]
      push_cast [Nat.cast_sub (show 1 ≤ v.frames by omega)]
      rfl) (devices.map fun vs => vs.map fun v => [v]) (by
      intro bs hbs b hb
      obtain ⟨vs, hvs, rfl⟩ := List.mem_map.1 hbs
      obtain ⟨v, hv', rfl⟩ := List.mem_map.1 hb
      exact ⟨v, rfl, hv vs hvs v hv'⟩)
  have hflat : (devices.map fun vs => vs.map fun v => [v]).flatten.flatten = devices.flatten := by
    have h : ∀ vs : List Film, (vs.map fun v => [v]).flatten = vs := by
      intro vs
      induction vs with
      | nil => rfl
      | cons v vs ih => rw [List.map_cons, List.flatten_cons, ih]; rfl
    clear hv h1 h2
    induction devices with
    | nil => rfl
    | cons vs ds ih => rw [List.map_cons, List.flatten_cons, List.flatten_append, ih, h, List.flatten_cons]
  rw [hflat] at h2
  exact ⟨r, h1, h2 _ _ (by simp), h2 _ (fun v => content v.lik / (v.height * v.width * v.frames)) (by simp),
    h2 _ (fun v => content v.lik.tail / (v.height * v.width * (v.frames - 1))) (by simp), h2 _ Film.psnr (by simp),
    h2 _ _ (by simp), h2 _ (fun v => v.bits.tail.sum / (v.height * v.width * (v.frames - 1))) (by simp)⟩

/-- **C140, what stops a test.** A batch that is not one video stops the test, and so does a video of a single frame, whatever the
other batches are. -/
theorem C140_test_stops (devices : List (List (List Film))) (bs : List (List Film)) (hbs : bs ∈ devices) (b : List Film)
    (hb : b ∈ bs) (h : b.length ≠ 1 ∨ ∃ v, b = [v] ∧ v.frames ≤ 1) : ∃ e, validate evalFilms devices = .error e := by
  have hbad : ∃ e, evalFilms b = .error e := by
    rcases h with h | ⟨v, rfl, hv⟩
    · match b, h with
      | [], _ => exact ⟨_, rfl⟩
      | [v], h => exact absurd rfl h
      | _ :: _ :: _, _ => exact ⟨_, rfl⟩
    · show ∃ e, evalFilm v = .error e
      unfold evalFilm divide
      rw [if_pos (show v.height * v.width * (v.frames - 1) = 0 by rw [show v.frames - 1 = 0 by omega, Nat.mul_zero])]
      by_cases h0 : v.height * v.width * v.frames = 0
      · rw [if_pos h0]
        exact ⟨_, rfl⟩
      · rw [if_neg h0]
        exact ⟨_, rfl⟩
  have hloop : ∀ (bs : List (List Film)) (a : Accs), b ∈ bs → ∃ e, loop evalFilms bs a = .error e := by
    intro bs
    induction bs with
    | nil => intro a h; simp at h
    | cons c cs ih =>
      intro a h
      rw [loop]
      cases hc : evalFilms c with
      | error e => exact ⟨e, rfl⟩
      | ok l =>
        rcases List.mem_cons.1 h with rfl | h
        · obtain ⟨e, he⟩ := hbad
          rw [he] at hc
          exact absurd hc (by simp)
        · exact ih (a.log c.length l) h
  have hmap : ∀ ds : List (List (List Film)), bs ∈ ds →
      ∃ e, ds.mapM (fun bs => loop evalFilms bs fun _ => ⟨0, 0⟩) = .error e := by
    intro ds
    induction ds with
    | nil => intro h; simp at h
    | cons c cs ih =>
      intro h
      rw [List.mapM_cons]
      cases hc : loop evalFilms c (fun _ => ⟨0, 0⟩) with
      | error e => exact ⟨e, rfl⟩
      | ok a =>
        rcases List.mem_cons.1 h with rfl | h
        · obtain ⟨e, he⟩ := hloop bs (fun _ => ⟨0, 0⟩) hb
          rw [he] at hc
          exact absurd hc (by simp)
        · obtain ⟨e, he⟩ := ih h
          rw [he]
          exact ⟨e, rfl⟩
  obtain ⟨e, he⟩ := hmap devices hbs
  exact ⟨e, by rw [validate, he]; rfl⟩

/-- **C140, rate of the test set.** If all videos have the same number of pixels over all their frames, the reported rate is the
number of all bits by the number of all pixels. -/
theorem C140_test_total (videos : List Film) (n : ℕ) (hn : ∀ v ∈ videos, v.height * v.width * v.frames = n) :
    average videos filmBpp =
      (videos.map fun v => v.bits.sum).sum / (videos.map fun v => ((v.height * v.width * v.frames : ℕ) : ℝ)).sum := by
  have h1 : (videos.map filmBpp).sum = (videos.map fun v => v.bits.sum).sum / n := by
    induction videos with
    | nil => simp
    | cons v vs ih =>
      have e : filmBpp v = v.bits.sum / n := by
        rw [filmBpp, ← hn v (by simp)]
        push_cast
        rfl
      simp only [List.map_cons, List.sum_cons, e, ih fun w hw => hn w (by simp [hw]), add_div]
  have h2 : (videos.map fun v => ((v.height * v.width * v.frames : ℕ) : ℝ)).sum = videos.length * n := by
    rw [List.map_congr_left (g := fun _ => (n : ℝ)) fun v hv => by rw [hn v hv]]
    simp
  rw [average, h1, h2, div_div, mul_comm]

/-- A video of two frames of one pixel with 8 bits, and one of eight frames with 8 bits: the test reports 2.5 bits per pixel,
although 16 bits code ten pixels. -/
example : ∃ r, validate evalFilms [[[⟨2, 1, 1, [[1 / 2], [1 / 2]], [6, 2], 30, 29⟩]],
      [[⟨8, 1, 1, [], [1, 1, 1, 1, 1, 1, 1, 1], 40, 39⟩]]] = .ok r ∧ r "bpp" = 5 / 2 ∧ r "psnt_int" = 34 ∧
    r "bpp_xfirst" = 3 / 2 := by
  obtain ⟨r, h1, -, -, -, h5, h6, h7⟩ := C140_test [[⟨2, 1, 1, [[1 / 2], [1 / 2]], [6, 2], 30, 29⟩],
    [⟨8, 1, 1, [], [1, 1, 1, 1, 1, 1, 1, 1], 40, 39⟩]] (by simp)
  refine ⟨r, h1, ?_, ?_, ?_⟩
  · rw [h6]
    simp [average, filmBpp]
    norm_num
  · rw [h5]
    simp [average]
    norm_num
  · rw [h7]
    simp [average]
    norm_num

/-- Two clips of two frames in batches of one and two. -/
example : ∃ r, validate (evalClips (T := 2) 1 1 1)
      [[[⟨fun _ => [1 / 2], fun _ => 0, fun _ => 30, fun _ => 30⟩]],
        [[⟨fun _ => [1 / 4], fun t => t, fun _ => 33, fun _ => 30⟩, ⟨fun _ => [1 / 4], fun t => t, fun _ => 33, fun _ => 30⟩]]] =
      .ok r ∧ r "val_rate_loss" = 5 / 3 ∧ r "val_PSNR" = 32 ∧ r "val_distortion_loss" = 1 / 3 := by
  obtain ⟨r, h1, h2, h3, h4, h5, h6, h7, h8⟩ := C140_validation (T := 2) (by norm_num) 1 1 1
    [[[⟨fun _ => [1 / 2], fun _ => 0, fun _ => 30, fun _ => 30⟩]],
      [[⟨fun _ => [1 / 4], fun t => t, fun _ => 33, fun _ => 30⟩, ⟨fun _ => [1 / 4], fun t => t, fun _ => 33, fun _ => 30⟩]]]
    (by simp)
  have b1 : bpp 1 1 [1 / 2] = 1 := by
    simp only [bpp, List.map_cons, List.map_nil, List.sum_cons, List.sum_nil, logb_half]
    norm_num
  have b2 : bpp 1 1 [1 / 4] = 2 := by
    simp only [bpp, List.map_cons, List.map_nil, List.sum_cons, List.sum_nil, logb_quarter]
    norm_num
  refine ⟨r, h1, ?_, ?_, ?_⟩
  · rw [h3]
    simp only [average, overFrames, b1, b2, List.flatten_cons, List.flatten_nil, List.append_nil, List.cons_append,
      List.nil_append, List.map_cons, List.map_nil, List.sum_cons, List.sum_nil, List.length_cons, List.length_nil,
      Finset.sum_const, Finset.card_univ, Fintype.card_fin]
    norm_num
  · rw [h6]
    simp [average, overFrames]
    norm_num
  · rw [h2]
    simp [average, overFrames]
    norm_num

end Verif.Train.Validation
