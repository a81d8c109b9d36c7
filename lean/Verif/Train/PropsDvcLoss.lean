import Verif.Train.DvcLoss
import Verif.Train.PropsGop
import Verif.Models.PropsDvc
import Mathlib.Analysis.SpecialFunctions.Log.Base
import Mathlib.Tactic.FieldSimp
import Mathlib.Tactic.FinCases

/-!
C106: the losses of the training stages of the deep video compression project.
-/

namespace Verif.Train.DvcLoss

open Verif.Models.Dvc Verif.Train.Gop Finset

variable {ι Flow Lat Str : Type}

/-! ### Specification -/

/-- The bits that symbols of the given probabilities cost. -/
noncomputable def bits (probabilities : List ℝ) : ℝ := (probabilities.map fun p => -Real.logb 2 p).sum

/-- The mean squared difference of two images. -/
noncomputable def meanSquare [Fintype ι] (a b : ι → ℝ) : ℝ := (∑ i, (a i - b i) ^ 2) / Fintype.card ι

/-- The bottlenecks in evaluation mode: they quantise. -/
def Mode.Evaluates (b : Mode Lat) (m : Nets ι Flow Lat Str) : Prop :=
  b.motion = m.motionBottleneck.quantize ∧ b.residual = m.residualBottleneck.quantize

/-- The bottlenecks are lossless coders of the sizes that `decompress` asks for. -/
def Codes (m : Nets ι Flow Lat Str) : Prop :=
  m.motionBottleneck.Lossless m.latentSize ∧ m.residualBottleneck.Lossless m.latentSize ∧ m.SizesAgree

/-- What coding a scene really gives, frame by frame: the weighted error of the frame that the receiver shows, and the
bits per pixel of the latents that the receiver decodes from the strings. -/
noncomputable def coded [Fintype ι] (lam : ℝ) (m : Nets ι Flow Lat Str) (b : Mode Lat) (numPixels : ℕ)
    (start : ι → ℝ) (frames : List (ι → ℝ)) : List LossValues :=
  (frames.zip (m.send start frames)).map fun (frame, p, shown) =>
    { distortion := lam * meanSquare frame shown
      flow := some (bits (b.motionProb (m.motionBottleneck.decompress p.flow (askedSize p.flowSizes))) / numPixels)
      residual := some
        (bits (b.residualProb (m.residualBottleneck.decompress p.residual (askedSize p.residualSizes))) / numPixels) }

/-- The estimates that the module works with, each made from the one before. -/
def estimates (m : Nets ι Flow Lat Str) (b : Mode Lat) : (ι → ℝ) → List (ι → ℝ) → List (ι → ℝ)
  | _, [] => []
  | reference, frame :: frames =>
    let est := (dvcForward m b reference frame).2.1
    est :: estimates m b est frames

/-! ### Lemmas -/

theorem mse_eq [Fintype ι] (a b : ι → ℝ) : mse a b = meanSquare a b := rfl

theorem entropyFn_eq (ps : List ℝ) (n : ℕ) : entropyFn ps n = bits ps / n := by
  unfold entropyFn bits
  congr 1
  induction ps with
  | nil => simp
  | cons p ps ih =>
    rw [List.map_cons, List.sum_cons, mul_add, ih, List.map_cons, List.sum_cons, Real.logb]
    ring

theorem bits_nonneg (ps : List ℝ) (h : ∀ p ∈ ps, 0 < p ∧ p ≤ 1) : 0 ≤ bits ps := by
  unfold bits
  apply List.sum_nonneg
  intro x hx
  obtain ⟨p, hp, rfl⟩ := List.mem_map.1 hx
  have := Real.logb_nonpos (by norm_num : (1 : ℝ) < 2) (h p hp).1.le (h p hp).2
  linarith

theorem mse_nonneg [Fintype ι] (a b : ι → ℝ) : 0 ≤ mse a b :=
  div_nonneg (Finset.sum_nonneg fun _ _ => sq_nonneg _) (Nat.cast_nonneg _)

theorem mse_eq_zero [Fintype ι] [Nonempty ι] (a b : ι → ℝ) : mse a b = 0 ↔ a = b := by
  unfold mse
  have hc : ((Fintype.card ι : ℕ) : ℝ) ≠ 0 := by exact_mod_cast Fintype.card_ne_zero
  rw [div_eq_zero_iff, or_iff_left hc, Finset.sum_eq_zero_iff_of_nonneg fun _ _ => sq_nonneg _]
  constructor
  · intro h
    funext i
    have := h i (mem_univ i)
    have := pow_eq_zero_iff (two_ne_zero) |>.1 this
    linarith
  · rintro rfl i _
    simp

theorem forward_est (m : Nets ι Flow Lat Str) (b : Mode Lat) (hb : b.Evaluates m) (image1 image2 : ι → ℝ) :
    (dvcForward m b image1 image2).2.1 = m.forward image1 image2 := by
  obtain ⟨h1, h2⟩ := hb
  unfold dvcForward Nets.forward
  rw [h1, h2]

/-- The probabilities that `forward` reports are those of the latents in the strings. -/
theorem forward_probs (m : Nets ι Flow Lat Str) (b : Mode Lat) (hb : b.Evaluates m) (hc : Codes m)
    (image1 image2 : ι → ℝ) :
    let p := m.compress image1 image2
    (dvcForward m b image1 image2).2.2.2.1 =
        b.motionProb (m.motionBottleneck.decompress p.flow (askedSize p.flowSizes)) ∧
      (dvcForward m b image1 image2).2.2.2.2 =
        b.residualProb (m.residualBottleneck.decompress p.residual (askedSize p.residualSizes)) := by
  obtain ⟨h1, h2⟩ := hb
  obtain ⟨l1, l2, s1, s2⟩ := hc
  dsimp only
  constructor
  · show b.motionProb (b.motion (m.motionEncoder (m.motionEstimator image1 image2)).1) = b.motionProb
      (m.motionBottleneck.decompress (m.motionBottleneck.compress (m.motionEncoder (m.motionEstimator image1 image2)).1)
        (askedSize (m.motionEncoder (m.motionEstimator image1 image2)).2))
    rw [s1, l1, h1]
  · unfold dvcForward Nets.compress
    dsimp only
    rw [s2, l2, h1, h2, l1]

theorem clamp_of_range {v : ℝ} (h : 0 ≤ v ∧ v ≤ 1) : max 0 (min 1 v) = v := by
  rw [min_eq_right h.2, max_eq_right h.1]

/-! ### C106 -/

/-- **C106, coding (the part that holds).** For all networks with lossless bottlenecks, and every scene whose estimates
stay in [0, 1]: the loss values of the frames that validation of the last stages computes are those of really coding the
scene, of the frames that the receiver shows and of the strings it is sent. -/
theorem C106_coding_partial [Fintype ι] (lam : ℝ) (m : Nets ι Flow Lat Str) (b : Mode Lat) (hb : b.Evaluates m)
    (hc : Codes m) (numPixels : ℕ) (iframe : (ι → ℝ) → (ι → ℝ) × List ℝ) (start : ι → ℝ) (frames : List (ι → ℝ))
    (hr : ∀ e ∈ estimates m b start frames, ∀ i, 0 ≤ e i ∧ e i ≤ 1) :
    terms (gopNet lam b numPixels iframe) false m start frames = coded lam m b numPixels start frames ∧
      estimates m b start frames = m.receive start ((m.send start frames).map Prod.fst) := by
  induction frames generalizing start with
  | nil => exact ⟨rfl, rfl⟩
  | cons x xs ih =>
    have hd : m.decompress start (m.compress start x) = (dvcForward m b start x).2.1 := by
      rw [C56_forward m hc.1 hc.2.1 hc.2.2, ← forward_est m b hb]
      funext i
      exact clamp_of_range (hr _ (by simp [estimates]) i)
    obtain ⟨e1, e2⟩ := ih (dvcForward m b start x).2.1 fun e he => hr e (by
      simp only [estimates, List.mem_cons]
      exact Or.inr he)
    obtain ⟨p1, p2⟩ := forward_probs m b hb hc start x
    constructor
    · show (stage45 lam m b numPixels start x).loss :: terms (gopNet lam b numPixels iframe) false m _ xs = _
      have hest : (stage45 lam m b numPixels start x).est = (dvcForward m b start x).2.1 := rfl
      have hcons : coded lam m b numPixels start (x :: xs) =
          { distortion := lam * meanSquare x (m.decompress start (m.compress start x))
            flow := some (bits (b.motionProb (m.motionBottleneck.decompress (m.compress start x).flow
              (askedSize (m.compress start x).flowSizes))) / numPixels)
            residual := some (bits (b.residualProb (m.residualBottleneck.decompress (m.compress start x).residual
              (askedSize (m.compress start x).residualSizes))) / numPixels) } ::
          coded lam m b numPixels (m.decompress start (m.compress start x)) xs := rfl
      rw [hcons, hd, ← e1]
      congr 1
      show LossValues.mk _ (some (entropyFn _ _)) (some (entropyFn _ _)) = _
      rw [entropyFn_eq, entropyFn_eq, ← p1, ← p2]
      rfl
    · show (dvcForward m b start x).2.1 :: estimates m b _ xs =
        m.decompress start (m.compress start x) :: m.receive (m.decompress start (m.compress start x))
          ((m.send (m.decompress start (m.compress start x)) xs).map Prod.fst)
      rw [hd, e2]

/-- **C106, what validation logs (the part that holds).** Under the same conditions the logged distortion and rates of
a validation step are those of coding the frames after the reconstructed I-frame, divided by the number of frames. -/
theorem C106_logged_partial [Fintype ι] (lam : ℝ) (m : Nets ι Flow Lat Str) (b : Mode Lat) (hb : b.Evaluates m)
    (hc : Codes m) (numPixels : ℕ) (iframe : (ι → ℝ) → (ι → ℝ) × List ℝ) (first : ι → ℝ) (rest : List (ι → ℝ))
    (numPframes : ℕ) (h0 : 0 < numPframes) (hlen : numPframes ≤ rest.length)
    (hr : ∀ e ∈ estimates m b (iframe first).1 (rest.take numPframes), ∀ i, 0 ≤ e i ∧ e i ≤ 1) :
    let ts := coded lam m b numPixels (iframe first).1 (rest.take numPframes)
    ∃ metrics loss, validationStep (gopNet lam b numPixels iframe) numPframes numPixels (first :: rest) m =
        .ok (metrics, loss) ∧
      metrics.distortion * (numPframes + 1) = (ts.map LossValues.distortion).sum ∧
      metrics.bpp * (numPframes + 1) = (ts.map fun t => t.flow.getD 0 + t.residual.getD 0).sum := by
  intro ts
  obtain ⟨metrics, loss, e, h1, -, h2, -⟩ := C63_validation_partial (gopNet (Flow := Flow) (Str := Str) lam b numPixels iframe) true
    true (fun _ _ _ => ⟨rfl, rfl⟩) numPframes numPixels first rest m h0 hlen
  have := (C106_coding_partial lam m b hb hc numPixels iframe (iframe first).1 (rest.take numPframes) hr).1
  refine ⟨metrics, loss, e, ?_, ?_⟩
  · rw [h2]
    exact congrArg (fun t => (List.map LossValues.distortion t).sum) this
  · rw [h1]
    exact congrArg (fun t => (List.map LossValues.rate t).sum) this

/-- **C106, one P-frame.** Whatever the range of the estimate, for the first P-frame the rates are those of coding and the
frame that the receiver shows is at least as good as the one validated. -/
theorem C106_single [Fintype ι] (lam : ℝ) (hlam : 0 ≤ lam) (m : Nets ι Flow Lat Str) (b : Mode Lat) (hb : b.Evaluates m)
    (hc : Codes m) (numPixels : ℕ) (start frame : ι → ℝ) (hf : ∀ i, 0 ≤ frame i ∧ frame i ≤ 1) :
    ∃ t, coded lam m b numPixels start [frame] = [t] ∧
      t.flow = (stage45 lam m b numPixels start frame).loss.flow ∧
      t.residual = (stage45 lam m b numPixels start frame).loss.residual ∧
      t.distortion ≤ (stage45 lam m b numPixels start frame).loss.distortion := by
  obtain ⟨p1, p2⟩ := forward_probs m b hb hc start frame
  refine ⟨_, rfl, ?_, ?_, ?_⟩
  · show some _ = some (entropyFn _ _)
    rw [entropyFn_eq]
    exact congrArg (fun l => some (bits l / numPixels)) p1.symm
  · show some _ = some (entropyFn _ _)
    rw [entropyFn_eq]
    exact congrArg (fun l => some (bits l / numPixels)) p2.symm
  · show lam * mse frame (m.decompress start (m.compress start frame)) ≤ lam * mse frame (dvcForward m b start frame).2.1
    apply mul_le_mul_of_nonneg_left _ hlam
    rw [C56_forward m hc.1 hc.2.1 hc.2.2, forward_est m b hb]
    unfold mse
    apply div_le_div_of_nonneg_right _ (Nat.cast_nonneg _)
    apply Finset.sum_le_sum
    intro i _
    obtain ⟨a0, a1⟩ := hf i
    show (frame i - max 0 (min 1 (m.forward start frame i))) ^ 2 ≤ (frame i - m.forward start frame i) ^ 2
    generalize m.forward start frame i = e
    rcases le_total e 0 with he | he
    · rw [min_eq_right (by linarith), max_eq_left he]
      nlinarith
    · rcases le_total e 1 with he1 | he1
      · rw [min_eq_right he1, max_eq_right he]
      · rw [min_eq_left he1, max_eq_right (by norm_num)]
        nlinarith

/-- **C106, stages.** In every mode each stage extends the one before: stages 3 to 5 code the flow of stage 2 with its
rate; the estimate of stage 3 is the compensation of the estimate of stage 2; that of stages 4 and 5 is the estimate of
stage 3 plus the coded difference to it. Every distortion is that of the returned estimate. -/
theorem C106_stages [Fintype ι] (lam : ℝ) (m : Nets ι Flow Lat Str) (b : Mode Lat) (numPixels : ℕ)
    (image1 image2 : ι → ℝ) :
    let r2 := stage2 lam m b numPixels image1 image2
    let r3 := stage3 lam m b numPixels image1 image2
    let r4 := stage45 lam m b numPixels image1 image2
    r3.flow = r2.flow ∧ r4.flow = r2.flow ∧ r3.loss.flow = r2.loss.flow ∧ r4.loss.flow = r2.loss.flow ∧
      r2.est = m.warp image1 r2.flow ∧
      r3.est = m.motionCompensation image1 r2.est r2.flow ∧
      r4.est = (fun i => r3.est i + m.residualDecoder
        (b.residual (m.residualEncoder fun j => image2 j - r3.est j).1) (m.residualEncoder fun j => image2 j - r3.est j).2 i) ∧
      r2.loss.distortion = lam * meanSquare image2 r2.est ∧ r3.loss.distortion = lam * meanSquare image2 r3.est ∧
      r4.loss.distortion = lam * meanSquare image2 r4.est ∧ r2.loss.residual = none ∧ r3.loss.residual = none ∧
      r4.loss.residual = some (bits (b.residualProb
        (b.residual (m.residualEncoder fun j => image2 j - r3.est j).1)) / numPixels) := by
  refine ⟨rfl, rfl, rfl, rfl, rfl, rfl, rfl, rfl, rfl, rfl, rfl, rfl, ?_⟩
  rw [← entropyFn_eq]
  rfl

/-- **C106, never negative.** With probabilities in (0, 1] and a weight that is not negative, no term of a loss is
negative; with a positive weight the distortion vanishes exactly for a perfect estimate. -/
theorem C106_nonneg [Fintype ι] [Nonempty ι] (lam : ℝ) (m : Nets ι Flow Lat Str) (b : Mode Lat) (numPixels : ℕ)
    (hp : ∀ y, (∀ p ∈ b.motionProb y, 0 < p ∧ p ≤ 1) ∧ ∀ p ∈ b.residualProb y, 0 < p ∧ p ≤ 1)
    (image1 image2 : ι → ℝ) (r : Result (ι → ℝ) Flow)
    (hr : r = stage2 lam m b numPixels image1 image2 ∨ r = stage3 lam m b numPixels image1 image2 ∨
      r = stage45 lam m b numPixels image1 image2) :
    (0 ≤ lam → 0 ≤ r.loss.distortion ∧ (∀ f, r.loss.flow = some f → 0 ≤ f) ∧ ∀ f, r.loss.residual = some f → 0 ≤ f) ∧
      (0 < lam → (r.loss.distortion = 0 ↔ image2 = r.est)) := by
  have hd : r.loss.distortion = lam * mse image2 r.est := by rcases hr with h | h | h <;> rw [h] <;> rfl
  constructor
  · intro hl
    refine ⟨by rw [hd]; exact mul_nonneg hl (mse_nonneg _ _), ?_, ?_⟩
    · intro f hf
      have : ∃ y, f = entropyFn (b.motionProb y) numPixels := by
        rcases hr with h | h | h <;> rw [h] at hf <;> injection hf with hf <;> exact ⟨_, hf.symm⟩
      obtain ⟨y, rfl⟩ := this
      rw [entropyFn_eq]
      exact div_nonneg (bits_nonneg _ (hp y).1) (Nat.cast_nonneg _)
    · intro f hf
      rcases hr with h | h | h <;> rw [h] at hf
      · exact nomatch hf
      · exact nomatch hf
      · injection hf with hf
        rw [← hf, entropyFn_eq]
        exact div_nonneg (bits_nonneg _ (hp _).2) (Nat.cast_nonneg _)
  · intro hl
    rw [hd, mul_eq_zero, or_iff_right hl.ne', mse_eq_zero]

/-! ### Flow pyramid -/

section pyramid

variable {Img : Type} (resize : Flow → Img → Flow) (add : Flow → Flow → Flow) (warp : Img → Flow → Img)

theorem loop_targets (ls : List ((Img → Img → Flow → Flow) × Img × Img)) (flow : Flow) (pairs : List (Img × Img)) :
    (pyramidLoop resize add warp ls flow pairs).2.map Prod.snd = pairs.map Prod.snd ++ ls.map fun l => l.2.2 := by
  induction ls generalizing flow pairs with
  | nil => simp [pyramidLoop]
  | cons l ls ih =>
    obtain ⟨level, a, b⟩ := l
    rw [pyramidLoop, ih]
    simp

theorem loop_last (ls : List ((Img → Img → Flow → Flow) × Img × Img)) (level : Img → Img → Flow → Flow) (a b : Img)
    (flow : Flow) (pairs : List (Img × Img)) :
    ∃ earlier, (pyramidLoop resize add warp (ls ++ [(level, a, b)]) flow pairs).2 = earlier ++
      [(warp a (pyramidLoop resize add warp (ls ++ [(level, a, b)]) flow pairs).1, b)] := by
  induction ls generalizing flow pairs with
  | nil => exact ⟨pairs, rfl⟩
  | cons l ls ih =>
    obtain ⟨level', a', b'⟩ := l
    rw [List.cons_append, pyramidLoop]
    exact ih _ _

theorem decompose_eq (pool : Img → Img) (k : ℕ) (x : Img) :
    decompose pool k x = (List.range (k + 1)).map fun j => pool^[j] x := by
  induction k generalizing x with
  | zero => rfl
  | succ k ih =>
    rw [decompose, ih, List.range_succ_eq_map (n := k + 1), List.map_cons, List.map_map]
    rfl

end pyramid

/-- **C106, flow pyramid.** For all networks and every number of levels, at least one: there is one pair of images for
every level, coarsest first; the targets are the second image, pooled as often as there are finer levels; and the last
pair is the first image warped with the flow that is returned, against the second image itself. -/
theorem C106_pyramid {Img : Type} (resize : Flow → Img → Flow) (add : Flow → Flow → Flow) (warp : Img → Flow → Img)
    (zeros : Img → Flow) (pool : Img → Img) (levels : List (Img → Img → Flow → Flow)) (hl : levels ≠ [])
    (image1 image2 : Img) :
    let r := flowWithPairs resize add warp zeros pool levels image1 image2
    r.2.map Prod.snd = (List.range levels.length).reverse.map (fun k => pool^[k] image2) ∧
      ∃ earlier, r.2 = earlier ++ [(warp image1 r.1, image2)] := by
  have hpos : 0 < levels.length := List.length_pos_iff.2 hl
  have hlen : levels.length - 1 + 1 = levels.length := by omega
  dsimp only
  unfold flowWithPairs
  dsimp only
  constructor
  · rw [loop_targets, List.map_nil, List.nil_append]
    have e : ∀ l : List ((Img → Img → Flow → Flow) × Img × Img), (l.map fun t => t.2.2) =
        (l.map Prod.snd).map Prod.snd := fun l => by rw [List.map_map]; rfl
    rw [e, List.map_snd_zip, List.map_snd_zip, decompose_eq, hlen, List.map_reverse]
    · simp [decompose_eq]
    · simp [decompose_eq, hlen]
  · obtain ⟨ini, last, rfl⟩ : ∃ ini last, levels = ini ++ [last] :=
      ⟨levels.dropLast, levels.getLast hl, (List.dropLast_append_getLast hl).symm⟩
    have hd : ∀ x : Img, (decompose pool ((ini ++ [last]).length - 1) x).reverse =
        ((List.range ini.length).map fun j => pool^[j + 1] x).reverse ++ [x] := by
      intro x
      rw [decompose_eq, hlen, List.length_append, List.length_singleton, List.range_succ_eq_map, List.map_cons,
        List.reverse_cons, List.map_map]
      rfl
    rw [hd, hd, List.zip_append (by simp), List.zip_append (by simp)]
    exact loop_last resize add warp _ last image1 image2 _ _

/-- **C106, first stage.** The loss of the first stage is the weighted mean of the errors of all levels; the estimate it
returns is the first image warped with the flow it returns, and its weighted error is at most the number of levels times
the loss. -/
theorem C106_stage1 {Img : Type} (lam : ℝ) (hlam : 0 ≤ lam) (mseOf : Img → Img → ℝ) (hm : ∀ a b, 0 ≤ mseOf a b)
    (resize : Flow → Img → Flow) (add : Flow → Flow → Flow) (warp : Img → Flow → Img) (zeros : Img → Flow)
    (pool : Img → Img) (levels : List (Img → Img → Flow → Flow)) (hl : levels ≠ []) (image1 image2 : Img) :
    ∃ r, stage1 lam mseOf warp (flowWithPairs resize add warp zeros pool levels) image1 image2 = some r ∧
      r.flow = (flowWithPairs resize add warp zeros pool levels image1 image2).1 ∧ r.est = warp image1 r.flow ∧
      r.loss.distortion * levels.length = ((flowWithPairs resize add warp zeros pool levels image1 image2).2.map
        fun p => lam * mseOf p.2 p.1).sum ∧
      lam * mseOf image2 r.est ≤ levels.length * r.loss.distortion ∧ r.loss.flow = none ∧ r.loss.residual = none := by
  obtain ⟨h1, earlier, h2⟩ := C106_pyramid resize add warp zeros pool levels hl image1 image2
  set f := flowWithPairs resize add warp zeros pool levels image1 image2 with hf
  have hlen : f.2.length = levels.length := by
    have := congrArg List.length h1
    simpa using this
  have hpos : 0 < levels.length := List.length_pos_iff.2 hl
  have hne : ((levels.length : ℕ) : ℝ) ≠ 0 := by exact_mod_cast hpos.ne'
  have hne' : f.2.map (fun output => lam * mseOf output.2 output.1) ≠ [] := by
    intro h
    rw [List.map_eq_nil_iff] at h
    rw [h] at hlen
    simp at hlen
    omega
  have hs : stage1 lam mseOf warp (flowWithPairs resize add warp zeros pool levels) image1 image2 =
      some ⟨⟨(f.2.map fun output => lam * mseOf output.2 output.1).sum / (levels.length : ℝ), none, none⟩, f.1,
        warp image1 f.1⟩ := by
    unfold stage1
    rw [← hf]
    dsimp only
    rw [if_neg hne', List.length_map, hlen]
  have hsum : lam * mseOf image2 (warp image1 f.1) ≤ (f.2.map fun output => lam * mseOf output.2 output.1).sum := by
    have hn : 0 ≤ (earlier.map fun output : Img × Img => lam * mseOf output.2 output.1).sum := by
      apply List.sum_nonneg
      intro x hx
      obtain ⟨p, -, rfl⟩ := List.mem_map.1 hx
      exact mul_nonneg hlam (hm _ _)
    rw [h2, List.map_append, List.sum_append, List.map_singleton, List.sum_singleton]
    linarith
  refine ⟨_, hs, rfl, rfl, ?_, ?_, rfl, rfl⟩
  · exact div_mul_cancel₀ _ hne
  · show _ ≤ (levels.length : ℝ) * (_ / (levels.length : ℝ))
    rw [mul_div_cancel₀ _ hne]
    exact hsum

/-! ### Examples -/

/-- A coder of single pixels for examples: the prediction is a function of the reference, and residuals are not sent. -/
noncomputable def toy (predict : ℝ → ℝ) : Nets Unit Unit Unit Unit where
  motionEstimator _ _ := ()
  motionEncoder _ := ((), [(2, 2)])
  motionBottleneck := ⟨fun _ => (), fun _ _ => (), fun _ => ()⟩
  motionDecoder _ _ := ()
  warp a _ := a
  motionCompensation _ b _ := fun i => predict (b i)
  residualEncoder _ := ((), [(2, 2)])
  residualBottleneck := ⟨fun _ => (), fun _ _ => (), fun _ => ()⟩
  residualDecoder _ _ := fun _ => 0
  latentSize _ := (1, 1)

/-- Its mode: symbols have probability one half. -/
noncomputable def toyMode : Mode Unit := ⟨id, id, fun _ => [1 / 2], fun _ => [1 / 2]⟩

theorem toy_ok (f : ℝ → ℝ) : toyMode.Evaluates (toy f) ∧ Codes (toy f) :=
  ⟨⟨rfl, rfl⟩, fun _ => rfl, fun _ => rfl, fun _ => by simp [toy, askedSize], fun _ => by simp [toy, askedSize]⟩

/-- C106 is not vacuous: a scene that darkens, in range; two bits are spent per frame. -/
example : toyMode.Evaluates (toy (· / 2)) ∧ Codes (toy (· / 2)) ∧
    (∀ e ∈ estimates (toy (· / 2)) toyMode (fun _ => 1) [fun _ => 1 / 2, fun _ => 1 / 4], ∀ i, 0 ≤ e i ∧ e i ≤ 1) ∧
    (∀ y, (∀ p ∈ toyMode.motionProb y, 0 < p ∧ p ≤ 1) ∧ ∀ p ∈ toyMode.residualProb y, 0 < p ∧ p ≤ 1) ∧
    bits (toyMode.motionProb ()) + bits (toyMode.residualProb ()) = 2 := by
  refine ⟨(toy_ok _).1, (toy_ok _).2, ?_, ?_, ?_⟩
  · intro e he i
    simp only [estimates, List.mem_cons, List.not_mem_nil, or_false] at he
    rcases he with rfl | rfl <;> simp [dvcForward, toy] <;> norm_num
  · intro y
    refine ⟨fun p hp => ?_, fun p hp => ?_⟩ <;>
    · simp only [toyMode, List.mem_singleton] at hp
      rw [hp]
      norm_num
  · simp only [bits, toyMode, List.map_cons, List.map_nil, List.sum_cons, List.sum_nil, one_div, Real.logb_inv,
      Real.logb_self_eq_one (by norm_num : (1 : ℝ) < 2)]
    norm_num

/-- **C106 is violated for estimates out of range.** The reference of the next frame is not clamped in training and
validation, as it is in decoding, so from the second P-frame on validation measures another coder: here it reports an
error of 1/4 for two frames, and coding them gives an error of 1. -/
theorem C106_violated : ∃ (m : Nets Unit Unit Unit Unit) (b : Mode Unit) (start : Unit → ℝ) (frames : List (Unit → ℝ)),
    b.Evaluates m ∧ Codes m ∧ (∀ x ∈ start :: frames, ∀ i, 0 ≤ x i ∧ x i ≤ 1) ∧
      ((terms (gopNet 1 b 1 fun x => (x, [])) false m start frames).map LossValues.distortion).sum = 1 / 4 ∧
      ((coded 1 m b 1 start frames).map LossValues.distortion).sum = 1 := by
  refine ⟨toy fun a => 3 / 2 - 23 / 6 * a + 7 / 3 * a ^ 2, toyMode, fun _ => 0, [fun _ => 1, fun _ => 1], (toy_ok _).1,
    (toy_ok _).2, ?_, ?_, ?_⟩
  · intro x hx i
    simp only [List.mem_cons, List.not_mem_nil, or_false] at hx
    rcases hx with rfl | rfl | rfl <;> norm_num
  · simp [terms, gopNet, stage45, dvcForward, toy, distortionFn, mse]
    norm_num
  · have h1 : (toy fun a => 3 / 2 - 23 / 6 * a + 7 / 3 * a ^ 2).send (fun _ => 0) [fun _ => 1, fun _ => 1] =
        [(⟨(), [(2, 2)], (), [(2, 2)]⟩, fun _ => 1), (⟨(), [(2, 2)], (), [(2, 2)]⟩, fun _ => 0)] := by
      simp [Nets.send, Nets.compress, Nets.decompress, toy]
      norm_num
    unfold coded
    rw [h1]
    simp [meanSquare]

end Verif.Train.DvcLoss
