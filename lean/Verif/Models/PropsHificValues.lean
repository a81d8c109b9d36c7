import Verif.Models.HificValues
import Verif.Models.PropsHific

/-!
C105: what `forward` reports about an image is what coding it gives.
-/

namespace Verif.Models.HificValues

open Verif Verif.Functional Verif.Models.Hific

variable {Str HStr Lik : Type}

/-! ### Specification -/

/-- The networks change sizes as their layers do. -/
structure Model.SizesOk (m : Model Str HStr Lik) : Prop where
  encoder : ∀ x, (m.encoder x).size = (encoderSize x.height, encoderSize x.width)
  hyperAnalysis : ∀ y, (m.hyperAnalysis y).size = (hyperAnalysisSize y.size.1, hyperAnalysisSize y.size.2)
  mean : ∀ z, (m.synthesisMean z).size = (hyperSynthesisSize z.size.1, hyperSynthesisSize z.size.2)
  generator : ∀ y, ((m.generator y).height, (m.generator y).width) =
    (generatorSize y.size.1, generatorSize y.size.2)

/-- The range coders give back the symbols they coded. -/
structure Model.Lossless (m : Model Str HStr Lik) : Prop where
  hyper : ∀ s, m.decodeHyper (m.encodeHyper s) s.size = s
  latent : ∀ s scales, m.decodeLatent (m.encodeLatent s scales) scales = s

/-- The values that the receiver of compressed data works with: hyper-latent, scales, means and latent, from the
strings alone. -/
noncomputable def received (m : Model Str HStr Lik) (c : Compressed Str HStr) : Latent × Latent × Latent × Latent :=
  let size := (c.paddedSize.1 / 64, c.paddedSize.2 / 64)
  let hyper := dequantize (m.decodeHyper c.hyperLatent size) (m.median size)
  let scales := m.synthesisScale hyper
  let means := m.synthesisMean hyper
  (hyper, scales, means, dequantize (m.decodeLatent c.latent scales) means)

/-- The value, clamped to [0, 1]. -/
noncomputable def clamp01 (v : ℝ) : ℝ := max 0 (min 1 v)

/-! ### Lemmas -/

theorem dequantize_symbols (x means : Latent) : dequantize (symbols x means) means = quantize x means := rfl

theorem ste_eq (x means : Latent) : steQuantize x means = quantize x means := by
  unfold steQuantize quantize
  congr 1
  funext b c i j
  ring

/-- Quantising twice around the same means is quantising once. -/
theorem quantize_quantize (x means : Latent) : quantize (quantize x means) means = quantize x means := by
  unfold quantize
  congr 1
  funext b c i j
  dsimp only
  rw [add_sub_cancel_right, roundHalfEven_int]

theorem median_val (m : Model Str HStr Lik) (s t : ℕ × ℕ) : (m.median s).val = (m.median t).val := rfl

theorem nets_lossless (m : Model Str HStr Lik) (hl : m.Lossless) :
    m.nets.Lossless (fun z => quantize z (m.median z.size)) quantize where
  hyper z := by
    show dequantize (m.decodeHyper (m.encodeHyper (symbols z (m.median z.size))) z.size) (m.median z.size) = _
    have := hl.hyper (symbols z (m.median z.size))
    rw [show (symbols z (m.median z.size)).size = z.size from rfl] at this
    rw [this]
    rfl
  latent y scales means := by
    show dequantize (m.decodeLatent (m.encodeLatent (symbols y means) scales) scales) means = _
    rw [hl.latent]
    rfl
  size y means := rfl

theorem nets_sizesOk (m : Model Str HStr Lik) (hs : m.SizesOk) : m.nets.SizesOk :=
  ⟨hs.encoder, hs.hyperAnalysis, hs.generator⟩

/-- In evaluation mode, or with a frozen bottleneck, `forward` computes the quantised values and nothing random. -/
theorem forward_quantised (m : Model Str HStr Lik) (training frozen : Bool) (u v : ℕ → ℕ → ℕ → ℕ → ℝ) (x : Image ℝ)
    (h : training = false ∨ frozen = true) :
    m.forward training frozen u v x =
      let latent := m.encoder x
      let z := m.hyperAnalysis latent
      let hyper := quantize z (m.median z.size)
      let means := m.synthesisMean hyper
      let scales := m.synthesisScale hyper
      let decoded := quantize latent means
      if means.size ≠ latent.size then none
      else some
        { image := m.generator decoded
          latent := decoded
          latentLik := m.latentLik decoded scales means
          quantizedLatentLik := m.latentLik decoded scales means
          hyperLatent := hyper
          hyperLik := m.hyperLik hyper
          quantizedHyperLik := m.hyperLik hyper } := by
  have hb : bottleneckTraining training frozen = false := by
    unfold bottleneckTraining
    rcases h with h | h <;> subst h
    · cases frozen <;> rfl
    · rfl
  unfold Model.forward
  dsimp only
  rw [hb]
  unfold Model.hyperBottleneck Model.latentBottleneck
  simp only [Bool.false_eq_true, if_false]
  have e : ∀ z : Latent, quantize (quantize z (m.median z.size)) (m.median (quantize z (m.median z.size)).size)
      = quantize z (m.median z.size) := fun z => quantize_quantize z _
  rw [e]
  cases training
  · simp only [Bool.false_eq_true, if_false]
  · simp only [if_true, ste_eq]

theorem means_fit (m : Model Str HStr Lik) (hs : m.SizesOk) (x : Image ℝ) (h0 : 0 < x.height) (w0 : 0 < x.width)
    (dh : 64 ∣ x.height) (dw : 64 ∣ x.width) (z : Latent) (hz : z.size = (m.hyperAnalysis (m.encoder x)).size) :
    (m.synthesisMean z).size = (m.encoder x).size := by
  obtain ⟨a, ha⟩ := dh
  obtain ⟨b, hb⟩ := dw
  rw [hs.mean, hz, hs.hyperAnalysis, hs.encoder]
  dsimp only
  rw [encoderSize_eq _ (by omega), encoderSize_eq _ (by omega), hyperAnalysisSize_eq _ (by omega),
    hyperAnalysisSize_eq _ (by omega), hyperSynthesisSize_eq _ (by omega), hyperSynthesisSize_eq _ (by omega)]
  ext <;> dsimp only <;> omega

/-! ### C105 -/

/-- **C105, image and values.** For all networks with the sizes of the layers, all lossless range coders and every
image that `compress` accepts: `forward` in evaluation mode works on the padded image, and the reconstruction from the
strings is the clamped image of `forward`, cropped to the size of the original; the hyper-latent, the latent and both
likelihoods that `forward` reports are those of the values that the receiver gets from the strings. -/
theorem C105_coding_partial (m : Model Str HStr Lik) (hs : m.SizesOk) (hl : m.Lossless) (x : Image ℝ)
    (h0 : 0 < x.height) (w0 : 0 < x.width) (c : Compressed Str HStr) (hc : m.nets.compress x = .ok c)
    (frozen : Bool) (u v : ℕ → ℕ → ℕ → ℕ → ℝ) :
    ∃ padded out, padImageToFactor x 64 = .ok (padded, x.height, x.width) ∧
      m.forward false frozen u v padded = some out ∧
      (m.nets.decompress c).height = x.height ∧ (m.nets.decompress c).width = x.width ∧
      (∀ b ch i j, (m.nets.decompress c).pix b ch i j = clamp01 (out.image.pix b ch i j)) ∧
      ∃ hyper scales means latent, received m c = (hyper, scales, means, latent) ∧
        out.hyperLatent = hyper ∧ out.latent = latent ∧
        out.hyperLik = m.hyperLik hyper ∧ out.quantizedHyperLik = m.hyperLik hyper ∧
        out.latentLik = m.latentLik latent scales means ∧ out.quantizedLatentLik = m.latentLik latent scales means := by
  obtain ⟨padded, hp, hsize, hh, hw, hpix⟩ :=
    C51_partial m.nets _ _ (nets_sizesOk m hs) (nets_lossless m hl) x h0 w0 c hc
  obtain ⟨lh, lw, -⟩ := C35_partial x padded 64 .reflect _ _ hp
  have hfit := means_fit m hs padded (lt_of_lt_of_le h0 lh.2.1) (lt_of_lt_of_le w0 lw.2.1) lh.1 lw.1
    (quantize (m.hyperAnalysis (m.encoder padded)) (m.median (m.hyperAnalysis (m.encoder padded)).size)) rfl
  have hf := forward_quantised m false frozen u v padded (Or.inl rfl)
  dsimp only at hf
  rw [if_neg (not_not.2 hfit)] at hf
  refine ⟨padded, _, hp, hf, hh, hw, fun b ch i j => (hpix b ch i j).2.2, ?_⟩
  unfold Nets.compress at hc
  rw [hp] at hc
  dsimp only at hc
  injection hc with hc
  have hpad : (padded.height, padded.width) = c.paddedSize := by rw [← hc]
  have e1 : (c.paddedSize.1 / 64, c.paddedSize.2 / 64) = (m.hyperAnalysis (m.encoder padded)).size := by
    have : (m.hyperAnalysis (m.encoder padded)).size =
      (c.paddedSize.1 / 2 ^ 4 / 2 ^ 2, c.paddedSize.2 / 2 ^ 4 / 2 ^ 2) := hsize
    rw [this]
    ext <;> dsimp only <;> omega
  have hyp := (nets_lossless m hl).hyper (m.hyperAnalysis (m.encoder padded))
  have hy : dequantize (m.decodeHyper c.hyperLatent (c.paddedSize.1 / 64, c.paddedSize.2 / 64))
      (m.median (c.paddedSize.1 / 64, c.paddedSize.2 / 64)) =
      quantize (m.hyperAnalysis (m.encoder padded)) (m.median (m.hyperAnalysis (m.encoder padded)).size) := by
    rw [e1, ← hyp, ← hc]
    rfl
  have hla := (nets_lossless m hl).latent (m.encoder padded)
    (m.synthesisScale (quantize (m.hyperAnalysis (m.encoder padded))
      (m.median (m.hyperAnalysis (m.encoder padded)).size)))
    (m.synthesisMean (quantize (m.hyperAnalysis (m.encoder padded))
      (m.median (m.hyperAnalysis (m.encoder padded)).size)))
  have hla2 : dequantize (m.decodeLatent c.latent (m.synthesisScale (quantize (m.hyperAnalysis (m.encoder padded))
      (m.median (m.hyperAnalysis (m.encoder padded)).size))))
    (m.synthesisMean (quantize (m.hyperAnalysis (m.encoder padded))
      (m.median (m.hyperAnalysis (m.encoder padded)).size))) = quantize (m.encoder padded)
    (m.synthesisMean (quantize (m.hyperAnalysis (m.encoder padded))
      (m.median (m.hyperAnalysis (m.encoder padded)).size))) := by
    rw [← hla, ← hc]
    have : m.nets.hyperDecompress (m.nets.hyperCompress (m.nets.hyperAnalysis (m.nets.encoder padded)))
      (m.nets.size (m.nets.hyperAnalysis (m.nets.encoder padded))) = _ := hyp
    dsimp only
    rw [this]
    rfl
  refine ⟨_, _, _, _, rfl, ?_⟩
  rw [hy, hla2]
  exact ⟨rfl, rfl, rfl, rfl, rfl, rfl⟩

/-- **C105, without padding.** For an image whose sizes are multiples of 64, `compress` works and the reconstruction is
the clamped image of `forward` of the very image. -/
theorem C105_exact_partial (m : Model Str HStr Lik) (hs : m.SizesOk) (hl : m.Lossless) (x : Image ℝ)
    (h0 : 0 < x.height) (w0 : 0 < x.width) (dh : 64 ∣ x.height) (dw : 64 ∣ x.width) (frozen : Bool)
    (u v : ℕ → ℕ → ℕ → ℕ → ℝ) :
    ∃ c out, m.nets.compress x = .ok c ∧ m.forward false frozen u v x = some out ∧
      (m.nets.decompress c).height = out.image.height ∧ (m.nets.decompress c).width = out.image.width ∧
      ∀ b ch i j, (m.nets.decompress c).pix b ch i j = clamp01 (out.image.pix b ch i j) := by
  have hp : padImageToFactor x 64 = .ok (x, x.height, x.width) := by
    unfold padImageToFactor
    rw [if_neg (by norm_num)]
    dsimp only
    rw [if_neg (by omega)]
  have : ∃ c, m.nets.compress x = .ok c := by
    unfold Nets.compress
    rw [hp]
    exact ⟨_, rfl⟩
  obtain ⟨c, hc⟩ := this
  obtain ⟨padded, out, hp', hf, hh, hw, hpix, -⟩ := C105_coding_partial m hs hl x h0 w0 c hc frozen u v
  rw [hp] at hp'
  injection hp' with hp'
  injection hp' with hp' _
  subst hp'
  refine ⟨c, out, hc, hf, ?_, ?_, hpix⟩
  all_goals
    have hf' := hf
    rw [forward_quantised m false frozen u v x (Or.inl rfl)] at hf'
    dsimp only at hf'
    rw [if_neg (not_not.2 (means_fit m hs x h0 w0 dh dw
      (quantize (m.hyperAnalysis (m.encoder x)) (m.median (m.hyperAnalysis (m.encoder x)).size)) rfl))] at hf'
    injection hf' with hf'
    rw [← hf']
    dsimp only
  · rw [hh]
    have hg := congrArg Prod.fst (hs.generator (quantize (m.encoder x) (m.synthesisMean (quantize
      (m.hyperAnalysis (m.encoder x)) (m.median (m.hyperAnalysis (m.encoder x)).size)))))
    dsimp only at hg
    rw [hg, show (quantize (m.encoder x) _).size = (m.encoder x).size from rfl, hs.encoder,
      encoderSize_eq x.height (by omega), generatorSize_eq _ (by omega)]
    omega
  · rw [hw]
    have hg := congrArg Prod.snd (hs.generator (quantize (m.encoder x) (m.synthesisMean (quantize
      (m.hyperAnalysis (m.encoder x)) (m.median (m.hyperAnalysis (m.encoder x)).size)))))
    dsimp only at hg
    rw [hg, show (quantize (m.encoder x) _).size = (m.encoder x).size from rfl, hs.encoder,
      encoderSize_eq x.width (by omega), generatorSize_eq _ (by omega)]
    omega

/-- **C105, frozen bottleneck.** While a model with a frozen bottleneck is trained, every field that `forward` reports
is the one of evaluation mode, whatever the noise. -/
theorem C105_frozen (m : Model Str HStr Lik) (u v u' v' : ℕ → ℕ → ℕ → ℕ → ℝ) (x : Image ℝ) (frozen : Bool) :
    m.forward true true u v x = m.forward false frozen u' v' x := by
  rw [forward_quantised m true true u v x (Or.inr rfl), forward_quantised m false frozen u' v' x (Or.inl rfl)]

/-- **C105, training.** In training without freezing, the generator is given values that a receiver could have got:
whole steps from the means, at most half a step from the encoder's latent. -/
theorem C105_training_grid (m : Model Str HStr Lik) (u v : ℕ → ℕ → ℕ → ℕ → ℝ) (x : Image ℝ) (out : Output Lik)
    (h : m.forward true false u v x = some out) (b c i j : ℕ) :
    out.image = m.generator out.latent ∧
      (∃ k : ℤ, out.latent.val b c i j = (m.synthesisMean out.hyperLatent).val b c i j + k) ∧
      |out.latent.val b c i j - (m.encoder x).val b c i j| ≤ 1 / 2 := by
  unfold Model.forward at h
  dsimp only at h
  by_cases hm : (m.synthesisMean (m.hyperBottleneck (bottleneckTraining true false) u
      (m.hyperAnalysis (m.encoder x))).1).size = (m.encoder x).size
  · rw [if_neg (not_not.2 hm)] at h
    injection h with h
    rw [← h]
    simp only [if_true, ste_eq]
    refine ⟨trivial, ⟨_, add_comm _ _⟩, ?_⟩
    unfold quantize
    dsimp only
    have := roundHalfEven_near ((m.encoder x).val b c i j -
      (m.synthesisMean (m.hyperBottleneck (bottleneckTraining true false) u
      (m.hyperAnalysis (m.encoder x))).1).val b c i j)
    rw [show ∀ r a b : ℝ, r + b - a = r - (a - b) from fun r a b => by ring]
    exact this
  · rw [if_pos hm] at h
    cases h

/-- Adding less than a step moves the rounded value by at most one. -/
theorem round_add_noise (a n : ℝ) (hn : |n| ≤ 1 / 2) : |roundHalfEven (a + n) - roundHalfEven a| ≤ 1 := by
  have h1 := roundHalfEven_near (a + n)
  have h2 := roundHalfEven_near a
  rw [abs_le] at *
  have a1 : ((roundHalfEven (a + n) : ℤ) : ℝ) - roundHalfEven a < 2 := by linarith
  have a2 : (-2 : ℝ) < ((roundHalfEven (a + n) : ℤ) : ℝ) - roundHalfEven a := by linarith
  have a1' : roundHalfEven (a + n) - roundHalfEven a < 2 := by exact_mod_cast a1
  have a2' : -2 < roundHalfEven (a + n) - roundHalfEven a := by exact_mod_cast a2
  omega

/-- **C105, rates in training.** Without freezing, the "quantised" likelihood of the hyper-latent that `forward` reports
in training is that of other values than the ones coded: of the rounded noisy hyper-latent. Each value is at most one
step off. -/
theorem C105_training_partial (m : Model Str HStr Lik) (u v : ℕ → ℕ → ℕ → ℕ → ℝ) (hu : ∀ b c i j, |u b c i j| ≤ 1 / 2)
    (x : Image ℝ) (out : Output Lik) (h : m.forward true false u v x = some out) :
    ∃ hyper : Latent, out.quantizedHyperLik = m.hyperLik hyper ∧
      ∀ b c i j, ∃ k : ℤ, |k| ≤ 1 ∧ hyper.val b c i j =
        (quantize (m.hyperAnalysis (m.encoder x)) (m.median (m.hyperAnalysis (m.encoder x)).size)).val b c i j + k := by
  unfold Model.forward at h
  dsimp only at h
  by_cases hm : (m.synthesisMean (m.hyperBottleneck (bottleneckTraining true false) u
      (m.hyperAnalysis (m.encoder x))).1).size = (m.encoder x).size
  · rw [if_neg (not_not.2 hm)] at h
    injection h with h
    rw [← h]
    refine ⟨_, rfl, fun b c i j => ?_⟩
    refine ⟨roundHalfEven ((m.hyperAnalysis (m.encoder x)).val b c i j - m.medians c + u b c i j) -
      roundHalfEven ((m.hyperAnalysis (m.encoder x)).val b c i j - m.medians c), round_add_noise _ _ (hu b c i j), ?_⟩
    show ((roundHalfEven ((m.hyperAnalysis (m.encoder x)).val b c i j + u b c i j - m.medians c) : ℤ) : ℝ) + m.medians c
      = ((roundHalfEven ((m.hyperAnalysis (m.encoder x)).val b c i j - m.medians c) : ℤ) : ℝ) + m.medians c + _
    rw [show (m.hyperAnalysis (m.encoder x)).val b c i j + u b c i j - m.medians c =
      (m.hyperAnalysis (m.encoder x)).val b c i j - m.medians c + u b c i j by ring]
    push_cast
    ring
  · rw [if_pos hm] at h
    cases h

/-- A small model, for examples: the latent is constant, likelihoods are the value at the origin, and symbols are
coded as they are. -/
noncomputable def toy (value brightness : ℝ) : Model Symbols Symbols ℝ where
  encoder x := ⟨(encoderSize x.height, encoderSize x.width), fun _ _ _ _ => value⟩
  hyperAnalysis y := ⟨(hyperAnalysisSize y.size.1, hyperAnalysisSize y.size.2), y.val⟩
  synthesisMean z := ⟨(hyperSynthesisSize z.size.1, hyperSynthesisSize z.size.2), fun _ _ _ _ => 0⟩
  synthesisScale z := ⟨(hyperSynthesisSize z.size.1, hyperSynthesisSize z.size.2), fun _ _ _ _ => 1⟩
  generator y := ⟨generatorSize y.size.1, generatorSize y.size.2, fun _ _ _ _ => brightness⟩
  medians _ := 0
  hyperLik z := z.val 0 0 0 0
  latentLik y _ _ := y.val 0 0 0 0
  encodeHyper s := s
  decodeHyper s _ := s
  encodeLatent s _ := s
  decodeLatent s _ := s

theorem toy_ok (a b : ℝ) : (toy a b).SizesOk ∧ (toy a b).Lossless :=
  ⟨⟨fun _ => rfl, fun _ => rfl, fun _ => rfl, fun _ => rfl⟩, ⟨fun _ => rfl, fun _ _ => rfl⟩⟩

/-- The image of the examples: 64 × 128. -/
def picture : Image ℝ := ⟨64, 128, fun _ _ _ _ => 0⟩

/-- C105 is not vacuous: the toy model satisfies the hypotheses and codes the picture; a grey image comes back as
`forward` gives it. -/
example : ∃ c out, (toy 3 (1 / 2)).nets.compress picture = .ok c ∧
    (toy 3 (1 / 2)).forward false false (fun _ _ _ _ => 0) (fun _ _ _ _ => 0) picture = some out ∧
    out.image.pix 0 0 0 0 = 1 / 2 ∧ ((toy 3 (1 / 2)).nets.decompress c).pix 0 0 0 0 = 1 / 2 := by
  obtain ⟨c, out, hc, hf, -, -, hp⟩ := C105_exact_partial _ (toy_ok 3 (1 / 2)).1 (toy_ok 3 (1 / 2)).2 picture
    (by decide) (by decide) (by decide) (by decide) false (fun _ _ _ _ => 0) (fun _ _ _ _ => 0)
  have hi : out.image.pix 0 0 0 0 = 1 / 2 := by
    rw [forward_quantised _ _ _ _ _ _ (Or.inl rfl)] at hf
    dsimp only at hf
    split_ifs at hf
    injection hf with hf
    rw [← hf]
    rfl
  refine ⟨c, out, hc, hf, hi, ?_⟩
  rw [hp, hi]
  unfold clamp01
  norm_num

/-- `forward` of the toy model on the picture returns, in every mode. -/
theorem toy_forward (a b : ℝ) (training frozen : Bool) (u v : ℕ → ℕ → ℕ → ℕ → ℝ) :
    ∃ out, (toy a b).forward training frozen u v picture = some out ∧ out.image.pix 0 0 0 0 = b ∧
      out.quantizedHyperLik = (if bottleneckTraining training frozen then roundHalfEven (a + u 0 0 0 0 - 0)
        else roundHalfEven (a - 0) : ℤ) := by
  have hsz : ∀ z : Latent, z.size = (1, 2) → ((toy a b).synthesisMean z).size = ((toy a b).encoder picture).size := by
    intro z hz
    show (hyperSynthesisSize z.size.1, hyperSynthesisSize z.size.2) = (encoderSize 64, encoderSize 128)
    rw [hz]
    decide
  have hz : ((toy a b).hyperBottleneck (bottleneckTraining training frozen) u
      ((toy a b).hyperAnalysis ((toy a b).encoder picture))).1.size = (1, 2) := by
    unfold Model.hyperBottleneck
    dsimp only
    cases bottleneckTraining training frozen
    · simp only [Bool.false_eq_true, if_false]
      show (hyperAnalysisSize (encoderSize 64), hyperAnalysisSize (encoderSize 128)) = (1, 2)
      decide
    · simp only [if_true]
      show (hyperAnalysisSize (encoderSize 64), hyperAnalysisSize (encoderSize 128)) = (1, 2)
      decide
  unfold Model.forward
  dsimp only
  rw [if_neg (not_not.2 (hsz _ hz))]
  refine ⟨_, rfl, rfl, ?_⟩
  dsimp only
  cases bottleneckTraining training frozen
  · simp only [Bool.false_eq_true, if_false]
    show ((roundHalfEven (((roundHalfEven (a - 0) : ℤ) : ℝ) + 0 - 0) : ℤ) : ℝ) + 0 = _
    rw [add_sub_cancel_right, roundHalfEven_int, add_zero]
  · simp only [if_true]
    show ((roundHalfEven (a + u 0 0 0 0 - 0) : ℤ) : ℝ) + 0 = _
    rw [add_zero]

/-- **C105 is violated by brightness**: `forward` does not clamp, so what it reports as the reconstruction is not what
decoding gives when the generator leaves [0, 1]. -/
theorem C105_violated_range : ∃ (m : Model Symbols Symbols ℝ) (x : Image ℝ) (c : Compressed Symbols Symbols)
    (out : Output ℝ), m.SizesOk ∧ m.Lossless ∧ m.nets.compress x = .ok c ∧
      m.forward false false (fun _ _ _ _ => 0) (fun _ _ _ _ => 0) x = some out ∧
      out.image.pix 0 0 0 0 = 2 ∧ (m.nets.decompress c).pix 0 0 0 0 = 1 := by
  obtain ⟨c, out, hc, hf, -, -, hp⟩ := C105_exact_partial _ (toy_ok 3 2).1 (toy_ok 3 2).2 picture
    (by decide) (by decide) (by decide) (by decide) false (fun _ _ _ _ => 0) (fun _ _ _ _ => 0)
  obtain ⟨out', hf', hi, -⟩ := toy_forward 3 2 false false (fun _ _ _ _ => 0) (fun _ _ _ _ => 0)
  rw [hf] at hf'
  injection hf' with hf'
  subst hf'
  refine ⟨_, _, c, out, (toy_ok 3 2).1, (toy_ok 3 2).2, hc, hf, hi, ?_⟩
  rw [hp, hi]
  unfold clamp01
  norm_num

/-- **C105 is violated by the rate in training**: with admissible noise the "quantised" likelihood of the hyper-latent
that `forward` reports in training is not that of the coded values, which evaluation mode reports. -/
theorem C105_violated_rate : ∃ (m : Model Symbols Symbols ℝ) (x : Image ℝ) (u : ℕ → ℕ → ℕ → ℕ → ℝ) (out out' : Output ℝ),
    m.SizesOk ∧ m.Lossless ∧ (∀ b c i j, |u b c i j| < 1 / 2) ∧
      m.forward true false u (fun _ _ _ _ => 0) x = some out ∧
      m.forward false false u (fun _ _ _ _ => 0) x = some out' ∧
      out.quantizedHyperLik = 1 ∧ out'.quantizedHyperLik = 0 := by
  obtain ⟨out, hf, -, h1⟩ := toy_forward (1 / 5) 0 true false (fun _ _ _ _ => 2 / 5) (fun _ _ _ _ => 0)
  obtain ⟨out', hf', -, h2⟩ := toy_forward (1 / 5) 0 false false (fun _ _ _ _ => 2 / 5) (fun _ _ _ _ => 0)
  refine ⟨_, _, _, out, out', (toy_ok _ _).1, (toy_ok _ _).2, fun _ _ _ _ => ?_, hf, hf', ?_, ?_⟩
  · rw [abs_lt]; constructor <;> norm_num
  · rw [h1]
    simp only [bottleneckTraining, Bool.false_eq_true, if_false, if_true]
    rw [roundHalfEven_of_near _ 1 (by rw [abs_lt]; constructor <;> norm_num)]
    norm_num
  · rw [h2]
    simp only [bottleneckTraining, Bool.false_eq_true, if_false]
    rw [roundHalfEven_of_near _ 0 (by rw [abs_lt]; constructor <;> norm_num)]
    norm_num

/-- The training theorems are not vacuous. -/
example : ∃ out, (toy (1 / 5) 0).forward true false (fun _ _ _ _ => 2 / 5) (fun _ _ _ _ => 0) picture = some out :=
  let ⟨out, h, _⟩ := toy_forward (1 / 5) 0 true false (fun _ _ _ _ => 2 / 5) (fun _ _ _ _ => 0)
  ⟨out, h⟩

end Verif.Models.HificValues
