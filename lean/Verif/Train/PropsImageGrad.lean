import Verif.Train.ImageGrad
import Verif.Train.PropsAutograd

/-!
C125: what the losses of the image codecs teach which part.
-/

namespace Verif.Train.ImageGrad

open Autograd

variable {We Wh Wd Wc I H P Q D : Type}
  [NormedAddCommGroup We] [NormedSpace ℝ We] [NormedAddCommGroup Wh] [NormedSpace ℝ Wh]
  [NormedAddCommGroup Wd] [NormedSpace ℝ Wd] [NormedAddCommGroup Wc] [NormedSpace ℝ Wc]
  [NormedAddCommGroup I] [NormedSpace ℝ I] [NormedAddCommGroup H] [NormedSpace ℝ H]
  [NormedAddCommGroup P] [NormedSpace ℝ P] [NormedAddCommGroup Q] [NormedSpace ℝ Q]
  [NormedAddCommGroup D] [NormedSpace ℝ D]
  {ι : Type} [Fintype ι]

/-! ### Specification -/

/-- The latent that the encoder makes of an image. -/
def encoded (n : Hific We Wh Wd I H P Q ι) (image : I) (w : We) : ι → ℝ := n.encoder.fn (w, image)

/-- The means that the hyper networks predict for a latent. -/
def predicted (n : Hific We Wh Wd I H P Q ι) (hyperNoise : H) (h : Wh) (z : ι → ℝ) : ι → ℝ :=
  n.mean.fn (h, n.hyperAnalysis.fn (h, z) + hyperNoise)

/-- The transmitted latent: rounded about the means. -/
noncomputable def transmitted (z μ : ι → ℝ) : ι → ℝ := fun i => (roundHalfEven (z i - μ i) : ℝ) + μ i

/-- The answer of the discriminator. -/
def answer (g : Gan Wc I D P Q ι) (c : Wc) (x : I) (context : ι → ℝ) : D :=
  match g.conditional with
  | some f => f.fn (c, x, context)
  | none => g.unconditional.fn (c, x)

/-- The loss of the generator step as an ordinary function of the parameters, if the transmitted latent is `z + error`
for a fixed `error`, the discriminator is `c` and is told the fixed `context`, and the weight of the rate is chosen by
`ql` and `qh`. -/
noncomputable def smoothLoss (n : Hific We Wh Wd I H P Q ι) (g : Gan Wc I D P Q ι) (hyperNoise : H)
    (latentNoise : ι → ℝ) (image : I) (error context : ι → ℝ) (ql : Q) (qh : P) (c : Wc) (w : We) (h : Wh) (d : Wd) : ℝ :=
  let z := encoded n image w
  let y := n.hyperAnalysis.fn (h, z) + hyperNoise
  let x := n.decoder.fn (d, z + error)
  g.distortionLam * g.distortion.fn (x, image)
    + (g.rate ql qh).fn
        (n.latentLik.fn (z + latentNoise, n.scale.fn (h, y), predicted n hyperNoise h z), n.hyperLik.fn (h, y))
    + g.generatorWeight * g.generator.fn (answer g c x context)

/-- All networks and losses are differentiable, with the derivative that their backward pass applies. -/
structure Smooth (n : Hific We Wh Wd I H P Q ι) (g : Gan Wc I D P Q ι) : Prop where
  encoder : n.encoder.Smooth
  hyperAnalysis : n.hyperAnalysis.Smooth
  hyperLik : n.hyperLik.Smooth
  mean : n.mean.Smooth
  scale : n.scale.Smooth
  latentLik : n.latentLik.Smooth
  decoder : n.decoder.Smooth
  conditional : ∀ f, g.conditional = some f → f.Smooth
  unconditional : g.unconditional.Smooth
  distortion : g.distortion.Smooth
  rate : ∀ ql qh, (g.rate ql qh).Smooth
  generator : g.generator.Smooth
  discriminatorLoss : g.discriminatorLoss.Smooth

/-- What the outside sees of the parameters: those that do not take gradients stay at `old`. -/
def follow {α : Type} (takesGradients : Bool) (old new : α) : α := if takesGradients then new else old

/-! ### Adversarial training of the HiFiC autoencoder -/

section hific
variable (n : Hific We Wh Wd I H P Q ι) (g : Gan Wc I D P Q ι) (r : Flags) (hyperNoise : H) (latentNoise : ι → ℝ)
  (image : I) (v : Params We Wh Wd Wc)

/-- **C125, values.** In training the decoder gets the latent rounded about the predicted means, and the reported latent
is that. -/
theorem C125_value :
    let out := (generatorStep n g r hyperNoise latentNoise image v).1
    let z := encoded n image v.1
    out.latent.val = transmitted z (predicted n hyperNoise v.2.1 z) ∧
      out.image.val = n.decoder.fn (v.2.2.1, transmitted z (predicted n hyperNoise v.2.1 z)) := by
  have key : (generatorStep n g r hyperNoise latentNoise image v).1.latent.val
      = transmitted (encoded n image v.1) (predicted n hyperNoise v.2.1 (encoded n image v.1)) := by
    funext i
    simp [generatorStep, forward, steQuantize, Node.add, roundSt, Node.round, Node.sub, Node.detach, Node.apply,
      Node.pair, Node.const, Node.leaf, encoderPart, hyperPart, transmitted, encoded, predicted]
  refine ⟨key, ?_⟩
  rw [← key]
  simp [generatorStep, forward, Node.apply, Node.pair, Node.leaf, decoderPart]

/-- **C125, the gradient of the generator step.** The gradient that `backward` computes is the derivative of the loss in
which the rounding error, the discriminator, what the discriminator is told about the latent, and the weight of the rate
are held fixed at their values of this step.  Frozen parameters are held fixed too. -/
theorem C125_generator (hs : Smooth n g) :
    let z := encoded n image v.1
    let q := transmitted z (predicted n hyperNoise v.2.1 z)
    let out := (generatorStep n g r hyperNoise latentNoise image v).1
    let loss := (generatorStep n g r hyperNoise latentNoise image v).2
    let f := fun v' : Params We Wh Wd Wc =>
      smoothLoss n g hyperNoise latentNoise image (q - z) q out.quantLatentLik.val out.quantHyperLik.val v.2.2.2
        (follow r.encoder v.1 v'.1) (follow r.hyper v.2.1 v'.2.1) (follow r.decoder v.2.2.1 v'.2.2.1)
    loss.val = f v ∧ HasFDerivAt f loss.der v := by
  intro z q out loss f
  have we : (Node.leaf (encoderPart (We := We) (Wh := Wh) (Wd := Wd) (Wc := Wc)) v r.encoder).Tracks
      (fun v' => follow r.encoder v.1 v'.1) v := Node.Tracks.leaf _ _
  have wh : (Node.leaf (hyperPart (We := We) (Wh := Wh) (Wd := Wd) (Wc := Wc)) v r.hyper).Tracks
      (fun v' => follow r.hyper v.2.1 v'.2.1) v := Node.Tracks.leaf _ _
  have wd : (Node.leaf (decoderPart (We := We) (Wh := Wh) (Wd := Wd) (Wc := Wc)) v r.decoder).Tracks
      (fun v' => follow r.decoder v.2.2.1 v'.2.2.1) v := Node.Tracks.leaf _ _
  have wc : (Node.leaf (discPart (We := We) (Wh := Wh) (Wd := Wd) (Wc := Wc)) v false).Tracks
      (fun _ => v.2.2.2) v := (Node.Tracks.leaf _ _).congr fun _ => by simp [discPart]
  have e0 : follow r.encoder v.1 v.1 = v.1 := by simp [follow]
  have h0 : follow r.hyper v.2.1 v.2.1 = v.2.1 := by simp [follow]
  have d0 : follow r.decoder v.2.2.1 v.2.2.1 = v.2.2.1 := by simp [follow]
  have lat := (we.pair (Node.Tracks.const image)).apply hs.encoder
  have hyp := ((wh.pair lat).apply hs.hyperAnalysis).add (Node.Tracks.const hyperNoise)
  have hlik := (wh.pair hyp).apply hs.hyperLik
  have mean := (wh.pair hyp).apply hs.mean
  have scale := (wh.pair hyp).apply hs.scale
  have llik := ((lat.add (Node.Tracks.const latentNoise)).pair (scale.pair mean)).apply hs.latentLik
  have ste := (lat.sub mean).roundSt.add mean
  have ste' := ste.congr (g := fun v' => encoded n image (follow r.encoder v.1 v'.1) + (q - z)) fun v' => by
    funext i
    simp only [Pi.add_apply, Pi.sub_apply, q, z, transmitted, encoded, predicted, e0, h0]
    ring
  have img := (wd.pair ste').apply hs.decoder
  have ctx : _ := ste'.detach.congr (g := fun _ => q) fun _ => by
    simp [z, e0]
  have dist := (img.pair (Node.Tracks.const image)).apply hs.distortion
  have rate := (llik.pair hlik).apply (hs.rate out.quantLatentLik.val out.quantHyperLik.val)
  have disc : (runDiscriminator g (Node.leaf discPart v false) out.image out.latent.detach).Tracks
      (fun v' => answer g v.2.2.2 (n.decoder.fn (follow r.decoder v.2.2.1 v'.2.2.1,
        encoded n image (follow r.encoder v.1 v'.1) + (q - z))) q) v := by
    unfold runDiscriminator answer
    cases hc : g.conditional with
    | none => exact (wc.pair img).apply hs.unconditional
    | some o => exact (wc.pair (img.pair ctx)).apply (hs.conditional o hc)
  exact ((dist.scale g.distortionLam).add rate).add ((disc.apply hs.generator).scale g.generatorWeight)

/-- **C125, who learns from what.** Whatever the derivatives of the networks are: a loss of the reconstruction (the
distortion, the answer of the discriminator) gives the hyper networks no gradient, a loss of the likelihoods (the rate)
gives the decoder none, the generator step gives the discriminator none, and frozen parts get none. -/
theorem C125_routing :
    let out := (generatorStep n g r hyperNoise latentNoise image v).1
    let loss := (generatorStep n g r hyperNoise latentNoise image v).2
    (∀ δ : Params We Wh Wd Wc, δ.1 = 0 → δ.2.2.1 = 0 → out.image.der δ = 0 ∧ out.latent.der δ = 0) ∧
    (∀ δ : Params We Wh Wd Wc, δ.1 = 0 → δ.2.1 = 0 →
      out.latentLik.der δ = 0 ∧ out.hyperLik.der δ = 0 ∧ out.latent.der δ = 0) ∧
    (∀ δ : Params We Wh Wd Wc, out.quantLatentLik.der δ = 0 ∧ out.quantHyperLik.der δ = 0) ∧
    (∀ δ : Params We Wh Wd Wc, (r.encoder → δ.1 = 0) → (r.hyper → δ.2.1 = 0) → (r.decoder → δ.2.2.1 = 0) →
      loss.der δ = 0) := by
  intro out loss
  have slat : ∀ δ : Params We Wh Wd Wc, (r.encoder = true → δ.1 = 0) → ((Node.leaf encoderPart v r.encoder).pair
      (Node.const image) |>.apply n.encoder).Still δ := fun δ h => ((Node.Still.leaf h).pair (.const _)).apply _
  have sste : ∀ δ : Params We Wh Wd Wc, (r.encoder = true → δ.1 = 0) → out.latent.Still δ := by
    intro δ h
    have h1 := slat δ h
    simp only [Node.Still] at h1 ⊢
    rw [← h1]
    simp [out, generatorStep, generatorFlags, forward, steQuantize, Node.add, roundSt_der, Node.sub]
  have simg : ∀ δ : Params We Wh Wd Wc, (r.encoder = true → δ.1 = 0) → (r.decoder = true → δ.2.2.1 = 0) →
      out.image.Still δ := fun δ h h' => ((Node.Still.leaf h').pair (sste δ h)).apply _
  have shyp : ∀ δ : Params We Wh Wd Wc, (r.encoder = true → δ.1 = 0) → (r.hyper = true → δ.2.1 = 0) →
      out.hyperLatent.Still δ := fun δ h h' => (((Node.Still.leaf h').pair (slat δ h)).apply _).add (.const _)
  have shl : ∀ δ : Params We Wh Wd Wc, (r.encoder = true → δ.1 = 0) → (r.hyper = true → δ.2.1 = 0) →
      out.hyperLik.Still δ := fun δ h h' => ((Node.Still.leaf h').pair (shyp δ h h')).apply _
  have sll : ∀ δ : Params We Wh Wd Wc, (r.encoder = true → δ.1 = 0) → (r.hyper = true → δ.2.1 = 0) →
      out.latentLik.Still δ := fun δ h h' =>
    (((slat δ h).add (.const _)).pair ((((Node.Still.leaf h').pair (shyp δ h h')).apply _).pair
      (((Node.Still.leaf h').pair (shyp δ h h')).apply _))).apply _
  refine ⟨fun δ h1 h2 => ⟨simg δ (fun _ => h1) fun _ => h2, sste δ fun _ => h1⟩,
    fun δ h1 h2 => ⟨sll δ (fun _ => h1) fun _ => h2, shl δ (fun _ => h1) fun _ => h2, sste δ fun _ => h1⟩,
    fun δ => ⟨Node.Still.detach _, Node.Still.detach _⟩, fun δ h1 h2 h3 => ?_⟩
  have hw : (Node.leaf (discPart (We := We) (Wh := Wh) (Wd := Wd) (Wc := Wc)) v false).Still δ :=
    Node.Still.leaf fun h => by cases h
  have hd : (runDiscriminator g (Node.leaf discPart v false) out.image out.latent.detach).Still δ := by
    unfold runDiscriminator
    cases g.conditional with
    | none => exact (hw.pair (simg δ h1 h3)).apply _
    | some f => exact (hw.pair ((simg δ h1 h3).pair (.detach _))).apply _
  exact (((((simg δ h1 h3).pair (.const image)).apply _).scale _).add
    (((sll δ h1 h2).pair (shl δ h1 h2)).apply _)).add ((hd.apply _).scale _)

/-- **C125, the discriminator step.** Its gradient is the derivative of the discriminator's loss with respect to the
discriminator alone, with images and latents held fixed; all other parameters get none. -/
theorem C125_discriminator (hs : Smooth n g) (f : Op (Wc × I × (ι → ℝ)) D) (hf : g.conditional = some f)
    (discImages : I) (output : Output (Params We Wh Wd Wc) I H P Q ι)
    (discLatent : Node (Params We Wh Wd Wc) (ι → ℝ)) :
    let loss := discLoss g f discImages v output discLatent
    let s := fun v' : Params We Wh Wd Wc => g.discriminatorLoss.fn
      (f.fn (v'.2.2.2, discImages, discLatent.val), f.fn (v'.2.2.2, output.image.val, output.latent.val))
    loss.val = s v ∧ HasFDerivAt s loss.der v := by
  have wc : (Node.leaf (discPart (We := We) (Wh := Wh) (Wd := Wd) (Wc := Wc)) v true).Tracks
      (fun v' => v'.2.2.2) v := (Node.Tracks.leaf _ _).congr fun _ => by simp [discPart]
  have fs := hs.conditional f hf
  have d : ∀ {A : Type} [NormedAddCommGroup A] [NormedSpace ℝ A] (a : Node (Params We Wh Wd Wc) A),
      a.detach.Tracks (fun _ => a.val) v := fun a => ⟨rfl, hasFDerivAt_const _ v⟩
  exact (((wc.pair ((Node.Tracks.const discImages).pair (d discLatent))).apply fs).pair
    ((wc.pair ((d output.image).pair (d output.latent))).apply fs)).apply hs.discriminatorLoss

end hific

/-- A linear network, for the examples. -/
def linear {A B : Type} [NormedAddCommGroup A] [NormedSpace ℝ A] [NormedAddCommGroup B] [NormedSpace ℝ B]
    (l : A →L[ℝ] B) : Op A B := ⟨l, fun _ => l⟩

theorem linear_smooth {A B : Type} [NormedAddCommGroup A] [NormedSpace ℝ A] [NormedAddCommGroup B] [NormedSpace ℝ B]
    (l : A →L[ℝ] B) : (linear l).Smooth := fun _ => l.hasFDerivAt

section example1

/-- `(w, x) ↦ w + x`. -/
noncomputable def sum2 : ℝ × ℝ →L[ℝ] ℝ := ContinuousLinearMap.fst ℝ ℝ ℝ + ContinuousLinearMap.snd ℝ ℝ ℝ

/-- One number as a vector. -/
noncomputable def vec1 : ℝ →L[ℝ] (Unit → ℝ) := ContinuousLinearMap.pi fun _ => ContinuousLinearMap.id ℝ ℝ

/-- The number of a vector. -/
noncomputable def num1 : (Unit → ℝ) →L[ℝ] ℝ := ContinuousLinearMap.proj ()

/-- `(w, z) ↦ w + z`. -/
noncomputable def plus1 : ℝ × (Unit → ℝ) →L[ℝ] ℝ :=
  ContinuousLinearMap.fst ℝ _ _ + num1.comp (ContinuousLinearMap.snd ℝ _ _)

/-- A small autoencoder. -/
noncomputable def tinyHific : Hific ℝ ℝ ℝ ℝ ℝ ℝ ℝ Unit :=
  ⟨linear (vec1.comp sum2), linear plus1, linear sum2, fun a b => a + b, linear (vec1.comp sum2),
    linear (vec1.comp sum2), linear (num1.comp (ContinuousLinearMap.fst ℝ _ _)), fun a _ _ => a (), linear plus1⟩

/-- A small discriminator with its losses. -/
noncomputable def tinyGan : Gan ℝ ℝ ℝ ℝ ℝ Unit :=
  ⟨some (linear (sum2.comp ((ContinuousLinearMap.fst ℝ _ _).prod
      (plus1.comp (ContinuousLinearMap.snd ℝ _ _))))), linear sum2, linear (ContinuousLinearMap.fst ℝ _ _),
    fun _ _ => linear sum2, linear (ContinuousLinearMap.id ℝ ℝ), linear sum2, 3, 5⟩

/-- Non-vacuity: a smooth autoencoder with a conditional discriminator.  All parts get gradients: the encoder from the
distortion (3), the rate (1 for the latent and 1 for the hyper latent) and the discriminator (5, and not 10: not by what
the discriminator is told about the latent), the hyper networks from the rate only (2), the decoder from distortion and
discriminator (8), the discriminator nothing. -/
example : Smooth tinyHific tinyGan ∧
    (let loss := (generatorStep tinyHific tinyGan ⟨true, true, true, true⟩ (1 / 4) 0 (1 / 4) (1, 0, 2, 7)).2;
      loss.der (1, 0, 0, 0) = 10 ∧ loss.der (0, 1, 0, 0) = 2 ∧ loss.der (0, 0, 1, 0) = 8 ∧ loss.der (0, 0, 0, 1) = 0) ∧
    (generatorStep tinyHific tinyGan ⟨true, true, true, true⟩ (1 / 4) 0 (1 / 4) (1, 0, 2, 7)).1.latent.val ≠
      encoded tinyHific (1 / 4) 1 := by
  have hr : roundHalfEven (-(1 / 4)) = 0 := roundHalfEven_of_near _ 0 (by norm_num [abs_lt])
  refine ⟨⟨linear_smooth _, linear_smooth _, linear_smooth _, linear_smooth _, linear_smooth _, linear_smooth _,
    linear_smooth _, ?_, linear_smooth _, linear_smooth _, fun _ _ => linear_smooth _, linear_smooth _,
    linear_smooth _⟩, ⟨?_, ?_, ?_, ?_⟩, ?_⟩
  · intro f hf
    cases hf
    exact linear_smooth _
  · simp [generatorStep, generatorFlags, forward, modelLoss, runDiscriminator, tinyGan, tinyHific, linear, Node.scale,
      Node.add, Node.apply, Node.pair, Node.const, Node.leaf, Node.detach, steQuantize, roundSt, Node.sub, encoderPart,
      hyperPart, decoderPart, discPart, sum2, vec1, num1, plus1]
    norm_num
  · simp [generatorStep, generatorFlags, forward, modelLoss, runDiscriminator, tinyGan, tinyHific, linear, Node.scale,
      Node.add, Node.apply, Node.pair, Node.const, Node.leaf, Node.detach, steQuantize, roundSt, Node.sub, encoderPart,
      hyperPart, decoderPart, discPart, sum2, vec1, num1, plus1]
    norm_num
  · simp [generatorStep, generatorFlags, forward, modelLoss, runDiscriminator, tinyGan, tinyHific, linear, Node.scale,
      Node.add, Node.apply, Node.pair, Node.const, Node.leaf, Node.detach, steQuantize, roundSt, Node.sub, encoderPart,
      hyperPart, decoderPart, discPart, sum2, vec1, num1, plus1]
    norm_num
  · simp [generatorStep, generatorFlags, forward, modelLoss, runDiscriminator, tinyGan, tinyHific, linear, Node.scale,
      Node.add, Node.apply, Node.pair, Node.const, Node.leaf, Node.detach, steQuantize, roundSt, Node.sub, encoderPart,
      hyperPart, decoderPart, discPart, sum2, vec1, num1, plus1]
  · intro h
    have h1 := congrFun h ()
    have h2 := congrFun (C125_value tinyHific tinyGan ⟨true, true, true, true⟩ (1 / 4) 0 (1 / 4)
      ((1, 0, 2, 7) : Params ℝ ℝ ℝ ℝ)).1 ()
    rw [h2] at h1
    simp [transmitted, predicted, encoded, tinyHific, linear, sum2, vec1, num1, plus1] at h1
    norm_num [hr] at h1

end example1

/-! ### Vector quantisation -/

section vq
variable {V Pix Code : Type} [NormedAddCommGroup V] [NormedSpace ℝ V] [Fintype Pix] {d : ℕ}

/-- The code of number `k`. -/
def code (normalizeCodebook : Bool) (normalize : Op (Fin d → ℝ) (Fin d → ℝ)) (row : Fin d → ℝ) : Fin d → ℝ :=
  if normalizeCodebook then normalize.fn row else row

variable (b : Bool) (normalize : Op (Fin d → ℝ) (Fin d → ℝ))
  (choose : (Code → Fin d → ℝ) → (Pix → Fin d → ℝ) → Pix → Code) (rows : Code → Node V (Fin d → ℝ))
  (preq : Pix → Node V (Fin d → ℝ))

theorem hasFDerivAt_mse {v : V} {a c : Pix → Node V (Fin d → ℝ)} {f g : Pix → V → Fin d → ℝ}
    (ha : ∀ p, (a p).Tracks (f p) v) (hc : ∀ p, (c p).Tracks (g p) v) :
    (mse a c).Tracks (fun w => (∑ p, ∑ i, (f p w i - g p w i) ^ 2) / (Fintype.card Pix * d)) v := by
  refine ⟨by simp [mse, (ha _).1, (hc _).1], ?_⟩
  have hsum : HasFDerivAt (fun w => ∑ p, ∑ i, (f p w i - g p w i) ^ 2)
      (∑ p, ∑ i, (2 * ((a p).val i - (c p).val i)) • (ContinuousLinearMap.proj (R := ℝ) i).comp ((a p).der - (c p).der)) v := by
    refine HasFDerivAt.fun_sum fun p _ => HasFDerivAt.fun_sum fun i _ => ?_
    have h1 := hasFDerivAt_pi'.1 ((ha p).2.sub (hc p).2) i
    have h2 : HasFDerivAt (fun w => (f p w i - g p w i) * (f p w i - g p w i)) _ v := HasFDerivAt.mul h1 h1
    rw [(ha p).1, (hc p).1]
    have e1 : (fun w => (f p w i - g p w i) ^ 2) = fun w => (f p w i - g p w i) * (f p w i - g p w i) := by
      funext w
      ring
    rw [e1, two_mul, add_smul]
    exact h2
  have h := hsum.const_smul ((1 : ℝ) / (Fintype.card Pix * d))
  convert h using 1
  · funext w
    simp [div_eq_inv_mul]
  · rfl

/-- **C125, vector quantiser.** Which codes are chosen is fixed.  The latent it returns is the chosen code, and to
everything after it behaves like the latent it was given, shifted by a fixed amount: no loss of it reaches the codebook.
The commitment loss is the mean squared distance to the codes as fixed targets: it teaches only what is before the
quantiser.  The embedding loss is the mean squared distance with the latents as fixed targets: it teaches only the
codebook. -/
theorem C125_vq (hn : normalize.Smooth) (v : V) (row : Code → V → Fin d → ℝ) (z : Pix → V → Fin d → ℝ)
    (hrow : ∀ k, (rows k).Tracks (row k) v) (hz : ∀ p, (preq p).Tracks (z p) v) :
    let idx := choose (fun k => code b normalize (row k v)) (fun p => z p v)
    let out := quantize b normalize choose rows preq
    (∀ p, (out.latent p).val = code b normalize (row (idx p) v) ∧
      HasFDerivAt (fun w => z p w + (code b normalize (row (idx p) v) - z p v)) (out.latent p).der v) ∧
    (let f := fun w => (∑ p, ∑ i, (code b normalize (row (idx p) v) i - z p w i) ^ 2) / (Fintype.card Pix * d);
      out.commitment.val = f v ∧ HasFDerivAt f out.commitment.der v) ∧
    (let f := fun w => (∑ p, ∑ i, (code b normalize (row (idx p) w) i - z p v i) ^ 2) / (Fintype.card Pix * d);
      out.embedding.val = f v ∧ HasFDerivAt f out.embedding.der v) := by
  intro idx out
  have hcode : ∀ k, ((if b then fun k => (rows k).apply normalize else rows) k).Tracks
      (fun w => code b normalize (row k w)) v := by
    intro k
    cases b with
    | false => exact hrow k
    | true => exact (hrow k).apply hn
  have hidx : choose (fun k => ((if b then fun k => (rows k).apply normalize else rows) k).val)
      (fun p => (preq p).val) = idx := by
    simp only [idx]
    congr 1
    · funext k; exact (hcode k).1
    · funext p; exact (hz p).1
  have hl : ∀ p, ((if b then fun k => (rows k).apply normalize else rows) (choose
      (fun k => ((if b then fun k => (rows k).apply normalize else rows) k).val) (fun p => (preq p).val) p)).Tracks
      (fun w => code b normalize (row (idx p) w)) v := by
    intro p
    rw [hidx]
    exact hcode (idx p)
  have hc : out.commitment.Tracks
      (fun w => (∑ p, ∑ i, (code b normalize (row (idx p) v) i - z p w i) ^ 2) / (Fintype.card Pix * d)) v :=
    hasFDerivAt_mse (fun p => (hl p).detach) hz
  have he : out.embedding.Tracks
      (fun w => (∑ p, ∑ i, (code b normalize (row (idx p) w) i - z p v i) ^ 2) / (Fintype.card Pix * d)) v :=
    hasFDerivAt_mse hl fun p => (hz p).detach
  refine ⟨fun p => ?_, hc, he⟩
  have := (hz p).add ((hl p).sub (hz p)).detach
  refine ⟨?_, this.2⟩
  have h1 := this.1
  simp only [add_sub_cancel] at h1
  exact h1

/-- **C125, unused codes.** A code that no pixel of the batch has chosen gets no gradient from any loss: changing only
such codes changes none of the outputs to first order, whatever the normalisation. -/
theorem C125_dead (δ : V)
    (hz : ∀ p, (preq p).der δ = 0)
    (hk : ∀ p, (rows (choose (fun k => code b normalize (rows k).val) (fun p => (preq p).val) p)).der δ = 0) :
    let out := quantize b normalize choose rows preq
    (∀ p, (out.latent p).der δ = 0) ∧ out.commitment.der δ = 0 ∧ out.embedding.der δ = 0 := by
  intro out
  have hv : (fun k => ((if b then fun k => (rows k).apply normalize else rows) k).val)
      = fun k => code b normalize (rows k).val := by
    funext k
    cases b <;> simp [code, Node.apply]
  refine ⟨fun p => ?_, ?_, ?_⟩
  · simp [out, quantize, Node.add, Node.detach, hz p]
  · simp [out, quantize, mse, Node.detach, hz]
  · have : ∀ p, ((if b then fun k => (rows k).apply normalize else rows) (choose
        (fun k => ((if b then fun k => (rows k).apply normalize else rows) k).val) (fun p => (preq p).val) p)).der δ
        = 0 := by
      intro p
      rw [hv]
      have := hk p
      cases b
      · simpa using this
      · simp [Node.apply, this]
    simp [out, quantize, mse, Node.detach, this]

/-- Non-vacuity: one pixel at 0 and one code at 1 (and another code at 5).  A loss of the latent reaches the pixel and
not the code; the commitment loss pulls the pixel, the embedding loss the code; the other code gets nothing. -/
example :
    let rows : Bool → Node (ℝ × ℝ × ℝ) (Fin 1 → ℝ) := fun k =>
      if k then Node.leaf (ContinuousLinearMap.pi fun _ => ContinuousLinearMap.fst ℝ _ _) (1, 0, 5) true
      else Node.leaf (ContinuousLinearMap.pi fun _ => (ContinuousLinearMap.snd ℝ _ _).comp (ContinuousLinearMap.snd ℝ _ _)) (1, 0, 5) true
    let preq : Unit → Node (ℝ × ℝ × ℝ) (Fin 1 → ℝ) := fun _ =>
      Node.leaf (ContinuousLinearMap.pi fun _ => (ContinuousLinearMap.fst ℝ _ _).comp (ContinuousLinearMap.snd ℝ _ _)) (1, 0, 5) true
    let out := quantize false (linear (ContinuousLinearMap.id ℝ _)) (fun _ _ _ => true) rows preq
    (out.latent ()).der (0, 1, 0) = (fun _ => 1) ∧ (out.latent ()).der (1, 0, 1) = 0 ∧
      out.commitment.der (0, 1, 0) = -2 ∧ out.commitment.der (1, 0, 1) = 0 ∧
      out.embedding.der (1, 0, 0) = 2 ∧ out.embedding.der (0, 1, 1) = 0 := by
  refine ⟨?_, ?_, ?_, ?_, ?_, ?_⟩ <;>
    first
      | (simp [quantize, mse, Node.add, Node.sub, Node.detach, Node.leaf]; done)
      | (funext i; simp [quantize, mse, Node.add, Node.sub, Node.detach, Node.leaf])

end vq

end Verif.Train.ImageGrad
