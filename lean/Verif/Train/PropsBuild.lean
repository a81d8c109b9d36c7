import Verif.Train.Build
import Verif.Train.PropsGan
import Verif.Models.PropsHific

/-!
C108: fine-tuning.  A module that is built from a configuration starts from the pretrained weights that the configuration
names, and the parts that the configuration freezes keep these weights through every training.
-/

namespace Verif.Train.Build

open Verif.Models

variable {W P Img : Type}

/-- The parts that a configuration asks to be frozen, from the documentation of the arguments `freeze_encoder` and
`freeze_bottleneck`: the encoder; everything between the encoder and the decoder. -/
def Asked (c : ModelCfg) : Hific.Part → Prop
  | .encoder => c.freezeEncoder = true
  | .decoder => False
  | .hyperAnalysis => c.freezeBottleneck = true
  | .synthesisMean => c.freezeBottleneck = true
  | .synthesisScale => c.freezeBottleneck = true
  | .hyperBottleneck => c.freezeBottleneck = true
  | .latentBottleneck => c.freezeBottleneck = true

theorem init_flags (c : ModelCfg) (part : Hific.Part) :
    (Hific.Flags.init c.freezeEncoder c.freezeBottleneck).requiresGrad part = false ↔ Asked c part := by
  obtain ⟨s, e, b⟩ := c
  cases e <;> cases b <;> cases part <;>
    simp [Asked, Hific.Flags.init, Hific.Flags.fresh, Hific.Flags.freezeEncoder, Hific.Flags.freezeBottleneck,
      Hific.Part.coding]

theorem init_frozen (e b : Bool) : (Hific.Flags.init e b).frozenEncoder = e ∧ (Hific.Flags.init e b).frozenBottleneck = b := by
  cases e <;> cases b <;> exact ⟨rfl, rfl⟩

/-- The build, taken apart. -/
theorem buildModule_ok {w : World W} {cfg : Cfg} {m : Module W} (h : buildModule w cfg = .ok m) :
    buildModel w cfg = .ok m.model ∧ cfg.distortion = true ∧
      (cfg.discriminator = false → ∃ n, m = .target n) ∧
      (cfg.discriminator = true → ∃ n p b, m = .gan n p b ∧ buildProjector w cfg = .ok (p, b)) := by
  unfold buildModule at h
  cases hm : buildModel w cfg with
  | error e => rw [hm] at h; exact absurd h (by simp)
  | ok model =>
    rw [hm] at h
    dsimp only at h
    cases hd : cfg.distortion with
    | false => rw [hd] at h; simp at h
    | true =>
      rw [hd, if_neg (by simp)] at h
      cases hg : cfg.discriminator with
      | false =>
        rw [hg, if_pos (by simp)] at h
        injection h with h
        subst h
        exact ⟨rfl, rfl, fun _ => ⟨_, rfl⟩, fun h => by cases h⟩
      | true =>
        rw [hg, if_neg (by simp)] at h
        cases hp : buildProjector w cfg with
        | error e => rw [hp] at h; simp at h
        | ok pb =>
          obtain ⟨p, b⟩ := pb
          rw [hp] at h
          injection h with h
          subst h
          exact ⟨rfl, rfl, fun h => (by cases h), fun _ => ⟨_, _, _, rfl, rfl⟩⟩

/-- **C108, the start.** A module that is built starts from the weights that the configuration names: those of its
construction if there is no section of pretrained weights, those of the file if there is a path, and those that the function of the
hub returns otherwise. -/
theorem C108_start (w : World W) (cfg : Cfg) (m : Module W) (h : buildModule w cfg = .ok m) :
    match cfg.pretrained with
    | none => m.model.weights = none
    | some ⟨none, path⟩ => ∃ file x, path = some file ∧ w.file file = some x ∧ m.model.weights = some x
    | some ⟨some name, _⟩ => ∃ z, (Zoo.callHub w.zooFits w.zoo w.net name none []).2 = .ok z ∧ m.model.weights = z.weights := by
  have hm := (buildModule_ok h).1
  unfold buildModel at hm
  cases hp : cfg.pretrained with
  | none =>
    rw [hp] at hm
    injection hm with hm
    rw [← hm]
    rfl
  | some p =>
    obtain ⟨hub, path⟩ := p
    rw [hp] at hm
    unfold configureAndLoad at hm
    cases hub with
    | none =>
      dsimp only at hm ⊢
      cases path with
      | none => simp at hm
      | some file =>
        rw [Option.bind_some] at hm
        cases hf : w.file file with
        | none => rw [hf] at hm; simp at hm
        | some x =>
          rw [hf] at hm
          dsimp only at hm
          split_ifs at hm
          injection hm with hm
          exact ⟨file, x, rfl, hf, by rw [← hm]⟩
    | some name =>
      dsimp only at hm ⊢
      cases hz : (Zoo.callHub w.zooFits w.zoo w.net name none []).2 with
      | error e => rw [hz] at hm; simp at hm
      | ok z =>
        rw [hz] at hm
        injection hm with hm
        refine ⟨z, rfl, ?_⟩
        rw [← hm]
        obtain ⟨a, x⟩ := z
        cases a <;> rfl

/-- **C108, the module.** A configuration without a loss is refused; a module is built with a discriminator exactly if the
configuration has one.  The architecture and the frozen parts of the autoencoder are those of the section `model`, if the
weights are not from the hub. -/
theorem C108_module_partial (w : World W) (cfg : Cfg) :
    (cfg.distortion = false → ∃ e, buildModule w cfg = .error e) ∧
    ∀ m, buildModule w cfg = .ok m →
      ((∃ n, m = .target n) ↔ cfg.discriminator = false) ∧
      ((∀ p, cfg.pretrained = some p → p.torchhub = none) →
        m.model.arch = .hific cfg.model.sizes ∧
        ∀ part, m.model.flags.requiresGrad part = false ↔ Asked cfg.model part) := by
  refine ⟨fun hd => ?_, fun m h => ⟨⟨?_, (buildModule_ok h).2.2.1⟩, fun hp => ?_⟩⟩
  · cases h : buildModule w cfg with
    | error e => exact ⟨e, rfl⟩
    | ok m =>
      have := (buildModule_ok h).2.1
      rw [hd] at this
      cases this
  · rintro ⟨n, rfl⟩
    cases hd : cfg.discriminator with
    | false => rfl
    | true =>
      obtain ⟨_, _, _, h', -⟩ := (buildModule_ok h).2.2.2 hd
      cases h'
  · have hm := (buildModule_ok h).1
    have key : m.model.arch = .hific cfg.model.sizes ∧
        m.model.flags = Hific.Flags.init cfg.model.freezeEncoder cfg.model.freezeBottleneck := by
      unfold buildModel at hm
      cases hpre : cfg.pretrained with
      | none =>
        rw [hpre] at hm
        injection hm with hm
        rw [← hm]
        exact ⟨rfl, rfl⟩
      | some p =>
        rw [hpre] at hm
        unfold configureAndLoad at hm
        dsimp only at hm
        rw [hp p hpre] at hm
        dsimp only at hm
        cases hf : p.path.bind w.file with
        | none => rw [hf] at hm; simp at hm
        | some x =>
          rw [hf] at hm
          dsimp only at hm
          split_ifs at hm
          injection hm with hm
          rw [← hm]
          exact ⟨rfl, rfl⟩
    refine ⟨key.1, fun part => ?_⟩
    rw [key.2]
    exact init_flags cfg.model part

section Training

variable [DecidableEq P]

/-- A parameter that is in no optimiser and takes no gradients keeps its value in every event. -/
theorem ganEvent_fixed (m : Module W) (net : Gan.Net P Img) (part : P → Hific.Part) (o : Gan.Opts P) (mc : Bool) (p : P)
    (h1 : p ∉ o.model) (h2 : p ∉ o.discriminator) (h3 : ∀ q, o.quantile = some q → p ∉ q) (s : Gan.State P) (e : Event Img) :
    (ganEvent m net part o mc s e).value p = s.value p := by
  cases e with
  | train mode => rfl
  | step batch =>
    have g : ∀ images s, (Gan.generatorPhase net o images s).1.value p = s.value p := fun images s => by
      simp [Gan.generatorPhase, Gan.runDiscriminator, Gan.setGradients, Gan.zeroGrad, Gan.backward, Gan.optStep, h1]
    have d : ∀ old f r s, (Gan.discriminatorPhase net o old f r s).1.value p = s.value p := fun old f r s => by
      unfold Gan.discriminatorPhase Gan.callWithContext
      cases net.conditional <;> simp [Gan.setGradients, Gan.zeroGrad, Gan.backward, Gan.optStep, h2]
    have q : ∀ s, (Gan.quantilePhase net o s).value p = s.value p := fun s => by
      unfold Gan.quantilePhase
      cases ho : o.quantile with
      | none => rfl
      | some q => simp [Gan.zeroGrad, Gan.backward, Gan.optStep, h3 q ho]
    show ((Gan.trainingStep net o mc batch s).1.getLastD s).value p = s.value p
    unfold Gan.trainingStep
    dsimp only
    rcases hg : Gan.generatorPhase net o (Gan.resample batch mc).1 s with ⟨s1, e1⟩
    have g1 : s1.value p = s.value p := by rw [← g (Gan.resample batch mc).1 s, hg]
    cases e1 with
    | some e => exact g1
    | none =>
      dsimp only
      rcases hd : Gan.discriminatorPhase net o s.value (Gan.resample batch mc).1 (Gan.resample batch mc).2 s1 with ⟨s2, e2⟩
      have d1 : s2.value p = s1.value p := by
        rw [← d s.value (Gan.resample batch mc).1 (Gan.resample batch mc).2 s1, hd]
      cases e2 with
      | some e => exact d1.trans g1
      | none => exact (q s2).trans (d1.trans g1)

theorem targetEvent_fixed (m : Module W) (net : Gan.Net P Img) (part : P → Hific.Part)
    (lossGrad : (P → ℝ) → List Img → P → ℝ) (o : List P × List P) (p : P) (h1 : p ∉ o.1) (h2 : p ∉ o.2) (s : Gan.State P)
    (e : Event Img) : (targetEvent m net part lossGrad o s e).value p = s.value p := by
  cases e with
  | train mode => rfl
  | step batch => simp [targetEvent, Gan.trainingStepTarget, Gan.zeroGrad, Gan.backward, Gan.optStep, h1, h2]

omit [DecidableEq P] in
theorem foldl_fixed {E : Type} (f : Gan.State P → E → Gan.State P) (p : P) (h : ∀ s e, (f s e).value p = s.value p)
    (es : List E) (s : Gan.State P) : (es.foldl f s).value p = s.value p := by
  induction es generalizing s with
  | nil => rfl
  | cons e es ih => rw [List.foldl_cons, ih, h]

/-- **C108, what holds: fine-tuning with a discriminator.** If the weights are not from the hub: through every history of training
steps and `train`/`eval` calls the parameters of the parts that the configuration freezes keep the values of the weights that
the module was built with; every other parameter of the autoencoder is given to an optimiser. -/
theorem C108_gan_partial (w : World W) (cfg : Cfg) (m : Module W) (h : buildModule w cfg = .ok m)
    (hp : ∀ p, cfg.pretrained = some p → p.torchhub = none) (net : Gan.Net P Img) (part : P → Hific.Part)
    (values : Option W → P → ℝ) (o : Gan.Opts P) (ho : Gan.configure net (m.start net part values) = .ok o) (mc : Bool)
    (events : List (Event Img)) (p : P) (hk : net.kind p ≠ .discriminator) :
    (Asked cfg.model (part p) →
      (events.foldl (ganEvent m net part o mc) (m.start net part values)).value p = values m.model.weights p) ∧
    (p ∈ net.params → ¬ Asked cfg.model (part p) → p ∈ o.model ∨ ∃ q, o.quantile = some q ∧ p ∈ q) := by
  obtain ⟨s1, s2, s3, s4, -⟩ := Gan.configure_spec net _ o ho
  have hflag := (((C108_module_partial w cfg).2 m h).2 hp).2 (part p)
  have hstart : (m.start net part values).requiresGrad p = m.model.flags.requiresGrad (part p) := if_neg hk
  constructor
  · intro ha
    have hf : (m.start net part values).requiresGrad p = false := by rw [hstart]; exact hflag.2 ha
    refine foldl_fixed _ p (fun s e => ganEvent_fixed m net part o mc p ?_ ?_ ?_ s e) events _
    · intro hx
      have := ((s1 p).1 hx).2.2
      rw [hf] at this
      cases this
    · exact fun hx => hk ((s2 p).1 hx).2
    · intro q hq hx
      have := ((s3 q hq p).1 hx).2.2
      rw [hf] at this
      cases this
  · intro hin ha
    have hf : (m.start net part values).requiresGrad p = true := by
      rw [hstart]
      cases hb : m.model.flags.requiresGrad (part p) with
      | true => rfl
      | false => exact absurd (hflag.1 hb) ha
    cases hkp : net.kind p with
    | discriminator => exact absurd hkp hk
    | model => exact Or.inl ((s1 p).2 ⟨hin, hkp, hf⟩)
    | quantile =>
      right
      cases hq : o.quantile with
      | none => have := s4 hq p hin hkp; rw [hf] at this; cases this
      | some q => exact ⟨q, rfl, (s3 q hq p).2 ⟨hin, hkp, hf⟩⟩

/-- **C108, what holds: fine-tuning without a discriminator.** The same. -/
theorem C108_target_partial (w : World W) (cfg : Cfg) (m : Module W) (h : buildModule w cfg = .ok m)
    (hp : ∀ p, cfg.pretrained = some p → p.torchhub = none) (net : Gan.Net P Img) (part : P → Hific.Part)
    (values : Option W → P → ℝ) (lossGrad : (P → ℝ) → List Img → P → ℝ) (o : List P × List P)
    (ho : Gan.configureTarget net (m.start net part values) = .ok o) (events : List (Event Img)) (p : P)
    (hk : net.kind p ≠ .discriminator) :
    (Asked cfg.model (part p) →
      (events.foldl (targetEvent m net part lossGrad o) (m.start net part values)).value p = values m.model.weights p) ∧
    (p ∈ net.params → ¬ Asked cfg.model (part p) → p ∈ o.1 ∨ p ∈ o.2) := by
  have hs : (∀ p, p ∈ o.1 ↔ p ∈ net.params ∧ net.kind p = .model ∧ (m.start net part values).requiresGrad p = true) ∧
      ∀ p, p ∈ o.2 ↔ p ∈ net.params ∧ net.kind p = .quantile ∧ (m.start net part values).requiresGrad p = true := by
    unfold Gan.configureTarget at ho
    dsimp only at ho
    split_ifs at ho
    injection ho with ho
    subst ho
    exact ⟨fun p => by simp, fun p => by simp⟩
  have hflag := (((C108_module_partial w cfg).2 m h).2 hp).2 (part p)
  have hstart : (m.start net part values).requiresGrad p = m.model.flags.requiresGrad (part p) := if_neg hk
  constructor
  · intro ha
    have hf : (m.start net part values).requiresGrad p = false := by rw [hstart]; exact hflag.2 ha
    refine foldl_fixed _ p (fun s e => targetEvent_fixed m net part lossGrad o p ?_ ?_ s e) events _
    · intro hx
      have := ((hs.1 p).1 hx).2.2
      rw [hf] at this
      cases this
    · intro hx
      have := ((hs.2 p).1 hx).2.2
      rw [hf] at this
      cases this
  · intro hin ha
    have hf : (m.start net part values).requiresGrad p = true := by
      rw [hstart]
      cases hb : m.model.flags.requiresGrad (part p) with
      | true => rfl
      | false => exact absurd (hflag.1 hb) ha
    cases hkp : net.kind p with
    | discriminator => exact absurd hkp hk
    | model => exact Or.inl ((hs.1 p).2 ⟨hin, hkp, hf⟩)
    | quantile => exact Or.inr ((hs.2 p).2 ⟨hin, hkp, hf⟩)

/-- **C108 is violated.** If the weights are from the hub, the section `model` of the configuration has no effect: not its sizes and
not its frozen parts.  Every parameter of the autoencoder is then given to an optimiser, and a parameter of the encoder is
updated by the first training step, although the configuration freezes the encoder. -/
theorem C108_violated (w : World W) (cfg : Cfg) (name : String) (path : Option String)
    (hp : cfg.pretrained = some ⟨some name, path⟩) :
    (∀ c, buildModule w { cfg with model := c } = buildModule w cfg) ∧
    ∀ m, buildModule w cfg = .ok m → ∀ (net : Gan.Net P Img) (part : P → Hific.Part) (values : Option W → P → ℝ) (o : Gan.Opts P),
      Gan.configure net (m.start net part values) = .ok o →
      (∀ p ∈ net.params, net.kind p ≠ .discriminator → p ∈ o.model ∨ ∃ q, o.quantile = some q ∧ p ∈ q) ∧
      ∀ (mc : Bool) (batch : List Img), net.conditional = true → ∀ p ∈ net.params, net.kind p = .model →
        let s := m.start net part values
        (ganEvent m net part o mc s (.step batch)).value p =
          net.update .model 0 (fun q => if q ∈ o.model then some (net.generatorGrad s.value (Gan.resample batch mc).1 q) else none)
            p (values m.model.weights p) := by
  refine ⟨fun c => ?_, fun m h net part values o ho => ?_⟩
  · unfold buildModule buildModel buildProjector
    dsimp only
    rw [hp]
    rfl
  · have hfl : ∀ q, m.model.flags.requiresGrad q = true := by
      have hm := (buildModule_ok h).1
      unfold buildModel at hm
      rw [hp] at hm
      unfold configureAndLoad at hm
      dsimp only at hm
      cases hz : (Zoo.callHub w.zooFits w.zoo w.net name none []).2 with
      | error e => rw [hz] at hm; simp at hm
      | ok z =>
        rw [hz] at hm
        injection hm with hm
        rw [← hm]
        obtain ⟨a, x⟩ := z
        cases a <;> exact fun q => rfl
    have hstart : ∀ p, (m.start net part values).requiresGrad p = true := fun p => by
      show (if net.kind p = .discriminator then true else m.model.flags.requiresGrad (part p)) = true
      rw [hfl, ite_self]
    obtain ⟨s1, s2, s3, s4, -⟩ := Gan.configure_spec net _ o ho
    refine ⟨fun p hin hk => ?_, fun mc batch hc p hin hk => ?_⟩
    · cases hkp : net.kind p with
      | discriminator => exact absurd hkp hk
      | model => exact Or.inl ((s1 p).2 ⟨hin, hkp, hstart p⟩)
      | quantile =>
        right
        cases hq : o.quantile with
        | none => have := s4 hq p hin hkp; rw [hstart p] at this; cases this
        | some q => exact ⟨q, rfl, (s3 q hq p).2 ⟨hin, hkp, hstart p⟩⟩
    · intro s
      have hmem : p ∈ o.model := (s1 p).2 ⟨hin, hk, hstart p⟩
      show (Gan.stepResult net o mc batch s).value p = _
      rw [Gan.stepResult_eq net o mc batch s hc]
      obtain ⟨q1, -⟩ := (Gan.C61_quantile net s (Gan.discriminatorPhase net o s.value (Gan.resample batch mc).1
        (Gan.resample batch mc).2 (Gan.generatorPhase net o (Gan.resample batch mc).1 s).1).1 o ho).1
      obtain ⟨-, ⟨d1, -⟩, -⟩ := Gan.C61_discriminator net s (Gan.generatorPhase net o (Gan.resample batch mc).1 s).1 o ho hc
        s.value (Gan.resample batch mc).1 (Gan.resample batch mc).2
      rw [(q1 p (by rw [hk]; decide)).1, (d1 p (by rw [hk]; decide)).1]
      exact ((Gan.C61_generator net s s o ho (Gan.resample batch mc).1).2.2.1 p hmem).2

end Training

/-- **C108, the projector.** The latent projector is used exactly if the configuration has one (and a discriminator); it has the
weights that the configuration names; after every history of `train`/`eval` calls it is in evaluation mode and takes no
gradients; and there is a warning exactly if no weights are named. -/
theorem C108_projector (w : World W) (cfg : Cfg) (n : Network W) (p : Option (Projector W)) (warned : Bool)
    (h : buildModule w cfg = .ok (.gan n p warned)) :
    (p.isSome = true ↔ cfg.latentProjector = true) ∧
    (warned = true ↔ cfg.latentProjector = true ∧ cfg.pretrainedLatent = none) ∧
    (∀ r, p = some r →
      match cfg.pretrainedLatent with
      | none => r.weights = none
      | some ⟨none, path⟩ => ∃ file x, path = some file ∧ w.file file = some x ∧ r.weights = some x
      | some ⟨some name, _⟩ => ∃ z, (Zoo.callHub w.zooFits w.zoo w.net name none []).2 = .ok z ∧ r.weights = z.weights) ∧
    ∀ (modes : List Bool), ∃ n' p' b', modes.foldl Module.train (.gan n p warned) = .gan n' p' b' ∧
      p'.isSome = p.isSome ∧
      ∀ r', p' = some r' → r'.training = false ∧ r'.requiresGrad = false ∧ p.map Projector.weights = some r'.weights := by
  have hd : cfg.discriminator = true := by
    cases hd : cfg.discriminator with
    | true => rfl
    | false =>
      obtain ⟨_, h'⟩ := (buildModule_ok h).2.2.1 hd
      cases h'
  obtain ⟨n0, p0, b0, he, hb⟩ := (buildModule_ok h).2.2.2 hd
  cases he
  have hclosed : (∀ r, p = some r → r.training = false ∧ r.requiresGrad = false) := by
    intro r hr
    subst hr
    unfold buildProjector at hb
    split_ifs at hb
    · cases hl : cfg.pretrainedLatent with
      | none => rw [hl] at hb; cases hb; exact ⟨rfl, rfl⟩
      | some q =>
        rw [hl] at hb
        dsimp only at hb
        split at hb
        · cases hb
        · cases hb; exact ⟨rfl, rfl⟩
    · cases hb
  refine ⟨?_, ?_, ?_, ?_⟩
  · unfold buildProjector at hb
    split_ifs at hb with hl
    · rw [hl]
      cases hq : cfg.pretrainedLatent with
      | none => rw [hq] at hb; cases hb; simp
      | some q =>
        rw [hq] at hb
        dsimp only at hb
        split at hb
        · cases hb
        · cases hb; simp
    · cases hb
      simp [hl]
  · unfold buildProjector at hb
    split_ifs at hb with hl
    · rw [hl]
      cases hq : cfg.pretrainedLatent with
      | none => rw [hq] at hb; cases hb; simp
      | some q =>
        rw [hq] at hb
        dsimp only at hb
        split at hb
        · cases hb
        · cases hb; simp
    · cases hb
      simp [hl]
  · intro r hr
    subst hr
    unfold buildProjector at hb
    split_ifs at hb with hl
    · cases hq : cfg.pretrainedLatent with
      | none => rw [hq] at hb; cases hb; rfl
      | some q =>
        obtain ⟨hub, path⟩ := q
        rw [hq] at hb
        dsimp only at hb
        unfold configureAndLoad at hb
        cases hub with
        | none =>
          dsimp only at hb ⊢
          cases path with
          | none => simp at hb
          | some file =>
            rw [Option.bind_some] at hb
            cases hf : w.file file with
            | none => rw [hf] at hb; simp at hb
            | some x =>
              rw [hf] at hb
              dsimp only at hb
              split_ifs at hb
              · cases hb
                exact ⟨file, x, rfl, hf, rfl⟩
        | some name =>
          dsimp only at hb ⊢
          cases hz : (Zoo.callHub w.zooFits w.zoo w.net name none []).2 with
          | error e => rw [hz] at hb; simp at hb
          | ok z =>
            rw [hz] at hb
            cases hb
            refine ⟨z, rfl, ?_⟩
            obtain ⟨a, x⟩ := z
            cases a <;> rfl
    · cases hb
  · intro modes
    have key : ∀ (modes : List Bool) (n : Network W) (p : Option (Projector W)),
        (∀ r, p = some r → r.training = false ∧ r.requiresGrad = false) →
        ∃ n' p' b', modes.foldl Module.train (.gan n p warned) = .gan n' p' b' ∧ p'.isSome = p.isSome ∧
          ∀ r', p' = some r' → r'.training = false ∧ r'.requiresGrad = false ∧ p.map Projector.weights = some r'.weights := by
      intro modes
      induction modes with
      | nil => exact fun n p hr => ⟨n, p, warned, rfl, rfl, fun r' hr' => ⟨(hr r' hr').1, (hr r' hr').2, by rw [hr']; rfl⟩⟩
      | cons b modes ih =>
        intro n p hr
        have hr2 : ∀ r, (p.map (·.train b)) = some r → r.training = false ∧ r.requiresGrad = false := by
          intro r hx
          cases p with
          | none => cases hx
          | some r0 => cases hx; exact ⟨rfl, (hr r0 rfl).2⟩
        obtain ⟨n', p', b', e1, e2, e3⟩ := ih { n with flags := n.flags.train b } _ hr2
        refine ⟨n', p', b', e1, by rw [e2, Option.isSome_map], fun r' hr' => ?_⟩
        obtain ⟨x1, x2, x3⟩ := e3 r' hr'
        refine ⟨x1, x2, ?_⟩
        rw [← x3, Option.map_map]
        rfl
    exact key modes n p hclosed

/-! ### Examples -/

/-- The configuration of the README for fine-tuning: encoder and bottleneck are to be frozen, both pretrained networks are from
the hub. -/
def readme : Cfg where
  model := ⟨.default, true, true⟩
  pretrained := some ⟨some "noganms_quality_3", none⟩
  distortion := true
  discriminator := true
  latentProjector := true
  pretrainedLatent := some ⟨some "msillm_vqvae_xcit_p8_ch64_cb1024_h8", none⟩

/-- The same with the weights in a file. -/
def readmeLocal : Cfg := { readme with pretrained := some ⟨none, some "model.ckpt"⟩ }

/-- A world in which everything is there: the autoencoder of the hub has the weights 5, that of the file the weights 7. -/
def world : World ℕ where
  zoo := ⟨fun _ => some 5, fun _ => none⟩
  net := .complete
  zooFits := fun _ _ => true
  file := fun f => if f = "model.ckpt" then some 7 else none
  fits := fun _ _ => true

theorem readme_built : ∃ m, buildModule world readme = .ok m ∧ m.model.weights = some 5 :=
  ⟨_, rfl, rfl⟩

theorem readmeLocal_built : ∃ m, buildModule world readmeLocal = .ok m ∧ m.model.weights = some 7 :=
  ⟨_, rfl, rfl⟩

/-- The parts of the four parameters of `Gan.exampleNet`: one of the encoder, one of the decoder, the quantiles, and one of the
discriminator. -/
def examplePart (p : Fin 4) : Hific.Part := if p = 0 then .encoder else if p = 1 then .decoder else .hyperBottleneck

/-- With the weights of a file, the hypotheses of C108 hold: the optimisers get the parameter of the decoder and that of the
discriminator. -/
example : ∃ m, buildModule world readmeLocal = .ok m ∧
    Gan.configure Gan.exampleNet (m.start Gan.exampleNet examplePart fun x _ => (x.getD 0 : ℕ)) = .ok ⟨[1], [3], none⟩ := by
  refine ⟨_, rfl, ?_⟩
  simp [Gan.configure, Gan.exampleNet, Module.start, examplePart, List.filter, Module.model, readme, readmeLocal, instantiate,
    Hific.Flags.init, Hific.Flags.fresh, Hific.Flags.freezeEncoder, Hific.Flags.freezeBottleneck, Hific.Part.coding]

/-- **C108 is violated by the command of the README.** It asks for a frozen encoder, and the first training step changes the
encoder. -/
theorem C108_violated_readme : Asked readme.model .encoder ∧ ∃ m o, buildModule world readme = .ok m ∧
    ∃ s, s = m.start Gan.exampleNet examplePart (fun x _ => (x.getD 0 : ℕ)) ∧ Gan.configure Gan.exampleNet s = .ok o ∧
      (ganEvent m Gan.exampleNet examplePart o true s (.step [1, 2])).value 0 ≠ s.value 0 := by
  obtain ⟨m, hm, hw⟩ := readme_built
  have ho : Gan.configure Gan.exampleNet (m.start Gan.exampleNet examplePart fun x _ => (x.getD 0 : ℕ)) =
      .ok ⟨[0, 1], [3], some [2]⟩ := by
    cases hm
    simp [Gan.configure, Gan.exampleNet, Module.start, examplePart, List.filter, Module.model, ofHub,
      Hific.Flags.init, Hific.Flags.fresh, Zoo.Family.arch]
  refine ⟨rfl, m, _, hm, _, rfl, ho, ?_⟩
  have h := ((C108_violated world readme "noganms_quality_3" none rfl).2 m hm Gan.exampleNet examplePart
    (fun x _ => (x.getD 0 : ℕ)) _ ho).2 true [1, 2] rfl 0 (by simp [Gan.exampleNet]) (by simp [Gan.exampleNet])
  rw [h]
  show Gan.exampleNet.update _ _ _ _ ((m.model.weights.getD 0 : ℕ) : ℝ) ≠ ((m.model.weights.getD 0 : ℕ) : ℝ)
  simp [Gan.exampleNet, Module.start, hw, Gan.resample]
  norm_num

end Verif.Train.Build
