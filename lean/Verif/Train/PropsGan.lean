import Verif.Train.Gan
import Mathlib.Tactic.NormNum
import Mathlib.Tactic.Linarith

/-!
C61, C77, C80 and C81: training with a discriminator.
-/

namespace Verif.Train.Gan

variable {P Img : Type} [DecidableEq P]

/-! ### C61 -/

/-- **C61, the halves.** With Monte Carlo sampling the two half batches are equally large, and one after the other they
are the beginning of the batch (so no image is in both, unless the batch contains it twice); at most one image is
left out. -/
theorem C61_halves (images : List Img) :
    (resample images true).1.length = (resample images true).2.length ∧
      (∃ rest, images = (resample images true).1 ++ (resample images true).2 ++ rest ∧ rest.length ≤ 1) ∧
      (images.Nodup → (resample images true).1.Disjoint (resample images true).2) := by
  have e : images = (resample images true).1 ++ (resample images true).2 ++ images.drop (images.length / 2 * 2) := by
    show images = images.take (images.length / 2) ++ (images.take (images.length / 2 * 2)).drop (images.length / 2) ++ _
    have : images.take (images.length / 2) = (images.take (images.length / 2 * 2)).take (images.length / 2) := by
      rw [List.take_take, min_eq_left (by omega)]
    rw [this, List.take_append_drop, List.take_append_drop]
  refine ⟨?_, ⟨_, e, ?_⟩, fun h => ?_⟩
  · show (images.take (images.length / 2)).length = ((images.take (images.length / 2 * 2)).drop (images.length / 2)).length
    rw [List.length_take, List.length_drop, List.length_take]
    omega
  · rw [List.length_drop]
    omega
  · rw [e, List.append_assoc] at h
    have := (List.nodup_append.1 h).2.2
    exact fun x hx hy => this x hx x (List.mem_append_left _ hy) rfl

/-- Without sampling both steps get the whole batch. -/
theorem C61_whole (images : List Img) : resample images false = (images, images) := rfl

/-- **C61, boundary.** A batch of one image (for instance the last, incomplete one) gives two empty halves. -/
theorem C61_single (x : Img) : resample [x] true = ([], []) := by
  simp [resample]

/-- What the optimisers of `configure_optimizers` are: parameters of their kind, that took gradients at that time. -/
theorem configure_spec (n : Net P Img) (s : State P) (o : Opts P) (h : configure n s = .ok o) :
    (∀ p, p ∈ o.model ↔ p ∈ n.params ∧ n.kind p = .model ∧ s.requiresGrad p = true) ∧
    (∀ p, p ∈ o.discriminator ↔ p ∈ n.params ∧ n.kind p = .discriminator) ∧
    (∀ q, o.quantile = some q → ∀ p, p ∈ q ↔ p ∈ n.params ∧ n.kind p = .quantile ∧ s.requiresGrad p = true) ∧
    (o.quantile = none → ∀ p ∈ n.params, n.kind p = .quantile → s.requiresGrad p = false) ∧ o.model ≠ [] := by
  unfold configure at h
  dsimp only at h
  split_ifs at h with h1 h2 h3
  · injection h with h
    subst h
    refine ⟨fun p => by simp, fun p => by simp, fun q hq p => ?_, fun h' => (nomatch h'), h1⟩
    injection hq with hq
    subst hq
    simp
  · injection h with h
    subst h
    refine ⟨fun p => by simp, fun p => by simp, fun q hq => (nomatch hq), fun _ p hp hk => ?_, h1⟩
    by_contra hne
    rw [Bool.not_eq_false] at hne
    have hm : p ∈ n.params.filter fun p => n.kind p = .quantile ∧ s.requiresGrad p := by simp [hp, hk, hne]
    exact h3 (List.length_pos_of_mem hm)

/-- What a phase may do to the parameters: those outside the kind keep value and gradient, and the schedules of the
other kinds do not move. -/
def Touches (n : Net P Img) (k : Kind) (s s' : State P) : Prop :=
  (∀ p, n.kind p ≠ k → s'.value p = s.value p ∧ s'.grad p = s.grad p) ∧
    ∀ k', k' ≠ k → s'.schedule k' = s.schedule k'

/-- **C61, the generator step.** With the optimisers of the module, from every state (whatever flags and gradients
earlier steps left behind): parameters of the discriminator and the quantiles keep value and gradient; every parameter
of the model optimiser ends up with exactly the gradient of this loss, nothing accumulated, and is updated with it. -/
theorem C61_generator (n : Net P Img) (s0 s : State P) (o : Opts P) (h : configure n s0 = .ok o) (images : List Img) :
    (generatorPhase n o images s).2 = none ∧
    Touches n .model s (generatorPhase n o images s).1 ∧
    (∀ p ∈ o.model,
      (generatorPhase n o images s).1.grad p = some (n.generatorGrad s.value images p) ∧
      (generatorPhase n o images s).1.value p =
        n.update .model (s.schedule .model) (fun q => if q ∈ o.model then some (n.generatorGrad s.value images q) else none)
          p (s.value p)) ∧
    (generatorPhase n o images s).1.schedule .model = s.schedule .model + 1 := by
  obtain ⟨hm, hd, hq, -, -⟩ := configure_spec n s0 o h
  have hmodel : ∀ p ∈ o.model, (generatorPhase n o images s).1.grad p = some (n.generatorGrad s.value images p) := by
    intro p hp
    have h1 := (hm p).1 hp
    simp [generatorPhase, runDiscriminator, setGradients, zeroGrad, backward, optStep, hp, h1.1, h1.2.1]
  have hother : ∀ p, p ∉ o.model → (generatorPhase n o images s).1.value p = s.value p := by
    intro p hp
    simp [generatorPhase, runDiscriminator, setGradients, zeroGrad, backward, optStep, hp]
  refine ⟨rfl, ⟨fun p hp => ⟨hother p fun h' => hp ((hm p).1 h').2.1, ?_⟩, fun k' hk' => ?_⟩, fun p hp => ⟨hmodel p hp, ?_⟩, ?_⟩
  · have hnot : p ∉ o.model := fun h' => hp ((hm p).1 h').2.1
    show (if _ then _ else _) = _
    rw [if_neg]
    · simp [zeroGrad, hnot, setGradients]
    · rintro ⟨h1, h2, h3⟩
      simp only [List.mem_cons, List.not_mem_nil, or_false] at h1
      rcases h1 with h1 | h1
      · exact hp h1
      · have := (hd p).2 ⟨h3, h1⟩
        simp [zeroGrad, setGradients, hnot, this] at h2
  · simp [generatorPhase, runDiscriminator, optStep, backward, zeroGrad, setGradients, hk']
  · have hg : (fun q => if q ∈ o.model then (generatorPhase n o images s).1.grad q else none) =
        fun q => if q ∈ o.model then some (n.generatorGrad s.value images q) else none := by
      funext q
      split_ifs with hq'
      · exact hmodel q hq'
      · rfl
    rw [← hg]
    have h1 := (hm p).1 hp
    simp [generatorPhase, runDiscriminator, setGradients, zeroGrad, backward, optStep, hp, h1.1, h1.2.1]
  · simp [generatorPhase, runDiscriminator, optStep, backward, zeroGrad, setGradients]

/-- **C61, the discriminator step.** The same with the roles exchanged: parameters of the model and quantiles keep
value and gradient, every parameter of the discriminator has exactly the gradient of this loss and is updated with it. -/
theorem C61_discriminator (n : Net P Img) (s0 s : State P) (o : Opts P) (h : configure n s0 = .ok o)
    (hc : n.conditional = true) (old : P → ℝ) (fake real : List Img) :
    (discriminatorPhase n o old fake real s).2 = none ∧
    Touches n .discriminator s (discriminatorPhase n o old fake real s).1 ∧
    (∀ p ∈ n.params, n.kind p = .discriminator →
      (discriminatorPhase n o old fake real s).1.grad p = some (n.discriminatorGrad old s.value fake real p) ∧
      (discriminatorPhase n o old fake real s).1.value p =
        n.update .discriminator (s.schedule .discriminator)
          (fun q => if q ∈ o.discriminator then some (n.discriminatorGrad old s.value fake real q) else none)
          p (s.value p)) ∧
    (discriminatorPhase n o old fake real s).1.schedule .discriminator = s.schedule .discriminator + 1 := by
  obtain ⟨hm, hd, hq, -, -⟩ := configure_spec n s0 o h
  have hdisc : ∀ p ∈ o.discriminator, (discriminatorPhase n o old fake real s).1.grad p =
      some (n.discriminatorGrad old s.value fake real p) := by
    intro p hp
    have h1 := (hd p).1 hp
    simp [discriminatorPhase, callWithContext, hc, setGradients, zeroGrad, backward, optStep, hp, h1.1, h1.2]
  have hother : ∀ p, p ∉ o.discriminator → (discriminatorPhase n o old fake real s).1.value p = s.value p := by
    intro p hp
    simp [discriminatorPhase, callWithContext, hc, setGradients, zeroGrad, backward, optStep, hp]
  refine ⟨by simp [discriminatorPhase, callWithContext, hc],
    ⟨fun p hp => ⟨hother p fun h' => hp ((hd p).1 h').2, ?_⟩, fun k' hk' => ?_⟩,
    fun p hp hk => ⟨hdisc p ((hd p).2 ⟨hp, hk⟩), ?_⟩, ?_⟩
  · have hnot : p ∉ o.discriminator := fun h' => hp ((hd p).1 h').2
    simp [discriminatorPhase, callWithContext, hc, setGradients, zeroGrad, backward, optStep, hnot, hp]
  · simp [discriminatorPhase, callWithContext, hc, optStep, backward, zeroGrad, setGradients, hk']
  · have hg : (fun q => if q ∈ o.discriminator then (discriminatorPhase n o old fake real s).1.grad q else none) =
        fun q => if q ∈ o.discriminator then some (n.discriminatorGrad old s.value fake real q) else none := by
      funext q
      split_ifs with hq'
      · exact hdisc q hq'
      · rfl
    rw [← hg]
    have hp' := (hd p).2 ⟨hp, hk⟩
    simp [discriminatorPhase, callWithContext, hc, setGradients, zeroGrad, backward, optStep, hp, hp', hk]
  · simp [discriminatorPhase, callWithContext, hc, optStep, backward, zeroGrad, setGradients]

/-- **C61, the quantile step.** Only quantiles change. -/
theorem C61_quantile (n : Net P Img) (s0 s : State P) (o : Opts P) (h : configure n s0 = .ok o) :
    Touches n .quantile s (quantilePhase n o s) ∧ (quantilePhase n o s).requiresGrad = s.requiresGrad := by
  obtain ⟨hm, hd, hq, -, -⟩ := configure_spec n s0 o h
  unfold quantilePhase
  cases ho : o.quantile with
  | none => exact ⟨⟨fun p _ => ⟨rfl, rfl⟩, fun k _ => rfl⟩, rfl⟩
  | some q =>
    refine ⟨⟨fun p hp => ?_, fun k' hk' => ?_⟩, rfl⟩
    · have hnot : p ∉ q := fun h' => hp ((hq q ho p).1 h').2.1
      simp [zeroGrad, backward, optStep, hnot, hp]
    · simp [zeroGrad, backward, optStep, hk']

/-- **C61, the quantile step.** Every quantile that takes gradients ends up with exactly the gradient of the quantile loss,
nothing accumulated, and is updated with it. -/
theorem C61_quantile_update (n : Net P Img) (s0 s : State P) (o : Opts P) (h : configure n s0 = .ok o) (q : List P)
    (ho : o.quantile = some q) (hg : ∀ p ∈ q, s.requiresGrad p = true) :
    (∀ p ∈ q,
      (quantilePhase n o s).grad p = some (n.quantileGrad s.value p) ∧
      (quantilePhase n o s).value p =
        n.update .quantile (s.schedule .quantile) (fun r => if r ∈ q then some (n.quantileGrad s.value r) else none)
          p (s.value p)) ∧
    (quantilePhase n o s).schedule .quantile = s.schedule .quantile + 1 := by
  obtain ⟨-, -, hq, -, -⟩ := configure_spec n s0 o h
  have e : quantilePhase n o s = optStep n .quantile q (backward n [.quantile] (n.quantileGrad s.value) (zeroGrad q s)) := by
    unfold quantilePhase
    rw [ho]
    rfl
  have hgrad : ∀ p ∈ q, (backward n [.quantile] (n.quantileGrad s.value) (zeroGrad q s)).grad p =
      some (n.quantileGrad s.value p) := by
    intro p hp
    have h1 := (hq q ho p).1 hp
    simp [zeroGrad, backward, hp, h1.1, h1.2.1, hg p hp]
  rw [e]
  refine ⟨fun p hp => ⟨hgrad p hp, ?_⟩, by simp [optStep, backward, zeroGrad]⟩
  have hfun : (fun r => if r ∈ q then (backward n [.quantile] (n.quantileGrad s.value) (zeroGrad q s)).grad r else none) =
      fun r => if r ∈ q then some (n.quantileGrad s.value r) else none := by
    funext r
    by_cases hr : r ∈ q
    · rw [if_pos hr, if_pos hr, hgrad r hr]
    · rw [if_neg hr, if_neg hr]
  unfold optStep
  dsimp only
  rw [hfun, if_pos hp, hgrad p hp]
  rfl

/-- **C61.** In every run of training steps with a conditional discriminator, for every sequence of batches and every
initial state: no step raises, every step consists of three phases, and these change the model's, the discriminator's
and the quantiles' parameters only, in this order; each learning-rate schedule has advanced once per step. -/
theorem C61 (n : Net P Img) (o : Opts P) (s0 : State P) (h : configure n s0 = .ok o) (hc : n.conditional = true)
    (mc : Bool) (batches : List (List Img)) (s : State P) :
    (fit n o mc batches s).2 = none ∧ (fit n o mc batches s).1.length = batches.length ∧
    ∀ i phases, (fit n o mc batches s).1[i]? = some phases →
      ∃ start s1 s2 s3, phases = [s1, s2, s3] ∧
        (i = 0 → start = s) ∧ (∀ j prev, j + 1 = i → (fit n o mc batches s).1[j]? = some prev → prev.getLast? = some start) ∧
        Touches n .model start s1 ∧ Touches n .discriminator s1 s2 ∧ Touches n .quantile s2 s3 ∧
        s1.schedule .model = start.schedule .model + 1 ∧
        s2.schedule .discriminator = s1.schedule .discriminator + 1 ∧
        (o.quantile ≠ none → s3.schedule .quantile = s2.schedule .quantile + 1) := by
  induction batches generalizing s with
  | nil => exact ⟨rfl, rfl, fun i phases hi => by simp [fit] at hi⟩
  | cons b bs ih =>
    obtain ⟨g1, g2, -, g4⟩ := C61_generator n s0 s o h (resample b mc).1
    obtain ⟨d1, d2, -, d4⟩ := C61_discriminator n s0 (generatorPhase n o (resample b mc).1 s).1 o h hc s.value
      (resample b mc).1 (resample b mc).2
    have hq := (C61_quantile n s0 (discriminatorPhase n o s.value (resample b mc).1 (resample b mc).2
      (generatorPhase n o (resample b mc).1 s).1).1 o h).1
    set s1 := (generatorPhase n o (resample b mc).1 s).1 with hs1
    set s2 := (discriminatorPhase n o s.value (resample b mc).1 (resample b mc).2 s1).1 with hs2
    have et : trainingStep n o mc b s = ([s1, s2, quantilePhase n o s2], none) := by
      have e1 : generatorPhase n o (resample b mc).1 s = (s1, none) := Prod.ext rfl g1
      have e2 : discriminatorPhase n o s.value (resample b mc).1 (resample b mc).2 s1 = (s2, none) := Prod.ext rfl d1
      unfold trainingStep
      dsimp only
      rw [e1]
      dsimp only
      rw [e2]
    have ef : fit n o mc (b :: bs) s = ([s1, s2, quantilePhase n o s2] :: (fit n o mc bs (quantilePhase n o s2)).1,
        (fit n o mc bs (quantilePhase n o s2)).2) := by
      show (match trainingStep n o mc b s with
        | (phases, some e) => ([phases], some e)
        | (phases, none) => (phases :: (fit n o mc bs (phases.getLastD s)).1, (fit n o mc bs (phases.getLastD s)).2)) = _
      rw [et]
      rfl
    obtain ⟨i1, i2, i3⟩ := ih (quantilePhase n o s2)
    rw [ef]
    refine ⟨i1, by simp [i2], fun i phases hi => ?_⟩
    cases i with
    | zero =>
      simp only [List.getElem?_cons_zero, Option.some.injEq] at hi
      refine ⟨s, s1, s2, _, hi.symm, fun _ => rfl, fun j prev hj => by omega, g2, d2, hq, g4, d4, fun hne => ?_⟩
      unfold quantilePhase
      cases ho : o.quantile with
      | none => exact absurd ho hne
      | some q => simp [optStep, backward, zeroGrad]
    | succ i =>
      simp only [List.getElem?_cons_succ] at hi
      obtain ⟨start, t1, t2, t3, e, j1, j2, r⟩ := i3 i phases hi
      refine ⟨start, t1, t2, t3, e, fun h => by omega, fun j prev hj hp => ?_, r⟩
      have hji : j = i := by omega
      subst hji
      cases j with
      | zero =>
        simp only [List.getElem?_cons_zero, Option.some.injEq] at hp
        rw [← hp, j1 rfl]
        rfl
      | succ j =>
        simp only [List.getElem?_cons_succ] at hp
        exact j2 j prev rfl hp

/-! ### C77 -/

theorem generatorPhase_flags (n : Net P Img) (o : Opts P) (images : List Img) (s : State P) (p : P) :
    (generatorPhase n o images s).1.requiresGrad p =
      if p ∈ o.model then true else if p ∈ o.discriminator then false else s.requiresGrad p := by
  simp [generatorPhase, runDiscriminator, setGradients, zeroGrad, backward, optStep]

theorem discriminatorPhase_flags (n : Net P Img) (o : Opts P) (old : P → ℝ) (f r : List Img) (s : State P) (p : P) :
    (discriminatorPhase n o old f r s).1.requiresGrad p =
      if p ∈ o.discriminator then true else if p ∈ o.model then false else s.requiresGrad p := by
  unfold discriminatorPhase callWithContext
  cases n.conditional <;> simp [setGradients, zeroGrad, backward, optStep]

/-- The state after a training step: that of its last phase. -/
def stepResult (n : Net P Img) (o : Opts P) (mc : Bool) (batch : List Img) (s : State P) : State P :=
  (trainingStep n o mc batch s).1.getLastD s

theorem stepResult_eq (n : Net P Img) (o : Opts P) (mc : Bool) (batch : List Img) (s : State P)
    (hc : n.conditional = true) :
    stepResult n o mc batch s = quantilePhase n o (discriminatorPhase n o s.value (resample batch mc).1
      (resample batch mc).2 (generatorPhase n o (resample batch mc).1 s).1).1 := by
  unfold stepResult trainingStep
  have e1 : ∀ s, generatorPhase n o (resample batch mc).1 s = ((generatorPhase n o (resample batch mc).1 s).1, none) :=
    fun s => Prod.ext rfl rfl
  have e2 : ∀ s', discriminatorPhase n o s.value (resample batch mc).1 (resample batch mc).2 s' =
      ((discriminatorPhase n o s.value (resample batch mc).1 (resample batch mc).2 s').1, none) :=
    fun s' => Prod.ext rfl (by simp [discriminatorPhase, callWithContext, hc])
  dsimp only
  rw [e1]
  dsimp only
  rw [e2]
  rfl

theorem quantilePhase_flags (n : Net P Img) (o : Opts P) (s : State P) :
    (quantilePhase n o s).requiresGrad = s.requiresGrad := by
  unfold quantilePhase
  cases o.quantile <;> rfl

/-- After a training step: the flags. -/
theorem stepResult_flags (n : Net P Img) (o : Opts P) (mc : Bool) (batch : List Img) (s : State P)
    (hc : n.conditional = true) (p : P) :
    (stepResult n o mc batch s).requiresGrad p =
      if p ∈ o.discriminator then true else if p ∈ o.model then false else s.requiresGrad p := by
  rw [stepResult_eq n o mc batch s hc, quantilePhase_flags, discriminatorPhase_flags, generatorPhase_flags]
  split_ifs <;> rfl

/-- **C77 is violated.** For every model and every training step that succeeds, the model's parameters are left without
`requires_grad`; configuring optimisers again (as a second `fit` on the same module does) raises `ValueError`. -/
theorem C77_violated (n : Net P Img) (s : State P) (o : Opts P) (h : configure n s = .ok o) (hc : n.conditional = true)
    (mc : Bool) (batch : List Img) :
    (∀ p ∈ n.params, n.kind p = .model → (stepResult n o mc batch s).requiresGrad p = false) ∧
      configure n (stepResult n o mc batch s) = .error .value := by
  obtain ⟨hm, hd, -, -, -⟩ := configure_spec n s o h
  have key : ∀ p ∈ n.params, n.kind p = .model → (stepResult n o mc batch s).requiresGrad p = false := by
    intro p hp hk
    rw [stepResult_flags n o mc batch s hc, if_neg]
    · split_ifs with h1
      · rfl
      · by_contra hne
        exact h1 ((hm p).2 ⟨hp, hk, by simpa using hne⟩)
    · intro h'
      have := ((hd p).1 h').2
      rw [hk] at this
      exact absurd this (by decide)
  refine ⟨key, ?_⟩
  unfold configure
  dsimp only
  rw [if_pos]
  rw [List.filter_eq_nil_iff]
  intro p hp
  simp only [decide_eq_true_eq, not_and]
  intro hk
  rw [key p hp hk]
  simp

/-- **C77, what holds.** Within one run the model stays trainable: whatever happened before, during the generator step
all parameters of the model optimiser take gradients and are updated (C61_generator), and the quantiles' flags are
never changed. -/
theorem C77_partial (n : Net P Img) (s0 s : State P) (o : Opts P) (h : configure n s0 = .ok o)
    (hc : n.conditional = true) (mc : Bool) (batch : List Img) :
    (∀ p ∈ o.model, (generatorPhase n o (resample batch mc).1 s).1.requiresGrad p = true) ∧
      (∀ p, n.kind p = .quantile → (stepResult n o mc batch s).requiresGrad p = s.requiresGrad p) ∧
      ∀ p ∈ o.discriminator, (stepResult n o mc batch s).requiresGrad p = true := by
  obtain ⟨hm, hd, -, -, -⟩ := configure_spec n s0 o h
  refine ⟨fun p hp => ?_, fun p hp => ?_, fun p hp => ?_⟩
  · rw [generatorPhase_flags, if_pos hp]
  · rw [stepResult_flags n o mc batch s hc, if_neg, if_neg]
    · intro h'
      have := ((hm p).1 h').2.1
      rw [hp] at this
      exact absurd this (by decide)
    · intro h'
      have := ((hd p).1 h').2
      rw [hp] at this
      exact absurd this (by decide)
  · rw [stepResult_flags n o mc batch s hc, if_pos hp]

/-! ### C80 -/

/-- **C80 is violated, discriminators.** With a discriminator that takes no context (`is_conditional` is false),
every training step raises `TypeError` after the model was updated already, and every evaluation step raises. -/
theorem C80_violated (n : Net P Img) (s0 s : State P) (o : Opts P) (_h : configure n s0 = .ok o)
    (hc : n.conditional = false) (mc : Bool) (batch : List Img) :
    (trainingStep n o mc batch s).2 = some .type ∧ evalStep n = some .type ∧
      (∀ p, (stepResult n o mc batch s).value p = (generatorPhase n o (resample batch mc).1 s).1.value p) := by
  have e1 : ∀ s, generatorPhase n o (resample batch mc).1 s = ((generatorPhase n o (resample batch mc).1 s).1, none) :=
    fun s => Prod.ext rfl rfl
  have e2 : ∀ s', discriminatorPhase n o s.value (resample batch mc).1 (resample batch mc).2 s' =
      (setGradients o.discriminator true (setGradients o.model false s'), some .type) :=
    fun s' => by simp [discriminatorPhase, callWithContext, hc]
  have et : trainingStep n o mc batch s = ([(generatorPhase n o (resample batch mc).1 s).1,
      setGradients o.discriminator true (setGradients o.model false (generatorPhase n o (resample batch mc).1 s).1)],
      some .type) := by
    unfold trainingStep
    dsimp only
    rw [e1]
    dsimp only
    rw [e2]
  refine ⟨by rw [et], by simp [evalStep, callWithContext, hc], fun p => ?_⟩
  unfold stepResult
  rw [et]
  rfl

/-- **C80 is violated, frozen bottleneck.** Training without discriminator cannot be configured for a model whose
quantiles take no gradients, although training with discriminator can. -/
theorem C80_violated_frozen (n : Net P Img) (s : State P)
    (hf : ∀ p ∈ n.params, n.kind p = .quantile → s.requiresGrad p = false) :
    configureTarget n s = .error .value ∧
      ((∃ p ∈ n.params, n.kind p = .model ∧ s.requiresGrad p = true) → (∃ p ∈ n.params, n.kind p = .discriminator) →
        ∃ o, configure n s = .ok o ∧ o.quantile = none) := by
  have hq : (n.params.filter fun p => n.kind p = .quantile ∧ s.requiresGrad p) = [] := by
    rw [List.filter_eq_nil_iff]
    intro p hp
    simp only [decide_eq_true_eq, not_and]
    intro hk
    rw [hf p hp hk]
    simp
  constructor
  · unfold configureTarget
    dsimp only
    rw [hq]
    simp
  · rintro ⟨p, hp, hk, hg⟩ ⟨d, hd, hkd⟩
    unfold configure
    dsimp only
    rw [hq, if_neg, if_neg]
    · exact ⟨_, rfl, rfl⟩
    · intro h'
      rw [List.filter_eq_nil_iff] at h'
      exact h' d hd (by simp [hkd])
    · intro h'
      rw [List.filter_eq_nil_iff] at h'
      exact h' p hp (by simp [hk, hg])

/-- **C80, what holds.** With a conditional discriminator and a model with trainable parameters, configuring and every
training step succeed, with and without trainable quantiles. -/
theorem C80_partial (n : Net P Img) (s : State P) (hc : n.conditional = true)
    (hm : ∃ p ∈ n.params, n.kind p = .model ∧ s.requiresGrad p = true) (hd : ∃ p ∈ n.params, n.kind p = .discriminator) :
    ∃ o, configure n s = .ok o ∧ evalStep n = none ∧
      ∀ mc batches, (fit n o mc batches s).2 = none := by
  obtain ⟨p, hp, hk, hg⟩ := hm
  obtain ⟨d, hd, hkd⟩ := hd
  have : ∃ o, configure n s = .ok o := by
    unfold configure
    dsimp only
    rw [if_neg, if_neg]
    · split_ifs
      · exact ⟨_, rfl⟩
      · exact ⟨_, rfl⟩
    · intro h'
      rw [List.filter_eq_nil_iff] at h'
      exact h' d hd (by simp [hkd])
    · intro h'
      rw [List.filter_eq_nil_iff] at h'
      exact h' p hp (by simp [hk, hg])
  obtain ⟨o, ho⟩ := this
  exact ⟨o, ho, by simp [evalStep, callWithContext, hc], fun mc batches => (C61 n o s ho hc mc batches s).1⟩

/-! ### C81 -/

/-- The state after a run of training steps. -/
def afterFit (n : Net P Img) (o : Opts P) (mc : Bool) (batches : List (List Img)) (s : State P) : State P :=
  batches.foldl (fun s b => stepResult n o mc b s) s

/-- **C81, what holds.** Parameters of the model that took no gradients when the optimisers were made keep their value,
their gradient and their flag through every run of training steps. -/
theorem C81_partial (n : Net P Img) (s : State P) (o : Opts P) (h : configure n s = .ok o) (hc : n.conditional = true)
    (mc : Bool) (batches : List (List Img)) (p : P) (hk : n.kind p = .model) (hf : s.requiresGrad p = false) :
    (afterFit n o mc batches s).value p = s.value p ∧ (afterFit n o mc batches s).grad p = s.grad p ∧
      (afterFit n o mc batches s).requiresGrad p = false := by
  obtain ⟨hm, hd, hq, -, -⟩ := configure_spec n s o h
  have hnm : p ∉ o.model := fun h' => by
    have := ((hm p).1 h').2.2
    rw [hf] at this
    exact absurd this (by decide)
  have hnd : p ∉ o.discriminator := fun h' => by
    have := ((hd p).1 h').2
    rw [hk] at this
    exact absurd this (by decide)
  have key : ∀ (bs : List (List Img)) (t : State P), t.requiresGrad p = false →
      (afterFit n o mc bs t).value p = t.value p ∧ (afterFit n o mc bs t).grad p = t.grad p ∧
        (afterFit n o mc bs t).requiresGrad p = false := by
    intro bs
    induction bs with
    | nil => intro t ht; exact ⟨rfl, rfl, ht⟩
    | cons b bs ih =>
      intro t ht
      have hstep : (stepResult n o mc b t).value p = t.value p ∧ (stepResult n o mc b t).grad p = t.grad p ∧
          (stepResult n o mc b t).requiresGrad p = false := by
        refine ⟨?_, ?_, ?_⟩
        · rw [stepResult_eq n o mc b t hc]
          obtain ⟨q1, -⟩ := (C61_quantile n s (discriminatorPhase n o t.value (resample b mc).1 (resample b mc).2
            (generatorPhase n o (resample b mc).1 t).1).1 o h).1
          obtain ⟨-, ⟨d1, -⟩, -⟩ := C61_discriminator n s (generatorPhase n o (resample b mc).1 t).1 o h hc t.value
            (resample b mc).1 (resample b mc).2
          rw [(q1 p (by rw [hk]; decide)).1, (d1 p (by rw [hk]; decide)).1]
          simp [generatorPhase, runDiscriminator, setGradients, zeroGrad, backward, optStep, hnm]
        · rw [stepResult_eq n o mc b t hc]
          obtain ⟨q1, -⟩ := (C61_quantile n s (discriminatorPhase n o t.value (resample b mc).1 (resample b mc).2
            (generatorPhase n o (resample b mc).1 t).1).1 o h).1
          obtain ⟨-, ⟨d1, -⟩, -⟩ := C61_discriminator n s (generatorPhase n o (resample b mc).1 t).1 o h hc t.value
            (resample b mc).1 (resample b mc).2
          rw [(q1 p (by rw [hk]; decide)).2, (d1 p (by rw [hk]; decide)).2]
          simp [generatorPhase, runDiscriminator, setGradients, zeroGrad, backward, optStep, hnm, hnd, ht]
        · rw [stepResult_flags n o mc b t hc, if_neg hnd, if_neg hnm, ht]
      have := ih (stepResult n o mc b t) hstep.2.2
      exact ⟨this.1.trans hstep.1, this.2.1.trans hstep.2.1, this.2.2⟩
  exact key batches s hf

/-- **C81 is violated.** A part of the model that is frozen after the optimisers were made is unfrozen by the next
training step, which updates it with the gradient of the loss, whatever the part. -/
theorem C81_violated (n : Net P Img) (s : State P) (o : Opts P) (h : configure n s = .ok o) (part : List P)
    (images : List Img) (p : P) (hp : p ∈ part) (hm : p ∈ o.model) :
    (freeze part s).requiresGrad p = false ∧
      (generatorPhase n o images (freeze part s)).1.requiresGrad p = true ∧
      (generatorPhase n o images (freeze part s)).1.grad p = some (n.generatorGrad s.value images p) ∧
      (generatorPhase n o images (freeze part s)).1.value p =
        n.update .model (s.schedule .model)
          (fun q => if q ∈ o.model then some (n.generatorGrad s.value images q) else none) p (s.value p) := by
  refine ⟨by simp [freeze, setGradients, hp], by rw [generatorPhase_flags, if_pos hm], ?_⟩
  exact (C61_generator n s (freeze part s) o h images).2.2.1 p hm

/-- **C81, training without discriminator.** There a training step never changes which parameters take gradients, a
frozen parameter keeps its value and gradient whenever it was frozen, and each of the two steps changes its own kind of
parameter only. -/
theorem C81_target_partial (n : Net P Img) (g : (P → ℝ) → List Img → P → ℝ) (s0 s : State P) (o : List P × List P)
    (h : configureTarget n s0 = .ok o) (batch : List Img) :
    (trainingStepTarget n g o batch s).2.requiresGrad = s.requiresGrad ∧
      Touches n .model s (trainingStepTarget n g o batch s).1 ∧
      Touches n .quantile (trainingStepTarget n g o batch s).1 (trainingStepTarget n g o batch s).2 ∧
      ∀ p, s.requiresGrad p = false →
        (trainingStepTarget n g o batch s).2.value p = s.value p := by
  have hs : (∀ p, p ∈ o.1 ↔ p ∈ n.params ∧ n.kind p = .model ∧ s0.requiresGrad p = true) ∧
      ∀ p, p ∈ o.2 ↔ p ∈ n.params ∧ n.kind p = .quantile ∧ s0.requiresGrad p = true := by
    unfold configureTarget at h
    dsimp only at h
    split_ifs at h
    injection h with h
    subst h
    exact ⟨fun p => by simp, fun p => by simp⟩
  have hk1 : ∀ p ∈ o.1, n.kind p = .model := fun p hp => ((hs.1 p).1 hp).2.1
  have hk2 : ∀ p ∈ o.2, n.kind p = .quantile := fun p hp => ((hs.2 p).1 hp).2.1
  refine ⟨rfl, ⟨fun p hp => ?_, fun k' hk' => ?_⟩, ⟨fun p hp => ?_, fun k' hk' => ?_⟩, fun p hp => ?_⟩
  · have : p ∉ o.1 := fun h' => hp (hk1 p h')
    simp [trainingStepTarget, zeroGrad, backward, optStep, this, hp]
  · simp [trainingStepTarget, zeroGrad, backward, optStep, hk']
  · have : p ∉ o.2 := fun h' => hp (hk2 p h')
    simp [trainingStepTarget, zeroGrad, backward, optStep, this, hp]
  · simp [trainingStepTarget, zeroGrad, backward, optStep, hk']
  · have e1 : (trainingStepTarget n g o batch s).1.value p = s.value p := by
      by_cases h' : p ∈ o.1 <;> simp [trainingStepTarget, zeroGrad, backward, optStep, h', hp]
    rw [← e1]
    have er : (trainingStepTarget n g o batch s).1.requiresGrad p = false := hp
    by_cases h' : p ∈ o.2 <;>
      simp [trainingStepTarget, zeroGrad, backward, optStep, h', hp]

/-! ### Non-vacuity -/

/-- A model with a frozen and a trainable parameter, a quantile and a discriminator with one parameter. -/
noncomputable def exampleNet : Net (Fin 4) ℕ where
  params := [0, 1, 2, 3]
  kind := fun p => if p = 0 ∨ p = 1 then .model else if p = 2 then .quantile else .discriminator
  conditional := true
  generatorGrad := fun v images p => v p + images.length
  discriminatorGrad := fun _ v fake real p => v p + fake.length - real.length
  quantileGrad := fun v p => v p
  update := fun _ _ g p v => v - (g p).getD 0

/-- Its state: the first parameter is frozen, all values are one. -/
noncomputable def exampleState : State (Fin 4) := ⟨fun _ => 1, fun _ => none, fun p => p ≠ 0, fun _ => 0⟩

theorem exampleConfigure : configure exampleNet exampleState = .ok ⟨[1], [3], some [2]⟩ := by
  simp [configure, exampleNet, exampleState, List.filter]

/-- The hypotheses of C61, C77, C80 and C81 hold in the example. -/
example : ∃ o, configure exampleNet exampleState = .ok o ∧ exampleNet.conditional = true ∧
    (1 : Fin 4) ∈ o.model ∧ exampleNet.kind 0 = .model ∧ exampleState.requiresGrad 0 = false :=
  ⟨_, exampleConfigure, rfl, by simp, rfl, rfl⟩

/-- And the generator step changes the trainable parameter: with two of four images, from 1 to -2. -/
example : (generatorPhase exampleNet ⟨[1], [3], some [2]⟩ (resample [5, 6, 7, 8] true).1 exampleState).1.value 1 = -2 := by
  have := ((C61_generator exampleNet exampleState exampleState _ exampleConfigure (resample [5, 6, 7, 8] true).1).2.2.1 1
    (by simp)).2
  rw [this]
  norm_num [exampleNet, exampleState, resample]

example : resample [5, 6, 7, 8, 9] true = ([5, 6], [7, 8]) := rfl

end Verif.Train.Gan
