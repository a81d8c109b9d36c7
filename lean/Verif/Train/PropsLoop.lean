import Verif.Train.Loop
import Verif.Train.PropsGan
import Verif.Train.PropsRate

/-!
C91: training steps.  The number of batches of a run, the learning-rate schedules and the rate schedules.
-/

namespace Verif.Train.Loop

open Verif.Train.Gan

variable {P Img : Type} [DecidableEq P]

/-! ### Optimiser steps of a batch -/

theorem ganStep_schedule (n : Net P Img) (o : Opts P) (mc : Bool) (data : ℕ → List Img) (hc : n.conditional = true)
    (j : ℕ) (s : State P) (k : Kind) :
    (ganStep n o mc data j s).schedule k =
      s.schedule k + (if k = .quantile ∧ o.quantile = none then 0 else 1) := by
  have e : ganStep n o mc data j s = stepResult n o mc (data j) s := rfl
  rw [e, stepResult_eq n o mc _ s hc]
  unfold quantilePhase discriminatorPhase generatorPhase callWithContext runDiscriminator
  rw [if_pos hc]
  cases ho : o.quantile <;> cases k <;> simp [optStep, backward, zeroGrad, setGradients]

theorem targetStep_schedule (n : Net P Img) (g : (P → ℝ) → List Img → P → ℝ) (o : List P × List P)
    (data : ℕ → List Img) (j : ℕ) (s : State P) (k : Kind) :
    (targetStep n g o data j s).schedule k = s.schedule k + (if k = .discriminator then 0 else 1) := by
  unfold targetStep trainingStepTarget
  cases k <;> simp [optStep, backward, zeroGrad]

theorem gan_after (n : Net P Img) (o : Opts P) (mc : Bool) (data : ℕ → List Img) (hc : n.conditional = true)
    (s : State P) (hs : ∀ k, s.schedule k = 0) (j : ℕ) (k : Kind) :
    (after (ganStep n o mc data) s j).schedule k = if k = .quantile ∧ o.quantile = none then 0 else j := by
  induction j with
  | zero => simp [after, hs]
  | succ j ih =>
    rw [after, ganStep_schedule n o mc data hc, ih]
    split_ifs <;> rfl

theorem target_after (n : Net P Img) (g : (P → ℝ) → List Img → P → ℝ) (o : List P × List P) (data : ℕ → List Img)
    (s : State P) (hs : ∀ k, s.schedule k = 0) (j : ℕ) (k : Kind) :
    (after (targetStep n g o data) s j).schedule k = if k = .discriminator then 0 else j := by
  induction j with
  | zero => simp [after, hs]
  | succ j ih =>
    rw [after, targetStep_schedule, ih]
    split_ifs <;> rfl

theorem gan_globalStep (n : Net P Img) (o : Opts P) (mc : Bool) (data : ℕ → List Img) (hc : n.conditional = true)
    (s : State P) (hs : ∀ k, s.schedule k = 0) (j : ℕ) :
    globalStep (after (ganStep n o mc data) s j) = numOpts o * j := by
  unfold globalStep numOpts
  simp only [gan_after n o mc data hc s hs]
  cases o.quantile <;> simp <;> omega

theorem target_globalStep (n : Net P Img) (g : (P → ℝ) → List Img → P → ℝ) (o : List P × List P)
    (data : ℕ → List Img) (s : State P) (hs : ∀ k, s.schedule k = 0) (j : ℕ) :
    globalStep (after (targetStep n g o data) s j) = numOptsTarget * j := by
  unfold globalStep numOptsTarget
  simp only [target_after n g o data s hs]
  simp
  omega

theorem numOpts_cases (o : Opts P) : numOpts o = 2 ∨ numOpts o = 3 := by
  unfold numOpts
  cases o.quantile
  · exact Or.inl rfl
  · exact Or.inr rfl

/-! ### The number of batches -/

theorem fit_iff {S : Type} (m c : ℕ) (hc : 0 < c) (gs : S → ℕ) (step : ℕ → S → S) (s : S)
    (h : ∀ j, gs (after step s j) = c * j) (k : ℕ) (t : S) :
    Fit (adjustedSteps m c) gs step 0 s k t ↔ k = m ∧ t = after step s m := by
  have hdone : ∀ j, Done (adjustedSteps m c) (gs (after step s j)) ↔ m ≤ j := by
    intro j
    unfold Done adjustedSteps
    rw [h j]
    constructor
    · rintro ⟨-, h2⟩
      have h3 : m * c ≤ c * j := by exact_mod_cast h2
      rw [Nat.mul_comm m c] at h3
      exact Nat.le_of_mul_le_mul_left h3 hc
    · intro h2
      have h3 : m * c ≤ c * j := by rw [Nat.mul_comm m c]; exact Nat.mul_le_mul_left c h2
      refine ⟨?_, by exact_mod_cast h3⟩
      have : (0 : ℤ) ≤ (m : ℤ) * c := by positivity
      omega
  have forward : ∀ j u, Fit (adjustedSteps m c) gs step j u k t → u = after step s j → j ≤ m →
      k = m ∧ t = after step s m := by
    intro j u hf
    induction hf with
    | stop j u hd =>
      intro hu hj
      subst hu
      have : j = m := le_antisymm hj ((hdone j).1 hd)
      subst this
      exact ⟨rfl, rfl⟩
    | batch j u k t hd _ ih =>
      intro hu hj
      subst hu
      have : ¬ m ≤ j := fun h' => hd ((hdone j).2 h')
      exact ih rfl (by omega)
  have backward : ∀ d j, j + d = m → Fit (adjustedSteps m c) gs step j (after step s j) m (after step s m) := by
    intro d
    induction d with
    | zero =>
      intro j hj
      have : j = m := by omega
      subst this
      exact Fit.stop j _ ((hdone j).2 le_rfl)
    | succ d ih =>
      intro j hj
      exact Fit.batch j _ m _ (fun h' => by have := (hdone j).1 h'; omega) (ih (j + 1) (by omega))
  constructor
  · intro hf
    exact forward 0 s hf rfl (Nat.zero_le m)
  · rintro ⟨rfl, rfl⟩
    exact backward k 0 (by omega)

/-- **C91, the number of batches with discriminator.** For every number of steps `m`, every supported configuration of
optimisers, every network and all data: the trainer is made, `fit` returns, and it returns after exactly `m` batches;
then every learning-rate schedule in use has advanced `m` times. -/
theorem C91_batches_gan_partial (n : Net P Img) (s0 s : State P) (o : Opts P) (_h : configure n s0 = .ok o)
    (hc : n.conditional = true) (mc : Bool) (data : ℕ → List Img) (hs : ∀ k, s.schedule k = 0) (m : ℕ) :
    ∃ steps, makeTrainer m (numOpts o) = .ok steps ∧
      (∀ k t, Fit steps globalStep (ganStep n o mc data) 0 s k t ↔ k = m ∧ t = after (ganStep n o mc data) s m) ∧
      (after (ganStep n o mc data) s m).schedule .model = m ∧
      (after (ganStep n o mc data) s m).schedule .discriminator = m ∧
      (o.quantile ≠ none → (after (ganStep n o mc data) s m).schedule .quantile = m) := by
  refine ⟨adjustedSteps m (numOpts o), ?_, fun k t => ?_, ?_, ?_, fun hq => ?_⟩
  · unfold makeTrainer
    have : (0 : ℤ) ≤ adjustedSteps m (numOpts o) := by unfold adjustedSteps; positivity
    dsimp only
    rw [if_neg (by omega)]
  · exact fit_iff m (numOpts o) (by rcases numOpts_cases o with h | h <;> omega) _ _ s
      (gan_globalStep n o mc data hc s hs) k t
  · rw [gan_after n o mc data hc s hs, if_neg (by simp)]
  · rw [gan_after n o mc data hc s hs, if_neg (by simp)]
  · rw [gan_after n o mc data hc s hs, if_neg (by simp [hq])]

/-- **C91, the number of batches without discriminator.** -/
theorem C91_batches_target_partial (n : Net P Img) (g : (P → ℝ) → List Img → P → ℝ) (s0 s : State P)
    (o : List P × List P) (_h : configureTarget n s0 = .ok o) (data : ℕ → List Img) (hs : ∀ k, s.schedule k = 0)
    (m : ℕ) :
    ∃ steps, makeTrainer m numOptsTarget = .ok steps ∧
      (∀ k t, Fit steps globalStep (targetStep n g o data) 0 s k t ↔ k = m ∧ t = after (targetStep n g o data) s m) ∧
      (after (targetStep n g o data) s m).schedule .model = m ∧
      (after (targetStep n g o data) s m).schedule .quantile = m := by
  refine ⟨adjustedSteps m numOptsTarget, ?_, fun k t => ?_, ?_, ?_⟩
  · unfold makeTrainer
    have : (0 : ℤ) ≤ adjustedSteps m numOptsTarget := by unfold adjustedSteps; positivity
    dsimp only
    rw [if_neg (by omega)]
  · exact fit_iff m numOptsTarget (by decide) _ _ s (target_globalStep n g o data s hs) k t
  · rw [target_after n g o data s hs, if_neg (by simp)]
  · rw [target_after n g o data s hs, if_neg (by simp)]

/-- **C91 is violated for unlimited training.** `max_steps = -1`, which means no limit, is multiplied as well: the
trainer cannot be made, with any configuration of optimisers. -/
theorem C91_violated_unlimited (o : Opts P) :
    makeTrainer (-1) (numOpts o) = .error .misconfiguration ∧ makeTrainer (-1) numOptsTarget = .error .misconfiguration := by
  refine ⟨?_, by decide⟩
  rcases numOpts_cases o with h | h <;> rw [h] <;> exact (by decide)

/-! ### The rate schedule -/

/-- The number of batches of `c` optimiser steps each that are needed for `s` optimiser steps. -/
def batchesFor (c : ℕ) (s : ℤ) : ℤ := ⌈(s : ℚ) / c⌉

theorem lt_batchesFor (c : ℕ) (hc : 0 < c) (s : ℤ) (j : ℕ) : ((c * j : ℕ) : ℤ) < s ↔ (j : ℤ) < batchesFor c s := by
  unfold batchesFor
  have hc' : (0 : ℚ) < c := by exact_mod_cast hc
  rw [Int.lt_ceil, lt_div_iff₀ hc']
  push_cast
  rw [mul_comm]
  constructor <;> intro h <;> exact_mod_cast h

theorem scheduled_scale (c : ℕ) (hc : 0 < c) (j : ℕ) (base : ℝ) (factors : List ℝ) (steps : List ℤ) :
    Rate.scheduled ((c * j : ℕ) : ℤ) base factors steps = Rate.scheduled j base factors (steps.map (batchesFor c)) := by
  have e : ∀ (fs : List ℝ) (ss : List ℤ), Rate.scheduledLoop ((c * j : ℕ) : ℤ) base (fs.zip ss) =
      Rate.scheduledLoop j base (fs.zip (ss.map (batchesFor c))) := by
    intro fs
    induction fs with
    | nil => intro ss; rfl
    | cons f fs ih =>
      intro ss
      cases ss with
      | nil => rfl
      | cons a ss =>
        have h := lt_batchesFor c hc a j
        simp only [List.zip_cons_cons, List.map_cons, Rate.scheduledLoop, ih ss]
        by_cases hlt : ((c * j : ℕ) : ℤ) < a
        · rw [if_pos hlt, if_pos (h.1 hlt)]
        · rw [if_neg hlt, if_neg (fun h' => hlt (h.2 h'))]
  unfold Rate.scheduled
  rw [e]

/-- **C91, what the rate schedule does, with discriminator.** In batch `j` the parameter is the one the schedule would
give at training step `j` if every scheduled step `s` were `⌈s / c⌉`, where `c` is 2 or 3, the number of optimisers. -/
theorem C91_switch_gan_partial (n : Net P Img) (s0 s : State P) (o : Opts P) (_h : configure n s0 = .ok o)
    (hc : n.conditional = true) (mc : Bool) (data : ℕ → List Img) (hs : ∀ k, s.schedule k = 0) (j : ℕ) (base : ℝ)
    (factors : List ℝ) (steps : List ℤ) :
    rateParam (after (ganStep n o mc data) s j) base factors steps =
      Rate.scheduled j base factors (steps.map (batchesFor (if o.quantile = none then 2 else 3))) := by
  have e : numOpts o = if o.quantile = none then 2 else 3 := by
    unfold numOpts
    cases o.quantile <;> simp
  rw [← e]
  unfold rateParam
  rw [gan_globalStep n o mc data hc s hs]
  exact scheduled_scale _ (by rcases numOpts_cases o with h | h <;> omega) j base factors steps

/-- **C91, what the rate schedule does, without discriminator.** -/
theorem C91_switch_target_partial (n : Net P Img) (g : (P → ℝ) → List Img → P → ℝ) (s0 s : State P)
    (o : List P × List P) (_h : configureTarget n s0 = .ok o) (data : ℕ → List Img) (hs : ∀ k, s.schedule k = 0)
    (j : ℕ) (base : ℝ) (factors : List ℝ) (steps : List ℤ) :
    rateParam (after (targetStep n g o data) s j) base factors steps =
      Rate.scheduled j base factors (steps.map (batchesFor 2)) := by
  unfold rateParam
  rw [target_globalStep n g o data s hs]
  exact scheduled_scale 2 (by decide) j base factors steps

theorem scheduled_one (t a : ℤ) (base f g : ℝ) :
    Rate.scheduled t base [f, g] [a] = .ok (if t < a then base * f else base * g) := by
  unfold Rate.scheduled
  simp only [List.zip_cons_cons, List.zip_nil_right, Rate.scheduledLoop]
  split_ifs <;> simp

/-- **C91 is violated.** For every network and all data: a schedule that is to change the target at training step
`a > 1` has changed it in an earlier batch (batch `a - 1`) already, with and without discriminator; and with the
schedule of the configurations in the repository (step 50000) training with discriminator changes it 8333 batches
before training without. -/
theorem C91_violated (n : Net P Img) (s0 s : State P) (hc : n.conditional = true) (mc : Bool) (data : ℕ → List Img)
    (hs : ∀ k, s.schedule k = 0) (g : (P → ℝ) → List Img → P → ℝ) (o : Opts P) (_h : configure n s0 = .ok o)
    (o' : List P × List P) (_h' : configureTarget n s0 = .ok o') (base f f' : ℝ) (hne : base * f ≠ base * f') (a : ℕ)
    (ha : 1 < a) :
    Rate.scheduled ((a - 1 : ℕ) : ℤ) base [f, f'] [(a : ℤ)] = .ok (base * f) ∧
      rateParam (after (ganStep n o mc data) s (a - 1)) base [f, f'] [(a : ℤ)] = .ok (base * f') ∧
      rateParam (after (targetStep n g o' data) s (a - 1)) base [f, f'] [(a : ℤ)] = .ok (base * f') ∧
      base * f ≠ base * f' ∧
      (o.quantile ≠ none → ∀ j, 16667 ≤ j → j < 25000 →
        rateParam (after (ganStep n o mc data) s j) base [f, f'] [50000] = .ok (base * f') ∧
        rateParam (after (targetStep n g o' data) s j) base [f, f'] [50000] = .ok (base * f)) := by
  have hn : 2 ≤ numOpts o := by rcases numOpts_cases o with h | h <;> omega
  refine ⟨?_, ?_, ?_, hne, fun hq j h1 h2 => ⟨?_, ?_⟩⟩
  · rw [scheduled_one, if_pos (by omega)]
  · unfold rateParam
    rw [gan_globalStep n o mc data hc s hs, scheduled_one, if_neg]
    have : 2 * (a - 1) ≤ numOpts o * (a - 1) := Nat.mul_le_mul_right _ hn
    omega
  · unfold rateParam
    rw [target_globalStep n g o' data s hs, scheduled_one, if_neg]
    unfold numOptsTarget
    omega
  · have e : numOpts o = 3 := by
      unfold numOpts
      cases ho : o.quantile with
      | none => exact absurd ho hq
      | some q => rfl
    unfold rateParam
    rw [gan_globalStep n o mc data hc s hs, scheduled_one, if_neg]
    rw [e]
    omega
  · unfold rateParam
    rw [target_globalStep n g o' data s hs, scheduled_one, if_pos]
    unfold numOptsTarget
    omega

/-- The hypotheses are met: a network with parameters of all kinds. -/
noncomputable def loopState : State (Fin 4) := ⟨fun _ => 1, fun _ => none, fun _ => true, fun _ => 0⟩

example : ∃ o o', configure exampleNet loopState = .ok o ∧ o.quantile ≠ none ∧
    configureTarget exampleNet loopState = .ok o' ∧ exampleNet.conditional = true ∧ (∀ k, loopState.schedule k = 0) := by
  refine ⟨⟨[0, 1], [3], some [2]⟩, ([0, 1], [2]), ?_, by simp, ?_, rfl, fun _ => rfl⟩
  · simp [configure, exampleNet, loopState, List.filter]
  · simp [configureTarget, exampleNet, loopState, List.filter]

/-- A schedule that changes twice, over three optimisers: batches 0 and 1, 2, and from 3 on. -/
example : [4, 7].map (batchesFor 3) = [2, 3] := by
  simp only [batchesFor, List.map_cons, List.map_nil]
  norm_num [Int.ceil_eq_iff]

end Verif.Train.Loop
