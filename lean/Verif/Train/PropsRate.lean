import Verif.Train.Rate
import Mathlib.Tactic.Linarith
import Mathlib.Tactic.NormNum
import Mathlib.Analysis.SpecialFunctions.Log.Base
import Mathlib.Algebra.BigOperators.Field
import Mathlib.Data.List.Sort

/-!
C60 and C82: scheduled rate targets and the rate loss.
-/

namespace Verif.Train.Rate

open scoped BigOperators

/-! ### C60 -/

/-- The stage of a schedule at a training step: the position of the first step not yet reached, or the number of
steps if all are reached. -/
def IsStage (globalStep : ℤ) (steps : List ℤ) (k : ℕ) : Prop :=
  (∀ i s, i < k → steps[i]? = some s → s ≤ globalStep) ∧
    ((∃ s, steps[k]? = some s ∧ globalStep < s) ∨ k = steps.length)

theorem isStage_exists (t : ℤ) (steps : List ℤ) : ∃ k, IsStage t steps k := by
  induction steps with
  | nil => exact ⟨0, fun i s h => absurd h (Nat.not_lt_zero i), Or.inr rfl⟩
  | cons a steps ih =>
    by_cases h : t < a
    · exact ⟨0, fun i s h => absurd h (Nat.not_lt_zero i), Or.inl ⟨a, rfl, h⟩⟩
    · obtain ⟨k, h1, h2⟩ := ih
      refine ⟨k + 1, fun i s hi hs => ?_, ?_⟩
      · cases i with
        | zero =>
          simp only [List.getElem?_cons_zero, Option.some.injEq] at hs
          omega
        | succ i => exact h1 i s (by omega) (by simpa using hs)
      · rcases h2 with ⟨s, hs, hlt⟩ | h2
        · exact Or.inl ⟨s, by simpa using hs, hlt⟩
        · exact Or.inr (by simp [h2])

theorem isStage_unique {t : ℤ} {steps : List ℤ} {k l : ℕ} (hk : IsStage t steps k) (hl : IsStage t steps l) : k = l := by
  have key : ∀ {k l : ℕ}, IsStage t steps k → IsStage t steps l → ¬ k < l := by
    intro k l hk hl hlt
    rcases hk.2 with ⟨s, hs, h⟩ | h
    · have := hl.1 k s hlt hs
      omega
    · rcases hl.2 with ⟨s, hs, -⟩ | h'
      · have := (List.getElem?_eq_some_iff.1 hs).1
        omega
      · omega
  have h1 := key hk hl
  have h2 := key hl hk
  omega

theorem scheduled_cons (t : ℤ) (base f a : ℝ) (s : ℤ) (fs : List ℝ) (ss : List ℤ) :
    scheduled t base (f :: a :: fs) (s :: ss) =
      if t < s then .ok (base * f) else scheduled t base (a :: fs) ss := by
  have e : scheduledLoop t base ((f :: a :: fs).zip (s :: ss)) =
      if t < s then some (base * f) else scheduledLoop t base ((a :: fs).zip ss) := rfl
  unfold scheduled
  rw [e, List.getLast?_cons_cons]
  split_ifs with h <;> rfl

/-- **C60, the value.** For every accepted configuration, at every training step, the scheduled parameter is the base
value times the factor of the current stage; there is exactly one stage, so this determines the value. -/
theorem C60_schedule (t : ℤ) (base : ℝ) (factors : List ℝ) (steps : List ℤ) (hlen : steps.length + 1 = factors.length) :
    ∃ k, IsStage t steps k ∧ (∀ l, IsStage t steps l → l = k) ∧
      ∃ f, factors[k]? = some f ∧ scheduled t base factors steps = .ok (base * f) := by
  obtain ⟨k, hk⟩ := isStage_exists t steps
  refine ⟨k, hk, fun l hl => isStage_unique hl hk, ?_⟩
  induction steps generalizing factors k with
  | nil =>
    obtain ⟨f, rfl⟩ := List.length_eq_one_iff.1 hlen.symm
    have : k = 0 := by
      rcases hk.2 with ⟨s, hs, -⟩ | h
      · simp at hs
      · simpa using h
    subst this
    exact ⟨f, rfl, rfl⟩
  | cons s ss ih =>
    match factors, hlen with
    | f :: a :: fs, hlen =>
      rw [scheduled_cons]
      by_cases h : t < s
      · have : k = 0 := isStage_unique hk ⟨fun i s h => absurd h (Nat.not_lt_zero i), Or.inl ⟨s, rfl, h⟩⟩
        subst this
        rw [if_pos h]
        exact ⟨f, rfl, rfl⟩
      · rw [if_neg h]
        cases k with
        | zero =>
          exfalso
          rcases hk.2 with ⟨s', hs, hlt⟩ | hk
          · simp only [List.getElem?_cons_zero, Option.some.injEq] at hs
            omega
          · simp at hk
        | succ k =>
          have hk' : IsStage t ss k := by
            refine ⟨fun i s hi hs => hk.1 (i + 1) s (by omega) (by simpa using hs), ?_⟩
            rcases hk.2 with ⟨s', hs, hlt⟩ | hk
            · exact Or.inl ⟨s', by simpa using hs, hlt⟩
            · exact Or.inr (by simpa using hk)
          obtain ⟨f', h1, h2⟩ := ih (a :: fs) (by simpa using hlen) k hk'
          exact ⟨f', by simpa using h1, h2⟩

/-- **C60, constant pieces.** Between two training steps with no scheduled step after the first and up to the second,
the parameter does not change. -/
theorem C60_piecewise (t t' : ℤ) (base : ℝ) (factors : List ℝ) (steps : List ℤ)
    (hlen : steps.length + 1 = factors.length) (h : ∀ s ∈ steps, t < s ↔ t' < s) :
    scheduled t base factors steps = scheduled t' base factors steps := by
  obtain ⟨k, hk, -, f, hf, e⟩ := C60_schedule t base factors steps hlen
  obtain ⟨k', hk', huniq, f', hf', e'⟩ := C60_schedule t' base factors steps hlen
  have : IsStage t' steps k := by
    refine ⟨fun i s hi hs => ?_, ?_⟩
    · have := hk.1 i s hi hs
      have := h s (List.mem_of_getElem? hs)
      omega
    · rcases hk.2 with ⟨s, hs, hlt⟩ | hk
      · exact Or.inl ⟨s, hs, (h s (List.mem_of_getElem? hs)).1 hlt⟩
      · exact Or.inr hk
  have := huniq k this
  subst this
  rw [hf] at hf'
  injection hf' with hf'
  rw [e, e', hf']

/-- **C60, configurations.** The constructor accepts exactly the configurations with one factor more than steps in
both schedules, and for them the rate loss is defined at every training step. -/
theorem C60_config (c : Config) :
    (c.init = .error .value ↔
      ¬ (c.targetFactors.length = c.targetSteps.length + 1 ∧ c.lam2Factors.length = c.lam2Steps.length + 1)) ∧
      (c.init = .ok c → ∀ (t : ℤ) (base : ℝ), (∃ r, scheduled t base c.targetFactors c.targetSteps = .ok r) ∧
        ∃ r, scheduled t base c.lam2Factors c.lam2Steps = .ok r) := by
  unfold Config.init
  by_cases h : c.targetSteps.length + 1 ≠ c.targetFactors.length ∨ c.lam2Steps.length + 1 ≠ c.lam2Factors.length
  · rw [if_pos h]
    refine ⟨⟨fun _ h' => ?_, fun _ => rfl⟩, fun h' => ?_⟩
    · omega
    · cases h'
  · rw [if_neg h]
    push Not at h
    refine ⟨⟨fun h' => (nomatch h'), fun h' => absurd (And.intro h.1.symm h.2.symm) h'⟩, fun _ t base => ⟨?_, ?_⟩⟩
    · obtain ⟨-, -, -, f, -, e⟩ := C60_schedule t base _ _ h.1
      exact ⟨_, e⟩
    · obtain ⟨-, -, -, f, -, e⟩ := C60_schedule t base _ _ h.2
      exact ⟨_, e⟩

/-- **C60, what a usable schedule is.** Every stage is used at some training step (from zero on) exactly if the steps
are positive and strictly increasing. -/
theorem C60_usable_partial (steps : List ℤ) :
    (∀ k ≤ steps.length, ∃ t : ℤ, 0 ≤ t ∧ IsStage t steps k) ↔ (0 :: steps).Pairwise (· < ·) := by
  constructor
  · intro h
    rw [List.pairwise_iff_getElem]
    intro i j hi hj hij
    simp only [List.length_cons] at hi hj
    obtain ⟨t, ht, h1, h2⟩ := h (j - 1) (by omega)
    obtain ⟨j, rfl⟩ : ∃ j', j = j' + 1 := ⟨j - 1, by omega⟩
    simp only [Nat.add_sub_cancel] at h1 h2
    have hlt : t < steps[j] := by
      rcases h2 with ⟨s, hs, hlt⟩ | h2
      · have := (List.getElem?_eq_some_iff.1 hs).2
        omega
      · omega
    rw [List.getElem_cons_succ]
    cases i with
    | zero => simp only [List.getElem_cons_zero]; omega
    | succ i =>
      rw [List.getElem_cons_succ]
      have := h1 i steps[i] (by omega) (List.getElem?_eq_getElem (by omega))
      omega
  · intro h k hk
    rw [List.pairwise_iff_getElem] at h
    by_cases hk0 : k = 0
    · subst hk0
      refine ⟨0, le_rfl, fun i s h => absurd h (Nat.not_lt_zero i), ?_⟩
      by_cases h0 : steps.length = 0
      · exact Or.inr h0.symm
      · have := h 0 1 (by simp) (by simp; omega) (by omega)
        exact Or.inl ⟨steps[0], List.getElem?_eq_getElem (by omega), this⟩
    · refine ⟨steps[k - 1], ?_, fun i s hi hs => ?_, ?_⟩
      · have := h 0 k (by simp) (by simp; omega) (by omega)
        rw [List.getElem_cons_zero] at this
        simp only [List.getElem_cons, hk0, dite_false] at this
        omega
      · obtain ⟨hi', rfl⟩ := List.getElem?_eq_some_iff.1 hs
        by_cases hik : i = k - 1
        · subst hik; exact le_rfl
        · have := h (i + 1) (k - 1 + 1) (by simp; omega) (by simp; omega) (by omega)
          simp only [List.getElem_cons_succ] at this
          omega
      · by_cases hkl : k = steps.length
        · exact Or.inr hkl
        · have := h (k - 1 + 1) (k + 1) (by simp; omega) (by simp; omega) (by omega)
          simp only [List.getElem_cons_succ] at this
          exact Or.inl ⟨steps[k], List.getElem?_eq_getElem (by omega), this⟩

/-- **C60 is violated** as far as unusable schedules have to be rejected: steps that are not increasing are accepted,
and then a factor is never used at any step. -/
theorem C60_violated :
    let c : Config := ⟨1, [3, 2, 1], [100, 50], (1, 2), [1], []⟩
    c.init = .ok c ∧ ∀ t : ℤ, scheduled t 1 c.targetFactors c.targetSteps ≠ .ok 2 := by
  intro c
  refine ⟨by unfold Config.init; rw [if_neg (by simp [c])], fun t => ?_⟩
  show scheduled t 1 [3, 2, 1] [100, 50] ≠ _
  rw [scheduled_cons, scheduled_cons]
  have e : scheduled t 1 [1] [] = .ok (1 * 1) := rfl
  rw [e]
  split_ifs
  · norm_num
  · omega
  · norm_num

/-- C60 is not vacuous: the schedule of the paper. -/
example : scheduled 10 0.14 [1.4, 1] [50000] = .ok (0.14 * 1.4) ∧ scheduled 50000 0.14 [1.4, 1] [50000] = .ok (0.14 * 1) := by
  constructor <;> rw [scheduled_cons]
  · rw [if_pos (by norm_num)]
  · rw [if_neg (by norm_num)]; rfl

/-! ### C82 -/

/-- **C82, bits.** The bits of an image are the sum of the ideal code lengths `log2 (1/p)` of its symbols; they are
not negative if the likelihoods lie between zero and one. -/
theorem C82_bits (p : List ℝ) :
    bits p = (p.map fun x => -Real.logb 2 x).sum ∧ ((∀ x ∈ p, 0 < x ∧ x ≤ 1) → 0 ≤ bits p) := by
  have e : bits p = (p.map fun x => -Real.logb 2 x).sum := by
    unfold bits Real.logb
    induction p with
    | nil => simp
    | cons a p ih =>
      rw [List.map_cons, List.map_cons, List.sum_cons, List.sum_cons, ← ih, add_div, div_neg]
  refine ⟨e, fun h => ?_⟩
  rw [e]
  apply List.sum_nonneg
  intro y hy
  obtain ⟨x, hx, rfl⟩ := List.mem_map.1 hy
  have := Real.logb_nonpos (b := 2) (by norm_num) (h x hx).1.le (h x hx).2
  linarith

theorem mean_add {B : ℕ} (f g : Fin B → ℝ) : mean (fun b => f b + g b) = mean f + mean g := by
  unfold mean
  rw [Finset.sum_add_distrib, add_div]

/-- The rate of an image that the documentation describes: bits of both latents per pixel. -/
noncomputable def rate (height width : ℕ) (latent hyper : List ℝ) : ℝ :=
  (bits latent + bits hyper) / ((height * width : ℕ) : ℝ)

/-- **C82.** For every configuration that is accepted, every training step and batch: the loss is defined; it is the
mean over the images of their noisy rate, weighted by the scheduled second lambda if the image's quantised rate is
above the scheduled target and by the first lambda otherwise; the logged totals are the sums of their parts. -/
theorem C82_loss {B : ℕ} (c : Config) (hc : c.init = .ok c) (t : ℤ) (height width : ℕ) (p : Fin B → Likelihoods) :
    ∃ o, rateLoss c t height width p = .ok o ∧
      scheduled t c.targetBpp c.targetFactors c.targetSteps = .ok o.target ∧
      scheduled t c.lamLevels.2 c.lam2Factors c.lam2Steps = .ok o.lam2 ∧
      (∃ lam : Fin B → ℝ,
        (∀ b, o.target < rate height width (p b).quantizedLatent (p b).quantizedHyper → lam b = o.lam2) ∧
        (∀ b, rate height width (p b).quantizedLatent (p b).quantizedHyper ≤ o.target → lam b = c.lamLevels.1) ∧
        o.rateLoss = (∑ b, lam b * rate height width (p b).latent (p b).hyper) / B) ∧
      o.totalBpp = (∑ b, rate height width (p b).latent (p b).hyper) / B ∧
      o.quantizedTotalBpp = (∑ b, rate height width (p b).quantizedLatent (p b).quantizedHyper) / B ∧
      o.totalBpp = o.latentBpp + o.hyperBpp ∧
      o.quantizedTotalBpp = o.quantizedLatentBpp + o.quantizedHyperBpp ∧
      o.latentBpp = (∑ b, rate height width (p b).latent []) / B ∧
      o.quantizedLatentBpp = (∑ b, rate height width (p b).quantizedLatent []) / B := by
  obtain ⟨h1, h2⟩ := (C60_config c).2 hc t c.targetBpp
  obtain ⟨target, ht⟩ := h1
  obtain ⟨lam2, hl⟩ := ((C60_config c).2 hc t c.lamLevels.2).2
  unfold rateLoss
  dsimp only [bind, Except.bind, pure, Except.pure]
  rw [ht, hl]
  refine ⟨_, rfl, rfl, rfl,
    ⟨fun b => open Classical in if bits (p b).quantizedLatent / ((height * width : ℕ) : ℝ) +
      bits (p b).quantizedHyper / ((height * width : ℕ) : ℝ) > target then lam2 else c.lamLevels.1,
      fun b hb => ?_, fun b hb => ?_, ?_⟩, ?_, ?_, ?_, ?_, ?_, ?_⟩
  · have : target < bits (p b).quantizedLatent / ((height * width : ℕ) : ℝ) +
        bits (p b).quantizedHyper / ((height * width : ℕ) : ℝ) := by
      rw [← add_div]; exact hb
    exact if_pos this
  · have : ¬ (target < bits (p b).quantizedLatent / ((height * width : ℕ) : ℝ) +
        bits (p b).quantizedHyper / ((height * width : ℕ) : ℝ)) := by
      rw [← add_div]; exact not_lt.2 hb
    exact if_neg this
  · simp only [mean, rate, add_div]
  · simp only [mean, rate, add_div]
  · simp only [mean, rate, add_div]
  · exact mean_add _ _
  · exact mean_add _ _
  · simp [mean, rate, bits]
  · simp [mean, rate, bits]

/-- **C82, sign.** With likelihoods between zero and one and non-negative lambdas the loss is not negative, and the
logged rates are not negative. -/
theorem C82_nonneg {B : ℕ} (c : Config) (hc : c.init = .ok c) (t : ℤ) (height width : ℕ) (p : Fin B → Likelihoods)
    (hp : ∀ b, ∀ x ∈ (p b).latent ++ (p b).hyper, 0 < x ∧ x ≤ 1) (h1 : 0 ≤ c.lamLevels.1) (o : Output)
    (ho : rateLoss c t height width p = .ok o) (h2 : 0 ≤ o.lam2) : 0 ≤ o.rateLoss ∧ 0 ≤ o.totalBpp := by
  obtain ⟨o', ho', -, -, ⟨lam, hlam1, hlam2, hr⟩, ht, -⟩ := C82_loss c hc t height width p
  rw [ho] at ho'
  injection ho' with ho'
  subst ho'
  have hrate : ∀ b, 0 ≤ rate height width (p b).latent (p b).hyper := fun b => by
    unfold rate
    refine div_nonneg (add_nonneg ?_ ?_) (Nat.cast_nonneg _)
    · exact (C82_bits _).2 fun x hx => hp b x (List.mem_append_left _ hx)
    · exact (C82_bits _).2 fun x hx => hp b x (List.mem_append_right _ hx)
  constructor
  · rw [hr]
    refine div_nonneg (Finset.sum_nonneg fun b _ => mul_nonneg ?_ (hrate b)) (Nat.cast_nonneg _)
    rcases lt_or_ge o.target (rate height width (p b).quantizedLatent (p b).quantizedHyper) with h | h
    · rw [hlam1 b h]; exact h2
    · rw [hlam2 b h]; exact h1
  · rw [ht]
    exact div_nonneg (Finset.sum_nonneg fun b _ => hrate b) (Nat.cast_nonneg _)

/-- C82 is not vacuous: one image with a rate of one bit per pixel, above the target. -/
example : bits [1 / 2, 1 / 2] = 2 := by
  rw [(C82_bits _).1]
  have : Real.logb 2 (1 / 2) = -1 := by
    rw [one_div, Real.logb_inv, Real.logb_self_eq_one (by norm_num)]
  simp only [List.map_cons, List.map_nil, List.sum_cons, List.sum_nil, this]
  norm_num

end Verif.Train.Rate
