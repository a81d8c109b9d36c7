import Verif.Train.VctRun
import Verif.Train.PropsSchedules
import Mathlib.Analysis.SpecialFunctions.Trigonometric.Bounds
import Mathlib.Analysis.Real.Pi.Bounds

/-!
# C117: the learning rate of a run of the video project

`stepRate c E n` is the rate of training step `n` of a run with epochs of `E` batches.  The configuration means: the
schedule is applied once every `freq` steps, `maxSteps / freq` times in all, and ends at its minimum, which is
a hundredth of the learning rate for `rampCosine`, a tenth for `warmUpCosine` and zero for `cosine`.
-/

namespace Verif.Train.VctRun

open Real

theorem Loop.run_eq {E freq : ℕ} (hE : 0 < E) (hf : 0 < freq) (n : ℕ) :
    (Loop.run E freq n).batchIdx = n % E ∧
      (Loop.run E freq n).applied = n / E * (E / freq) + n % E / freq := by
  induction n with
  | zero => simp [Loop.run]
  | succ n ih =>
    obtain ⟨h1, h2⟩ := ih
    have hlt := Nat.mod_lt n hE
    have key : (Loop.run E freq n).applied + (if (n % E + 1) % freq = 0 then 1 else 0) =
        n / E * (E / freq) + (n % E + 1) / freq := by
      rw [h2, Nat.succ_div]
      simp only [Nat.dvd_iff_mod_eq_zero]
      omega
    have hap : (if (n % E + 1) % freq = 0 then (Loop.run E freq n).applied + 1 else (Loop.run E freq n).applied) =
        n / E * (E / freq) + (n % E + 1) / freq := by
      rw [← key]; split <;> simp
    simp only [Loop.run, Loop.step, h1]
    rw [hap]
    by_cases hl : n % E + 1 = E
    · have e1 : (n + 1) % E = 0 := by
        rw [Nat.add_mod]
        rcases Nat.lt_or_ge 1 E with h | h
        · rw [Nat.mod_eq_of_lt h, hl, Nat.mod_self]
        · have : E = 1 := by omega
          subst this; simp [Nat.mod_one]
      have e2 : (n + 1) / E = n / E + 1 := by
        rw [Nat.succ_div, if_pos (Nat.dvd_of_mod_eq_zero e1)]
      rw [if_pos hl, e1, e2, hl]
      refine ⟨rfl, ?_⟩
      simp [Nat.add_mul]
    · have hlt' : n % E + 1 < E := by omega
      have e1 : (n + 1) % E = n % E + 1 := by
        rw [Nat.add_mod]
        rw [Nat.mod_eq_of_lt (show 1 < E by omega), Nat.mod_eq_of_lt hlt']
      have e2 : (n + 1) / E = n / E := by
        rw [Nat.succ_div, if_neg]
        · rfl
        · intro h
          have := Nat.mod_eq_zero_of_dvd h
          omega
      rw [if_neg hl, e1, e2]
      exact ⟨rfl, rfl⟩

/-- **C117, applications.** After `n` training steps with epochs of `E` batches the schedule has been applied once for
every `freq` batches *of each epoch*: the rest of an epoch is lost. -/
theorem C117_applied {E freq : ℕ} (hE : 0 < E) (hf : 0 < freq) (c : Config) (hc : c.freq = freq) (n : ℕ) :
    stepRate c E n = rateAt c (n / E * (E / freq) + n % E / freq) := by
  subst hc
  unfold stepRate
  rw [(Loop.run_eq hE hf n).2]

example : stepRate ⟨.exponential, 1, 3, 100⟩ 10 25 = some ((23 / 25) ^ 7) := by
  rw [C117_applied (by norm_num) (freq := 3) (by norm_num) _ rfl]
  simp [rateAt]

theorem applied_aligned {E freq n : ℕ} (hE : 0 < E) (hf : 0 < freq) (h : freq ∣ E ∨ n ≤ E) :
    n / E * (E / freq) + n % E / freq = n / freq := by
  rcases h with ⟨k, rfl⟩ | h
  · have hk : 0 < k := Nat.pos_of_mul_pos_left hE
    rw [Nat.mul_div_cancel_left k hf]
    conv_rhs => rw [← Nat.div_add_mod n (freq * k)]
    rw [mul_assoc, Nat.mul_add_div hf]
    ring
  · rcases Nat.lt_or_ge n E with h' | h'
    · rw [Nat.div_eq_of_lt h', Nat.mod_eq_of_lt h']; simp
    · have : n = E := le_antisymm h h'
      subst this
      rw [Nat.div_self hE, Nat.mod_self]; simp

/-- **C117, following the schedule: what holds.** If the number of batches of an epoch is a multiple of the frequency, or
in the first epoch, step `n` has the rate of the schedule after `n / freq` applications. -/
theorem C117_follow_partial (c : Config) {E n : ℕ} (hE : 0 < E) (hf : 0 < c.freq) (h : c.freq ∣ E ∨ n ≤ E) :
    stepRate c E n = rateAt c (n / c.freq) := by
  rw [C117_applied hE hf c rfl, applied_aligned hE hf h]

example : stepRate ⟨.exponential, 1, 2000, 1000000⟩ 60000 999999 = some ((23 / 25) ^ 499) := by
  rw [C117_follow_partial _ (by norm_num) (by norm_num) (Or.inl (by norm_num))]
  simp [rateAt]

/-- **C117, violated: short epochs.** With epochs of fewer batches than the frequency the schedule is never applied: the
rate of the first step remains for the whole run, and with the default schedule this is at most the learning rate over the
length of the ramp. -/
theorem C117_violated_epochs (c : Config) {E : ℕ} (hE : 0 < E) (hf : E < c.freq) :
    (∀ n, stepRate c E n = rateAt c 0) ∧
      (c.kind = .rampCosine → ∀ n x, stepRate c E n = some x → x ≤ c.lr / (c.maxSteps / c.freq / 20 : ℕ)) := by
  have h : ∀ n, stepRate c E n = rateAt c 0 := fun n => by
    have hlt : n % E < c.freq := (Nat.mod_lt n hE).trans hf
    rw [C117_applied hE (by omega) c rfl, Nat.div_eq_of_lt hf, Nat.div_eq_of_lt hlt]
    simp
  refine ⟨h, fun hk n x hx => ?_⟩
  rw [h] at hx
  simp only [rateAt, hk, pseudoEpochs, if_neg (show ¬ c.freq = 0 by omega), Option.bind_eq_bind, Option.bind_some,
    linearRampCosine, linearPart, Option.pure_def] at hx
  rcases hc : cosinePart (c.maxSteps / c.freq) (c.maxSteps / c.freq / 20) 0 (floorDiv c.lr 100) c.lr with _ | y
  · rw [hc] at hx; simp at hx
  · rw [hc] at hx
    simp only [Option.bind_some] at hx
    split at hx
    · simp at hx
    · simp only [Option.bind_some, Option.some.injEq] at hx
      rw [← hx]
      refine (min_le_right _ _).trans (le_of_eq ?_)
      simp

/-- The default configuration with a data set of 1000 batches trains a million steps with at most a 25th of the rate. -/
example (n : ℕ) (x : ℝ) (h : stepRate ⟨.rampCosine, 1 / 1000, 2000, 1000000⟩ 1000 n = some x) : x ≤ 1 / 25000 := by
  have := (C117_violated_epochs ⟨.rampCosine, 1 / 1000, 2000, 1000000⟩ (E := 1000) (by norm_num) (by norm_num)).2 rfl n x h
  norm_num at this ⊢
  exact this

theorem floorDiv_eq_zero {x : ℝ} {m : ℕ} (hm : 0 < m) (h0 : 0 ≤ x) (h : x < m) : floorDiv x m = 0 := by
  unfold floorDiv
  have hm' : (0 : ℝ) < m := by exact_mod_cast hm
  have : ⌊x / m⌋ = 0 := by
    rw [Int.floor_eq_zero_iff]
    exact ⟨div_nonneg h0 hm'.le, (div_lt_one hm').2 h⟩
  rw [this]; simp

theorem floorDiv_bounds {x : ℝ} (m : ℕ) (h0 : 0 ≤ x) : 0 ≤ floorDiv x m ∧ floorDiv x m ≤ x := by
  unfold floorDiv
  have hm : (0 : ℝ) ≤ m := Nat.cast_nonneg m
  refine ⟨by exact_mod_cast Int.floor_nonneg.2 (div_nonneg h0 hm), (Int.floor_le _).trans ?_⟩
  rcases Nat.eq_zero_or_pos m with rfl | h
  · simpa using h0
  · exact div_le_self h0 (by exact_mod_cast h)

/-- The rate of the annealing of torch, in closed form, over the horizon. -/
theorem cosineAnnealing_eq {T : ℕ} (base : ℝ) : ∀ {e : ℕ}, e ≤ T → (e = 0 ∨ 0 < T) →
    cosineAnnealing T base e = some (base * (1 + cos (π * e / T)) / 2)
  | 0, _, _ => by simp [cosineAnnealing]; ring
  | e + 1, h, _ => by
    have hT : 0 < T := by omega
    have hT' : (0 : ℝ) < T := by exact_mod_cast hT
    rw [cosineAnnealing, cosineAnnealing_eq base (e := e) (by omega) (Or.inr hT)]
    have hne : ¬ T = 0 := by omega
    have hmod : ¬ ((e : ℤ) - T) % (2 * T) = 0 := by
      intro h'
      obtain ⟨k, hk⟩ := Int.dvd_of_emod_eq_zero h'
      rcases lt_trichotomy k 0 with hk0 | hk0 | hk0
      · have : (2 * (T : ℤ)) * k ≤ (2 * T) * (-1) := by
          apply mul_le_mul_of_nonneg_left <;> omega
        omega
      · subst hk0; omega
      · have : (2 * (T : ℤ)) * 1 ≤ (2 * T) * k := by
          apply mul_le_mul_of_nonneg_left <;> omega
        omega
    have hpos : 0 < 1 + cos (π * e / T) := by
      have h1 : π * e / T < π := by
        rw [div_lt_iff₀ hT']
        exact mul_lt_mul_of_pos_left (by exact_mod_cast (show e < T by omega)) pi_pos
      have h2 : 0 ≤ π * e / T := by positivity
      have := cos_lt_cos_of_nonneg_of_le_pi h2 le_rfl h1
      rw [cos_pi] at this
      linarith
    simp only [hne, hmod, if_false, Option.bind_eq_bind, Option.bind_some, Option.pure_def]
    congr 1
    have : (1 + cos (π * (e : ℝ) / T)) ≠ 0 := hpos.ne'
    push_cast
    field_simp

/-- **C117, bounds.** Every run of at least twenty intervals has, at each of its steps, a rate between zero and the
configured learning rate, with every schedule and every epoch length. -/
theorem C117_bounds (c : Config) {E n : ℕ} (hE : 0 < E) (hf : 0 < c.freq) (hlr : 0 ≤ c.lr)
    (hsteps : 20 * c.freq ≤ c.maxSteps) (hn : n ≤ c.maxSteps) :
    ∃ x, stepRate c E n = some x ∧ 0 ≤ x ∧ x ≤ c.lr := by
  have hP : 20 ≤ c.maxSteps / c.freq := (Nat.le_div_iff_mul_le hf).2 hsteps
  set P := c.maxSteps / c.freq with hPd
  have hps : pseudoEpochs c = some P := by simp [pseudoEpochs, hf.ne', hPd]
  rw [C117_applied hE hf c rfl]
  have he : n / E * (E / c.freq) + n % E / c.freq ≤ c.maxSteps := by
    calc n / E * (E / c.freq) + n % E / c.freq ≤ n / E * E + n % E :=
          Nat.add_le_add (Nat.mul_le_mul_left _ (Nat.div_le_self _ _)) (Nat.div_le_self _ _)
      _ = n := Nat.div_add_mod' n E
      _ ≤ _ := hn
  generalize n / E * (E / c.freq) + n % E / c.freq = e at he ⊢
  obtain ⟨hb100, hb100'⟩ := floorDiv_bounds 100 hlr
  obtain ⟨hb10, hb10'⟩ := floorDiv_bounds 10 hlr
  unfold rateAt
  cases c.kind with
  | rampCosine =>
    simp only [hps, Option.bind_eq_bind, Option.bind_some]
    exact (C34_bounds P (P / 20) e hb100 hb100').1 (by omega) (by omega)
  | rampLinear =>
    simp only [hps, Option.bind_eq_bind, Option.bind_some]
    exact (C34_bounds P (P * 8 / 10) e le_rfl hlr).2.1 (by omega)
  | warmUpCosine =>
    simp only [hps, Option.bind_eq_bind, Option.bind_some]
    obtain ⟨x, h1, h2, h3⟩ := (C34_bounds P (P / 20) e hb10 hb10').2.2 (by omega)
    exact ⟨x, h1, hb10.trans h2, h3⟩
  | cosine =>
    have hpos : 0 < c.maxSteps := by omega
    refine ⟨_, cosineAnnealing_eq c.lr he (Or.inr hpos), ?_, ?_⟩
    · have := neg_one_le_cos (π * e / c.maxSteps)
      have : 0 ≤ 1 + cos (π * e / c.maxSteps) := by linarith
      positivity
    · have := cos_le_one (π * e / c.maxSteps)
      nlinarith
  | exponential =>
    refine ⟨_, rfl, by positivity, ?_⟩
    have : ((23 : ℝ) / 25) ^ e ≤ 1 := pow_le_one₀ (by norm_num) (by norm_num)
    nlinarith

example : ∃ x, stepRate ⟨.rampCosine, 1 / 1000, 2000, 1000000⟩ 16153 999999 = some x ∧ 0 ≤ x ∧ x ≤ 1 / 1000 :=
  C117_bounds _ (by norm_num) (by norm_num) (by norm_num) (by norm_num) (by norm_num)

/-- **C117, violated: short runs.** With the default schedule every run of fewer than twenty intervals (40000 steps by
default) raises ZeroDivisionError before its first step. -/
theorem C117_violated_short (c : Config) (hk : c.kind = .rampCosine) (hf : 0 < c.freq)
    (hsteps : c.maxSteps < 20 * c.freq) (E n : ℕ) : stepRate c E n = none := by
  have hP : c.maxSteps / c.freq / 20 = 0 := by
    rw [Nat.div_div_eq_div_mul]
    exact Nat.div_eq_of_lt (by omega)
  unfold stepRate rateAt
  simp only [hk, pseudoEpochs, hf.ne', if_false, Option.bind_eq_bind, Option.bind_some, linearRampCosine, linearPart, hP,
    if_true]
  cases cosinePart (c.maxSteps / c.freq) 0 (Loop.run E c.freq n).applied (floorDiv c.lr 100) c.lr <;> rfl

example : stepRate ⟨.rampCosine, 1 / 1000, 2000, 39999⟩ 60000 0 = none :=
  C117_violated_short _ rfl (by norm_num) (by norm_num) _ _

/-- **C117, violated: minimum.** With a learning rate below 100 (below 10 for the warm-up schedule) the minimum, configured
as `learning_rate // 100` (`// 10`), is not a hundredth (a tenth) of the learning rate but zero: during the whole last
interval of the run, `freq` steps, nothing is learned. -/
theorem C117_violated_minimum (c : Config) {E n : ℕ} (hE : 0 < E) (hf : 0 < c.freq) (hal : c.freq ∣ E ∨ c.maxSteps ≤ E)
    (hdiv : c.freq ∣ c.maxSteps) (hsteps : 20 * c.freq ≤ c.maxSteps) (hlr : 0 < c.lr)
    (hk : c.kind = .rampCosine ∧ c.lr < 100 ∨ c.kind = .warmUpCosine ∧ c.lr < 10)
    (hn : c.maxSteps - c.freq ≤ n) (hn' : n < c.maxSteps) :
    stepRate c E n = some 0 := by
  rw [C117_follow_partial c hE hf (hal.imp_right fun h => by omega)]
  obtain ⟨P, hP⟩ := hdiv
  have hP20 : 20 ≤ P := by
    rw [hP, mul_comm] at hsteps
    exact Nat.le_of_mul_le_mul_left hsteps hf
  have hdivP : c.maxSteps / c.freq = P := by rw [hP, Nat.mul_div_cancel_left _ hf]
  have he : n / c.freq = P - 1 := by
    obtain ⟨Q, rfl⟩ : ∃ Q, P = Q + 1 := ⟨P - 1, by omega⟩
    rw [hP, Nat.mul_add, Nat.mul_one] at hn hn'
    simp only [Nat.add_sub_cancel] at hn ⊢
    rw [Nat.div_eq_iff hf, mul_comm Q c.freq]
    omega
  rw [he]
  unfold rateAt
  rcases hk with ⟨hk, h100⟩ | ⟨hk, h10⟩
  · simp only [hk, pseudoEpochs, hf.ne', if_false, Option.bind_eq_bind, Option.bind_some, hdivP]
    rw [floorDiv_eq_zero (by norm_num) hlr.le (by exact_mod_cast h100)]
    exact ((C34_decay (T := P) (r := P / 20) (by omega) le_rfl hlr.le).2.2 (by omega)).2
  · simp only [hk, pseudoEpochs, hf.ne', if_false, Option.bind_eq_bind, Option.bind_some, hdivP]
    rw [floorDiv_eq_zero (by norm_num) hlr.le (by exact_mod_cast h10)]
    exact (C34_decay (T := P) (r := P / 20) (by omega) le_rfl hlr.le).2.1

/-- The default configuration: the steps from 998000 have rate zero. -/
example (n : ℕ) (h : 998000 ≤ n) (h' : n < 1000000) :
    stepRate ⟨.rampCosine, 1 / 1000, 2000, 1000000⟩ 60000 n = some 0 :=
  C117_violated_minimum _ (by norm_num) (by norm_num) (Or.inl (by norm_num)) (by norm_num) (by norm_num) (by norm_num)
    (Or.inl ⟨rfl, by norm_num⟩) h h'

/-- **C117, violated: cosine.** The cosine schedule does not come down to zero over the run: its horizon is the number of
training steps, but it is applied once every `freq` steps.  At every step of the run the rate is at least
`1 - (π / (2 freq))²` times the learning rate. -/
theorem C117_violated_cosine (c : Config) (hk : c.kind = .cosine) {E n : ℕ} (hE : 0 < E) (hf : 0 < c.freq)
    (hlr : 0 < c.lr) (hn : n ≤ c.maxSteps) :
    ∃ x, stepRate c E n = some x ∧ c.lr * (1 - (π / (2 * c.freq)) ^ 2) ≤ x := by
  rw [C117_applied hE hf c rfl]
  have hle : (n / E * (E / c.freq) + n % E / c.freq) * c.freq ≤ n := by
    rw [Nat.add_mul, Nat.mul_assoc]
    calc n / E * (E / c.freq * c.freq) + n % E / c.freq * c.freq ≤ n / E * E + n % E :=
          Nat.add_le_add (Nat.mul_le_mul_left _ (Nat.div_mul_le_self _ _)) (Nat.div_mul_le_self _ _)
      _ = n := Nat.div_add_mod' n E
  generalize n / E * (E / c.freq) + n % E / c.freq = e at hle ⊢
  have hef : e * c.freq ≤ c.maxSteps := hle.trans hn
  have he : e ≤ c.maxSteps := (Nat.le_mul_of_pos_right e hf).trans hef
  have hor : e = 0 ∨ 0 < c.maxSteps := by omega
  refine ⟨_, by unfold rateAt; rw [hk]; exact cosineAnnealing_eq c.lr he hor, ?_⟩
  have hc := one_sub_sq_div_two_le_cos (x := π * e / c.maxSteps)
  have hf' : (0 : ℝ) < c.freq := by exact_mod_cast hf
  have hx : π * e / c.maxSteps ≤ π / c.freq := by
    rcases hor with h | h
    · subst h; simp; positivity
    · have hT : (0 : ℝ) < c.maxSteps := by exact_mod_cast h
      rw [div_le_div_iff₀ hT hf', mul_assoc]
      exact mul_le_mul_of_nonneg_left (by exact_mod_cast hef) pi_pos.le
  have hx0 : 0 ≤ π * e / c.maxSteps := by positivity
  have hsq : (π * e / c.maxSteps) ^ 2 ≤ (π / c.freq) ^ 2 := pow_le_pow_left₀ hx0 hx 2
  have h4 : (π / (2 * (c.freq : ℝ))) ^ 2 = (π / c.freq) ^ 2 / 4 := by
    field_simp; ring
  rw [h4, mul_div_assoc]
  refine mul_le_mul_of_nonneg_left ?_ hlr.le
  linarith

/-- With the default frequency the rate never falls below 0.9999 of the learning rate. -/
example (E n : ℕ) (hE : 0 < E) (hn : n ≤ 1000000) :
    ∃ x, stepRate ⟨.cosine, 1, 2000, 1000000⟩ E n = some x ∧ 9999 / 10000 ≤ x := by
  obtain ⟨x, h, hx⟩ := C117_violated_cosine ⟨.cosine, 1, 2000, 1000000⟩ rfl hE (by norm_num) (by norm_num) hn
  refine ⟨x, h, le_trans ?_ hx⟩
  have : π / (2 * ((2000 : ℕ) : ℝ)) ≤ 1 / 1000 := by
    have := pi_lt_four
    rw [div_le_div_iff₀ (by norm_num) (by norm_num)]; push_cast; linarith
  have h0 : 0 ≤ π / (2 * ((2000 : ℕ) : ℝ)) := by positivity
  have := pow_le_pow_left₀ h0 this 2
  norm_num at this ⊢
  linarith

/-- **C117, ramp.** With the ramp-linear schedule, in the aligned case, the rate grows by equal amounts per interval over
the first 80% of the intervals and is the learning rate from then on. -/
theorem C117_ramp_partial (c : Config) (hk : c.kind = .rampLinear) {E n : ℕ} (hE : 0 < E) (hf : 0 < c.freq)
    (h : c.freq ∣ E ∨ n ≤ E) (hsteps : 2 * c.freq ≤ c.maxSteps) :
    let ramp := c.maxSteps / c.freq * 8 / 10
    stepRate c E n = some (if n / c.freq < ramp then c.lr * ((n / c.freq + 1 : ℕ) / ramp) else c.lr) := by
  have hP : 2 ≤ c.maxSteps / c.freq := (Nat.le_div_iff_mul_le hf).2 hsteps
  intro ramp
  have hr : ramp ≠ 0 := by simp only [ramp]; omega
  rw [C117_follow_partial c hE hf h]
  simp only [rateAt, hk, pseudoEpochs, hf.ne', if_false, Option.bind_eq_bind, Option.bind_some, linearRampLinear,
    Option.pure_def]
  rw [linearPart_eq hr]
  simp only [Option.bind_some]
  congr 1
  refine if_congr Iff.rfl ?_ rfl
  push_cast
  ring

example : stepRate ⟨.rampLinear, 1, 2000, 1000000⟩ 60000 399999 = some (1 / 2) := by
  rw [C117_ramp_partial _ rfl (by norm_num) (by norm_num) (Or.inl (by norm_num)) (by norm_num)]
  norm_num

end Verif.Train.VctRun
