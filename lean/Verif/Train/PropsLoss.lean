import Verif.Train.Loss
import Mathlib.Algebra.BigOperators.Field
import Mathlib.Analysis.SpecialFunctions.Log.Deriv
import Mathlib.Tactic.LinearCombination
import Mathlib.Tactic.Positivity

/-!
Properties of the loss functions: C85, C86.
-/

namespace Verif.Train.Loss

open scoped BigOperators

/-! ### C85 -/

/-- The logistic function, for the specification. -/
noncomputable def sigmoid (x : ℝ) : ℝ := 1 / (1 + Real.exp (-x))

theorem sigmoid_pos (x : ℝ) : 0 < sigmoid x := by unfold sigmoid; positivity

theorem sigmoid_lt_one (x : ℝ) : sigmoid x < 1 := by
  unfold sigmoid
  rw [div_lt_one (by positivity)]
  linarith [Real.exp_pos (-x)]

theorem one_sub_sigmoid (x : ℝ) : 1 - sigmoid x = sigmoid (-x) := by
  unfold sigmoid
  have h : Real.exp (-x) * Real.exp x = 1 := by rw [← Real.exp_add]; simp
  rw [neg_neg]
  have h1 : (1 + Real.exp (-x)) ≠ 0 := by positivity
  have h2 : (1 + Real.exp x) ≠ 0 := by positivity
  field_simp
  linear_combination h

/-- The stable formula: the softplus of `x`, minus `x t`. -/
theorem bce_softplus (x t : ℝ) : bce x t = Real.log (1 + Real.exp x) - x * t := by
  unfold bce
  have : max x 0 + Real.log (1 + Real.exp (-|x|)) = Real.log (1 + Real.exp x) := by
    rcases le_total 0 x with h | h
    · rw [max_eq_left h, abs_of_nonneg h]
      have e : 1 + Real.exp x = Real.exp x * (1 + Real.exp (-x)) := by
        rw [mul_add, ← Real.exp_add]; simp; ring
      rw [e, Real.log_mul (Real.exp_pos x).ne' (by positivity), Real.log_exp]
    · rw [max_eq_right h, abs_of_nonpos h, neg_neg, zero_add]
  linarith

/-- **C85, cross-entropy.** What torch computes for a logit is the cross-entropy of the target and the probability
that the logit stands for; it is not negative for targets between 0 and 1. -/
theorem C85_bce (x t : ℝ) :
    bce x t = -(t * Real.log (sigmoid x) + (1 - t) * Real.log (1 - sigmoid x)) ∧
      (0 ≤ t → t ≤ 1 → 0 ≤ bce x t) := by
  have h1 : Real.log (1 - sigmoid x) = -Real.log (1 + Real.exp x) := by
    rw [one_sub_sigmoid]
    unfold sigmoid
    rw [neg_neg, one_div, Real.log_inv]
  have h2 : Real.log (sigmoid x) = x - Real.log (1 + Real.exp x) := by
    unfold sigmoid
    rw [one_div, Real.log_inv]
    have e : 1 + Real.exp x = Real.exp x * (1 + Real.exp (-x)) := by
      rw [mul_add, ← Real.exp_add]; simp; ring
    rw [e, Real.log_mul (Real.exp_pos x).ne' (by positivity), Real.log_exp]
    ring
  refine ⟨?_, fun ht0 ht1 => ?_⟩
  · rw [bce_softplus, h1, h2]; ring
  · have e : bce x t = -(t * Real.log (sigmoid x) + (1 - t) * Real.log (1 - sigmoid x)) := by
      rw [bce_softplus, h1, h2]; ring
    rw [e]
    have l1 : Real.log (sigmoid x) ≤ 0 := Real.log_nonpos (sigmoid_pos x).le (sigmoid_lt_one x).le
    have l2 : Real.log (1 - sigmoid x) ≤ 0 := by
      rw [one_sub_sigmoid]
      exact Real.log_nonpos (sigmoid_pos _).le (sigmoid_lt_one _).le
    nlinarith

/-- **C85, losses.** For logits and targets of one shape the discriminator's loss is the mean cross-entropy of the
real logits with the target and of the fake logits with zero, averaged; the generator's is the one of its logits
with the target. -/
theorem C85_formula (real fake target : Tensor ℝ) (h0 : real.shape ≠ []) (h1 : real.shape = target.shape)
    (h2 : fake.shape = target.shape) :
    bceDiscriminator real fake target = .ok
      ((∑ i ∈ Finset.range target.numel, (bce (real.data i) (target.data i) + bce (fake.data i) 0) / 2) /
        target.numel) ∧
    bceGenerator real target = .ok
      ((∑ i ∈ Finset.range target.numel, bce (real.data i) (target.data i)) / target.numel) := by
  have he : expandTarget real target = .ok target := by
    unfold expandTarget
    rw [if_neg (by rw [← h1]; simpa using h0), if_neg (by rw [h1]; simp)]
  have hr : bceLoss real target = .ok
      ((∑ i ∈ Finset.range target.numel, bce (real.data i) (target.data i)) / target.numel) := by
    unfold bceLoss
    rw [if_neg (by simpa using h1)]
    unfold Tensor.mean Tensor.numel
    rw [h1]
  have hf : bceLoss fake ⟨target.shape, fun _ => 0⟩ = .ok
      ((∑ i ∈ Finset.range target.numel, bce (fake.data i) 0) / target.numel) := by
    unfold bceLoss
    rw [if_neg (by simpa using h2)]
    unfold Tensor.mean Tensor.numel
    rw [h2]
  constructor
  · unfold bceDiscriminator
    rw [he]
    dsimp only [bind, Except.bind]
    rw [hr, hf]
    show Except.ok _ = Except.ok _
    congr 1
    rw [← Finset.sum_div, Finset.sum_add_distrib]
    ring
  · unfold bceGenerator
    rw [he]
    dsimp only [bind, Except.bind]
    rw [hr]

/-- **C85, scalar targets.** A target without dimensions stands for a constant map. -/
theorem C85_scalar (real fake : Tensor ℝ) (t : ℝ) (h0 : real.shape ≠ []) :
    bceDiscriminator real fake ⟨[], fun _ => t⟩ = bceDiscriminator real fake ⟨real.shape, fun _ => t⟩ ∧
      bceGenerator real ⟨[], fun _ => t⟩ = bceGenerator real ⟨real.shape, fun _ => t⟩ := by
  have e : expandTarget real ⟨[], fun _ => t⟩ = expandTarget real ⟨real.shape, fun _ => t⟩ := by
    simp [expandTarget, h0]
  unfold bceDiscriminator bceGenerator
  rw [e]
  exact ⟨rfl, rfl⟩

/-- **C85, shapes.** Targets of another shape, and fake logits of another shape than the real ones, raise `ValueError`;
nothing is broadcast except a target without dimensions. -/
theorem C85_shapes (real fake target : Tensor ℝ) :
    ((∃ v, bceGenerator real target = .ok v) ↔ target.shape = [] ∨ target.shape = real.shape) ∧
    ((∃ v, bceDiscriminator real fake target = .ok v) ↔
      (target.shape = [] ∨ target.shape = real.shape) ∧ fake.shape = real.shape) ∧
    (∀ e, bceDiscriminator real fake target = .error e → e = .value) := by
  by_cases ht : target.shape = []
  · have he : expandTarget real target = .ok ⟨real.shape, fun _ => target.data 0 * 1⟩ := by
      unfold expandTarget; rw [if_pos (by rw [ht]; rfl)]
    refine ⟨?_, ?_, ?_⟩
    · simp [bceGenerator, he, bceLoss, ht, bind, Except.bind]
    · by_cases hf : fake.shape = real.shape <;>
        simp [bceDiscriminator, he, bceLoss, ht, hf, bind, Except.bind, pure, Except.pure]
    · intro e h
      by_cases hf : fake.shape = real.shape
      · simp [bceDiscriminator, he, bceLoss, hf, bind, Except.bind, pure, Except.pure] at h
      · simp [bceDiscriminator, he, bceLoss, hf, bind, Except.bind] at h
        exact h.symm
  · by_cases hl : target.shape.length = real.shape.length
    · have he : expandTarget real target = .ok target := by
        unfold expandTarget; rw [if_neg (by simpa using ht), if_neg (by simpa using hl)]
      by_cases hr : real.shape = target.shape
      · refine ⟨?_, ?_, ?_⟩
        · simp [bceGenerator, he, bceLoss, hr, bind, Except.bind]
        · by_cases hf : fake.shape = target.shape <;>
            simp [bceDiscriminator, he, bceLoss, hr, hf, bind, Except.bind, pure, Except.pure]
        · intro e h
          by_cases hf : fake.shape = target.shape
          · simp [bceDiscriminator, he, bceLoss, hr, hf, bind, Except.bind, pure, Except.pure] at h
          · simp [bceDiscriminator, he, bceLoss, hr, hf, bind, Except.bind] at h
            exact h.symm
      · have hr' : ¬ target.shape = real.shape := fun h => hr h.symm
        refine ⟨?_, ?_, ?_⟩
        · simp [bceGenerator, he, bceLoss, hr, hr', ht, bind, Except.bind]
        · simp [bceDiscriminator, he, bceLoss, hr, hr', ht, bind, Except.bind]
        · intro e h
          simp [bceDiscriminator, he, bceLoss, hr, bind, Except.bind] at h
          exact h.symm
    · have he : expandTarget real target = .error .value := by
        unfold expandTarget; rw [if_neg (by simpa using ht), if_pos hl]
      have hr' : ¬ target.shape = real.shape := fun h => hl (by rw [h])
      refine ⟨?_, ?_, ?_⟩
      · simp [bceGenerator, he, hr', ht, bind, Except.bind]
      · simp [bceDiscriminator, he, hr', ht, bind, Except.bind]
      · intro e h
        simp [bceDiscriminator, he, bind, Except.bind] at h
        exact h.symm

theorem log_two_le (x : ℝ) : Real.log 2 ≤ (bce x 1 + bce x 0) / 2 ∧ ((bce x 1 + bce x 0) / 2 = Real.log 2 ↔ x = 0) := by
  have e : (bce x 1 + bce x 0) / 2 = Real.log (1 + Real.exp x) - x / 2 := by
    rw [bce_softplus, bce_softplus]; ring
  have e2 : Real.log (1 + Real.exp x) - x / 2 = Real.log (Real.exp (x / 2) + Real.exp (-(x / 2))) := by
    have : 1 + Real.exp x = Real.exp (x / 2) * (Real.exp (x / 2) + Real.exp (-(x / 2))) := by
      rw [mul_add, ← Real.exp_add, ← Real.exp_add]
      simp
      rw [add_comm]
    rw [this, Real.log_mul (Real.exp_pos _).ne' (by positivity), Real.log_exp]
    ring
  have hab : Real.exp (x / 2) * Real.exp (-(x / 2)) = 1 := by rw [← Real.exp_add]; simp
  have h2 : 2 ≤ Real.exp (x / 2) + Real.exp (-(x / 2)) := by
    nlinarith [sq_nonneg (Real.exp (x / 2) - Real.exp (-(x / 2))), Real.exp_pos (x / 2), Real.exp_pos (-(x / 2))]
  rw [e, e2]
  refine ⟨Real.log_le_log (by norm_num) h2, fun h => ?_, fun h => ?_⟩
  · have h3 : Real.exp (x / 2) + Real.exp (-(x / 2)) = 2 :=
      Real.log_injOn_pos (Set.mem_Ioi.2 (by positivity)) (Set.mem_Ioi.2 (by norm_num)) h
    have h4 : (Real.exp (x / 2) - Real.exp (-(x / 2))) ^ 2 = 0 := by
      have : (Real.exp (x / 2) + Real.exp (-(x / 2))) ^ 2 = 4 := by rw [h3]; norm_num
      nlinarith
    have h5 : Real.exp (x / 2) = Real.exp (-(x / 2)) := by
      have := pow_eq_zero_iff (two_ne_zero) |>.1 h4
      linarith
    have := Real.exp_injective h5
    linarith
  · subst h
    norm_num

/-- **C85, chance level.** If real and fake logits are the same, the discriminator's loss with target one is at least
`log 2`, with equality exactly for logits zero everywhere. -/
theorem C85_chance (l : Tensor ℝ) (h0 : l.shape ≠ []) (hn : 0 < l.numel) :
    ∃ v, bceDiscriminator l l ⟨l.shape, fun _ => 1⟩ = .ok v ∧ Real.log 2 ≤ v ∧
      (v = Real.log 2 ↔ ∀ i < l.numel, l.data i = 0) := by
  refine ⟨_, (C85_formula l l ⟨l.shape, fun _ => 1⟩ h0 rfl rfl).1, ?_, ?_⟩
  · have hc : (0 : ℝ) < (Tensor.numel ⟨l.shape, fun _ : ℕ => (1 : ℝ)⟩ : ℕ) := by exact_mod_cast hn
    rw [le_div_iff₀ hc]
    calc Real.log 2 * _ = ∑ _i ∈ Finset.range l.numel, Real.log 2 := by
          rw [Finset.sum_const, Finset.card_range, nsmul_eq_mul, mul_comm]; rfl
      _ ≤ _ := Finset.sum_le_sum fun i _ => (log_two_le (l.data i)).1
  · have hc : (0 : ℝ) < (Tensor.numel ⟨l.shape, fun _ : ℕ => (1 : ℝ)⟩ : ℕ) := by exact_mod_cast hn
    rw [div_eq_iff hc.ne']
    have hs : Real.log 2 * (Tensor.numel ⟨l.shape, fun _ : ℕ => (1 : ℝ)⟩ : ℕ) =
        ∑ _i ∈ Finset.range l.numel, Real.log 2 := by
      rw [Finset.sum_const, Finset.card_range, nsmul_eq_mul, mul_comm]; rfl
    rw [hs]
    have := Finset.sum_eq_sum_iff_of_le (s := Finset.range l.numel) (f := fun _ => Real.log 2)
      (g := fun i => (bce (l.data i) 1 + bce (l.data i) 0) / 2) fun i _ => (log_two_le (l.data i)).1
    constructor
    · intro h i hi
      have := this.1 h.symm i (Finset.mem_range.2 hi)
      exact (log_two_le (l.data i)).2.1 this.symm
    · intro h
      refine (this.2 fun i hi => ?_).symm
      exact ((log_two_le (l.data i)).2.2 (h i (Finset.mem_range.1 hi))).symm

/-- **C85, generator.** With target one, raising any logit strictly lowers the generator's loss. -/
theorem C85_monotone (l l' : Tensor ℝ) (h0 : l.shape ≠ []) (hs : l'.shape = l.shape)
    (hle : ∀ i < l.numel, l.data i ≤ l'.data i) (hlt : ∃ i < l.numel, l.data i < l'.data i) :
    ∃ v v', bceGenerator l ⟨l.shape, fun _ => 1⟩ = .ok v ∧ bceGenerator l' ⟨l.shape, fun _ => 1⟩ = .ok v' ∧ v' < v := by
  have mono : ∀ x y : ℝ, x < y → bce y 1 < bce x 1 := by
    intro x y h
    rw [(C85_bce x 1).1, (C85_bce y 1).1]
    simp only [one_mul, sub_self, zero_mul, add_zero]
    have : Real.log (sigmoid x) < Real.log (sigmoid y) := by
      refine Real.log_lt_log (sigmoid_pos x) ?_
      unfold sigmoid
      have := Real.exp_lt_exp.2 (neg_lt_neg h)
      exact one_div_lt_one_div_of_lt (by positivity) (by linarith)
    linarith
  refine ⟨_, _, (C85_formula l l ⟨l.shape, fun _ => 1⟩ h0 rfl rfl).2,
    (C85_formula l' l' ⟨l.shape, fun _ => 1⟩ (hs ▸ h0) hs hs).2, ?_⟩
  obtain ⟨i, hi, hi'⟩ := hlt
  have hc : (0 : ℝ) < (Tensor.numel ⟨l.shape, fun _ : ℕ => (1 : ℝ)⟩ : ℕ) := by
    have : 0 < l.numel := by omega
    exact_mod_cast this
  rw [div_lt_div_iff_of_pos_right hc]
  refine Finset.sum_lt_sum (fun j hj => ?_) ⟨i, Finset.mem_range.2 hi, mono _ _ hi'⟩
  rcases (hle j (Finset.mem_range.1 hj)).lt_or_eq with h | h
  · exact (mono _ _ h).le
  · dsimp only
    rw [h]

/-- **C85, OASIS.** For a map of logits with the classes `0` (fake) and `1 … N`, labels `0 … N − 1`, and shapes that agree,
the discriminator's loss is the mean cross-entropy of the real logits with the labels plus one and of the fake logits with
class zero, averaged. -/
theorem C85_oasis (real fake : Logits) (t : Target) (hlong : t.long = true)
    (hr : real.batch * real.height * real.width = t.numel)
    (hs : fake.batch = real.batch ∧ fake.classes = real.classes ∧ fake.height = real.height ∧ fake.width = real.width)
    (hl : ∀ i < t.numel, 0 ≤ t.data i ∧ t.data i + 1 < real.classes) (hc : 0 < real.classes) :
    oasisDiscriminator real fake t = .ok (0.5 *
      ((∑ b ∈ Finset.range real.batch, ∑ p ∈ Finset.range (real.height * real.width),
        (crossEntropy real.classes (fun c => real.data b c p) ((t.data (b * (real.height * real.width) + p)).toNat + 1) +
          crossEntropy real.classes (fun c => fake.data b c p) 0)) / t.numel)) ∧
    oasisGenerator real t = .ok (
      (∑ b ∈ Finset.range real.batch, ∑ p ∈ Finset.range (real.height * real.width),
        crossEntropy real.classes (fun c => real.data b c p) ((t.data (b * (real.height * real.width) + p)).toNat + 1)) /
          t.numel) := by
  obtain ⟨s1, s2, s3, s4⟩ := hs
  have hidx : ∀ b < real.batch, ∀ p < real.height * real.width, b * (real.height * real.width) + p < t.numel := by
    intro b hb p hp
    have : (b + 1) * (real.height * real.width) ≤ real.batch * (real.height * real.width) := Nat.mul_le_mul_right _ hb
    rw [← hr, Nat.mul_assoc]
    rw [Nat.add_mul] at this
    omega
  have hv : verifyShape real t = .ok () := by unfold verifyShape; rw [if_neg (by simpa using hr)]
  have hv' : verifyShape fake t = .ok () := by
    unfold verifyShape; rw [s1, s3, s4, if_neg (by simpa using hr)]
  have hn : real.batch * (real.height * real.width) = t.numel := by rw [← hr, Nat.mul_assoc]
  have hone : ∀ b < real.batch, ∀ p < real.height * real.width,
      (t.data (b * (real.height * real.width) + p) + 1 = -100) = False := fun b hb p hp => by
    have := (hl _ (hidx b hb p hp)).1
    rw [eq_iff_iff, iff_false]
    omega
  have hce : crossEntropyLoss real (fun b p => t.view real b p + 1) = .ok (
      (∑ b ∈ Finset.range real.batch, ∑ p ∈ Finset.range (real.height * real.width),
        crossEntropy real.classes (fun c => real.data b c p) ((t.data (b * (real.height * real.width) + p)).toNat + 1)) /
          t.numel) := by
    unfold crossEntropyLoss Target.view
    rw [if_pos]
    · congr 2
      · refine Finset.sum_congr rfl fun b hb => Finset.sum_congr rfl fun p hp => ?_
        simp only [hone b (Finset.mem_range.1 hb) p (Finset.mem_range.1 hp), if_false]
        congr 1
        have := (hl _ (hidx b (Finset.mem_range.1 hb) p (Finset.mem_range.1 hp))).1
        omega
      · rw [← hn]
        congr 1
        rw [Finset.sum_congr rfl fun b hb => Finset.sum_congr rfl fun p hp => by
          rw [if_neg (by rw [hone b (Finset.mem_range.1 hb) p (Finset.mem_range.1 hp)]; exact not_false)]]
        simp
    · intro b hb p hp
      have := hl _ (hidx b hb p hp)
      dsimp only
      omega
  have hfe : crossEntropyLoss fake (fun _ _ => 0) = .ok (
      (∑ b ∈ Finset.range real.batch, ∑ p ∈ Finset.range (real.height * real.width),
        crossEntropy real.classes (fun c => fake.data b c p) 0) / t.numel) := by
    unfold crossEntropyLoss
    rw [if_pos, s1, s2, s3, s4, ← hn]
    · simp
    · intro b _ p _
      rw [s2]
      exact .inr ⟨le_rfl, Int.natCast_pos.2 hc⟩
  constructor
  · unfold oasisDiscriminator
    rw [hv, hv', hlong]
    dsimp only [bind, Except.bind]
    rw [if_neg (by simp), hce, hfe]
    show Except.ok _ = Except.ok _
    congr 2
    rw [← add_div, ← Finset.sum_add_distrib]
    congr 1
    exact Finset.sum_congr rfl fun b _ => Finset.sum_add_distrib.symm
  · unfold oasisGenerator
    rw [hv, hlong]
    dsimp only [bind, Except.bind]
    rw [if_neg (by simp), hce]

/-- **C85, OASIS errors.** Targets of another number of elements or another type raise `ValueError`, and labels outside
`-1 … N − 1` raise `IndexError`, except -101 (see `C85_oasis_ignored`). -/
theorem C85_oasis_rejects (l fake : Logits) (t : Target) :
    (l.batch * l.height * l.width ≠ t.numel ∨ t.long = false →
      oasisGenerator l t = .error .value ∧ oasisDiscriminator l fake t = .error .value) ∧
    (l.batch * l.height * l.width = t.numel → t.long = true →
      (∃ b < l.batch, ∃ p < l.height * l.width, t.data (b * (l.height * l.width) + p) ≠ -101 ∧
        (t.data (b * (l.height * l.width) + p) < -1 ∨ (l.classes : ℤ) ≤ t.data (b * (l.height * l.width) + p) + 1)) →
      oasisGenerator l t = .error .index) := by
  refine ⟨fun h => ?_, fun h1 h2 ⟨b, hb, p, hp, h⟩ => ?_⟩
  · by_cases hn : l.batch * l.height * l.width = t.numel
    · have hlong : t.long = false := h.resolve_left (by simpa using hn)
      have hv : verifyShape l t = .ok () := by unfold verifyShape; rw [if_neg (by simpa using hn)]
      constructor
      · unfold oasisGenerator
        rw [hv, hlong]
        rfl
      · unfold oasisDiscriminator
        rw [hv, hlong]
        dsimp only [bind, Except.bind]
        unfold verifyShape
        by_cases hf : fake.batch * fake.height * fake.width = t.numel
        · rw [if_neg (not_not.2 hf)]; rfl
        · rw [if_pos hf]
    · have hv : verifyShape l t = .error .value := by unfold verifyShape; rw [if_pos hn]
      constructor
      · unfold oasisGenerator; rw [hv]; rfl
      · unfold oasisDiscriminator; rw [hv]; rfl
  · have hv : verifyShape l t = .ok () := by unfold verifyShape; rw [if_neg (by simpa using h1)]
    unfold oasisGenerator
    rw [hv, h2]
    dsimp only [bind, Except.bind]
    rw [if_neg (by simp)]
    unfold crossEntropyLoss Target.view
    rw [if_neg]
    intro hall
    have := hall b hb p hp
    dsimp only at this
    omega

/-- **C85, ignored labels.** Any number of wrong labels -101 is not noticed: the positions are left out of the loss. -/
theorem C85_oasis_ignored (l : Logits) (t : Target) (hlong : t.long = true)
    (hr : l.batch * l.height * l.width = t.numel)
    (hl : ∀ b < l.batch, ∀ p < l.height * l.width, t.data (b * (l.height * l.width) + p) = -101 ∨
      0 ≤ t.data (b * (l.height * l.width) + p) ∧ t.data (b * (l.height * l.width) + p) + 1 < l.classes) :
    oasisGenerator l t = .ok (
      (∑ b ∈ Finset.range l.batch,
        ∑ p ∈ (Finset.range (l.height * l.width)).filter fun p => t.data (b * (l.height * l.width) + p) ≠ -101,
        crossEntropy l.classes (fun c => l.data b c p) ((t.data (b * (l.height * l.width) + p)).toNat + 1)) /
      (∑ b ∈ Finset.range l.batch,
        ((Finset.range (l.height * l.width)).filter fun p => t.data (b * (l.height * l.width) + p) ≠ -101).card : ℕ)) := by
  have hv : verifyShape l t = .ok () := by unfold verifyShape; rw [if_neg (by simpa using hr)]
  unfold oasisGenerator
  rw [hv, hlong]
  dsimp only [bind, Except.bind]
  rw [if_neg (by simp)]
  unfold crossEntropyLoss Target.view
  rw [if_pos]
  · congr 2
    · refine Finset.sum_congr rfl fun b hb => ?_
      rw [Finset.sum_filter]
      refine Finset.sum_congr rfl fun p hp => ?_
      dsimp only
      rcases hl b (Finset.mem_range.1 hb) p (Finset.mem_range.1 hp) with h | h
      · rw [if_pos (by omega), if_neg (by simpa using h)]
      · rw [if_neg (by omega), if_pos (by omega)]
        congr 1
        omega
    · congr 1
      refine Finset.sum_congr rfl fun b _ => ?_
      rw [Finset.card_filter]
      refine Finset.sum_congr rfl fun p _ => ?_
      dsimp only
      by_cases h : t.data (b * (l.height * l.width) + p) = -101
      · rw [if_pos (by omega), if_neg (by simpa using h)]
      · rw [if_neg (by omega), if_pos h]
  · intro b hb p hp
    have := hl b hb p hp
    dsimp only
    omega

/-- **C85, OASIS with one class.** With two logits, the cross-entropy of the real class is the binary cross-entropy of the
difference of the logits with target one, and the one of the fake class that with target zero. In general it is not
negative and does not change if a constant is added to all logits. -/
theorem C85_oasis_two (x : ℕ → ℝ) :
    crossEntropy 2 x 1 = bce (x 1 - x 0) 1 ∧ crossEntropy 2 x 0 = bce (x 1 - x 0) 0 := by
  have e : Real.log (∑ c ∈ Finset.range 2, Real.exp (x c)) = x 0 + Real.log (1 + Real.exp (x 1 - x 0)) := by
    rw [Finset.sum_range_succ, Finset.sum_range_one]
    have : Real.exp (x 0) + Real.exp (x 1) = Real.exp (x 0) * (1 + Real.exp (x 1 - x 0)) := by
      rw [mul_add, ← Real.exp_add]; simp
    rw [this, Real.log_mul (Real.exp_pos _).ne' (by positivity), Real.log_exp]
  unfold crossEntropy
  rw [e, bce_softplus, bce_softplus]
  constructor <;> ring

theorem C85_oasis_general (classes : ℕ) (x : ℕ → ℝ) (label : ℕ) (h : label < classes) :
    0 ≤ crossEntropy classes x label ∧ ∀ a, crossEntropy classes (fun c => x c + a) label = crossEntropy classes x label := by
  have hpos : 0 < ∑ c ∈ Finset.range classes, Real.exp (x c) :=
    Finset.sum_pos (fun c _ => Real.exp_pos _) ⟨label, Finset.mem_range.2 h⟩
  constructor
  · unfold crossEntropy
    have : Real.exp (x label) ≤ ∑ c ∈ Finset.range classes, Real.exp (x c) :=
      Finset.single_le_sum (f := fun c => Real.exp (x c)) (fun c _ => (Real.exp_pos _).le) (Finset.mem_range.2 h)
    have := (Real.le_log_iff_exp_le hpos).2 this
    linarith
  · intro a
    unfold crossEntropy
    have : ∑ c ∈ Finset.range classes, Real.exp (x c + a) = Real.exp a * ∑ c ∈ Finset.range classes, Real.exp (x c) := by
      rw [Finset.mul_sum]
      exact Finset.sum_congr rfl fun c _ => by rw [Real.exp_add, mul_comm]
    rw [this, Real.log_mul (Real.exp_pos a).ne' hpos.ne', Real.log_exp]
    ring

/-- The C85 theorems are not vacuous: a map of two positions. -/
example : ∃ real fake target : Tensor ℝ, real.shape ≠ [] ∧ real.shape = target.shape ∧ fake.shape = target.shape ∧
    target.numel = 2 := by
  refine ⟨⟨[1, 2], fun i => i⟩, ⟨[1, 2], fun i => -i⟩, ⟨[1, 2], fun _ => 1⟩, by simp, rfl, rfl, by simp [Tensor.numel]⟩

/-! ### C86 -/

variable {C : ℕ}

theorem norm_radicand (eps : ℝ) (x : Fin C → ℝ) : ∑ j, (x j ^ 2 + eps) = ∑ j, x j ^ 2 + C * eps := by
  rw [Finset.sum_add_distrib]
  simp

/-- **C86, normalisation.** The normalised features have length less than one, keep the direction, and are zero for zero
features. -/
theorem C86_normalised (eps : ℝ) (he : 0 < eps) (x : Fin C → ℝ) :
    (∑ i, normalizeTensor eps x i ^ 2 < 1) ∧
      (∃ r : ℝ, 0 ≤ r ∧ ∀ i, normalizeTensor eps x i = r * x i) ∧ normalizeTensor eps (0 : Fin C → ℝ) = 0 := by
  refine ⟨?_, ⟨1 / √(∑ j, (x j ^ 2 + eps)), by positivity, fun i => by unfold normalizeTensor; ring⟩, ?_⟩
  · rcases Nat.eq_zero_or_pos C with h | h
    · subst h; simp
    · have hA : 0 < ∑ j, (x j ^ 2 + eps) := by
        refine Finset.sum_pos (fun j _ => by positivity) ⟨⟨0, h⟩, Finset.mem_univ _⟩
      have : ∑ i, normalizeTensor eps x i ^ 2 = (∑ i, x i ^ 2) / ∑ j, (x j ^ 2 + eps) := by
        rw [Finset.sum_div]
        refine Finset.sum_congr rfl fun i _ => ?_
        unfold normalizeTensor
        rw [div_pow, Real.sq_sqrt hA.le]
      rw [this, div_lt_one hA, norm_radicand]
      have : 0 < (C : ℝ) * eps := by positivity
      linarith
  · funext i
    simp [normalizeTensor]

/-- **C86, stable gradients.** The normalisation is Lipschitz, with a constant that does not depend on the features: it
cannot blow up differences by more than `1 / √(C eps)`, also near zero. -/
theorem C86_lipschitz (hC : 0 < C) (eps : ℝ) (he : 0 < eps) (x y : Fin C → ℝ) :
    ∑ i, (normalizeTensor eps x i - normalizeTensor eps y i) ^ 2 ≤ (∑ i, (x i - y i) ^ 2) / (C * eps) := by
  set d : ℝ := C * eps with hd
  have hd0 : 0 < d := by positivity
  set A := ∑ j, (x j ^ 2 + eps) with hA
  set B := ∑ j, (y j ^ 2 + eps) with hB
  have hA' : A = ∑ j, x j ^ 2 + d := norm_radicand eps x
  have hB' : B = ∑ j, y j ^ 2 + d := norm_radicand eps y
  have hAd : d ≤ A := by 
    have : 0 ≤ ∑ j, x j ^ 2 := Finset.sum_nonneg fun j _ => sq_nonneg (x j)
    rw [hA']; linarith
  have hBd : d ≤ B := by 
    have : 0 ≤ ∑ j, y j ^ 2 := Finset.sum_nonneg fun j _ => sq_nonneg (y j)
    rw [hB']; linarith
  have ha : 0 < √A := Real.sqrt_pos.2 (lt_of_lt_of_le hd0 hAd)
  have hb : 0 < √B := Real.sqrt_pos.2 (lt_of_lt_of_le hd0 hBd)
  have haa : √A ^ 2 = A := Real.sq_sqrt (hd0.le.trans hAd)
  have hbb : √B ^ 2 = B := Real.sq_sqrt (hd0.le.trans hBd)
  set S := ∑ i, x i * y i with hS
  have e1 : ∑ i, (normalizeTensor eps x i - normalizeTensor eps y i) ^ 2 =
      (∑ i, x i ^ 2) / √A ^ 2 - 2 * (S / (√A * √B)) + (∑ i, y i ^ 2) / √B ^ 2 := by
    rw [hS, Finset.sum_div, Finset.sum_div, Finset.sum_div, Finset.mul_sum, ← Finset.sum_sub_distrib,
      ← Finset.sum_add_distrib]
    refine Finset.sum_congr rfl fun i _ => ?_
    unfold normalizeTensor
    rw [← hA, ← hB]
    field_simp
    ring
  have e2 : ∑ i, (x i - y i) ^ 2 = A + B - 2 * (S + d) := by
    rw [hA', hB', hS]
    have : ∑ i, (x i - y i) ^ 2 = ∑ i, x i ^ 2 - 2 * ∑ i, x i * y i + ∑ i, y i ^ 2 := by
      rw [Finset.mul_sum, ← Finset.sum_sub_distrib, ← Finset.sum_add_distrib]
      exact Finset.sum_congr rfl fun i _ => by ring
    rw [this]; ring
  have hsum : 0 ≤ ∑ i, (x i - y i) ^ 2 := Finset.sum_nonneg fun i _ => sq_nonneg _
  have hab : d ≤ √A * √B := by
    have : √d * √d ≤ √A * √B :=
      mul_le_mul (Real.sqrt_le_sqrt hAd) (Real.sqrt_le_sqrt hBd) (Real.sqrt_nonneg _) ha.le
    rwa [Real.mul_self_sqrt hd0.le] at this
  have hab0 : 0 < √A * √B := by positivity
  have step1 : ∑ i, (normalizeTensor eps x i - normalizeTensor eps y i) ^ 2 ≤ 2 - 2 * ((S + d) / (√A * √B)) := by
    rw [e1, haa, hbb]
    have h1 : (∑ i, x i ^ 2) / A = 1 - d / A := by
      rw [eq_sub_iff_add_eq, ← add_div, ← hA', div_self (by linarith)]
    have h2 : (∑ i, y i ^ 2) / B = 1 - d / B := by
      rw [eq_sub_iff_add_eq, ← add_div, ← hB', div_self (by linarith)]
    rw [h1, h2, add_div]
    have h3 : 0 ≤ d / A - 2 * (d / (√A * √B)) + d / B := by
      have : d / A - 2 * (d / (√A * √B)) + d / B = d * (1 / √A - 1 / √B) ^ 2 := by
        rw [← haa, ← hbb, Real.sqrt_sq ha.le, Real.sqrt_sq hb.le]
        field_simp
        ring
      rw [this]
      positivity
    linarith
  have step2 : 2 - 2 * ((S + d) / (√A * √B)) ≤ (∑ i, (x i - y i) ^ 2) / (√A * √B) := by
    rw [e2, le_div_iff₀ hab0, sub_mul, mul_assoc, div_mul_cancel₀ _ hab0.ne']
    nlinarith [sq_nonneg (√A - √B)]
  exact step1.trans (step2.trans (div_le_div_of_nonneg_left hsum hd0 hab))

theorem result_nonneg {Input : Type} (l : LpipsLayer Input) (trained : Bool) (hw : trained = true → ∀ c, 0 ≤ l.lin c)
    (x y : Input) : 0 ≤ l.result trained x y := by
  unfold LpipsLayer.result
  refine div_nonneg (Finset.sum_nonneg fun p _ => Finset.sum_nonneg fun c _ => mul_nonneg ?_ (sq_nonneg _)) (by positivity)
  cases trained with
  | true => simpa using hw rfl c
  | false => simp

/-- **C86, distance.** LPIPS of an image with itself is zero, it is symmetric, and it is not negative if the weights of
the linear layers are not, whatever the network is. -/
theorem C86_distance {Input : Type} (toSigned : Input → Input) (layers : List (LpipsLayer Input))
    (trained normalize : Bool) (x y : Input) :
    lpips toSigned layers trained normalize x x = 0 ∧
    lpips toSigned layers trained normalize x y = lpips toSigned layers trained normalize y x ∧
    ((trained = true → ∀ l ∈ layers, ∀ c, 0 ≤ l.lin c) → 0 ≤ lpips toSigned layers trained normalize x y) := by
  refine ⟨?_, ?_, ?_⟩
  · unfold lpips
    dsimp only
    refine List.sum_eq_zero fun v hv => ?_
    obtain ⟨l, _, rfl⟩ := List.mem_map.1 hv
    simp [LpipsLayer.result]
  · unfold lpips
    dsimp only
    congr 1
    refine List.map_congr_left fun l _ => ?_
    unfold LpipsLayer.result
    congr 1
    refine Finset.sum_congr rfl fun p _ => Finset.sum_congr rfl fun c _ => ?_
    ring
  · intro hw
    unfold lpips
    dsimp only
    refine List.sum_nonneg fun v hv => ?_
    obtain ⟨l, hl, rfl⟩ := List.mem_map.1 hv
    exact result_nonneg l trained (fun h => hw h l hl) _ _

/-- **C86, bound.** Without trained weights, each layer contributes at most 4, however far apart the images are. -/
theorem C86_bounded {Input : Type} (toSigned : Input → Input) (layers : List (LpipsLayer Input)) (normalize : Bool)
    (x y : Input) : lpips toSigned layers false normalize x y ≤ 4 * layers.length := by
  unfold lpips
  dsimp only
  set x' := if normalize = true then toSigned x else x
  set y' := if normalize = true then toSigned y else y
  have key : ∀ l : LpipsLayer Input, l.result false x' y' ≤ 4 := by
    intro l
    unfold LpipsLayer.result
    have hp : ∀ p : Fin l.positions, ∑ c, (if false = true then l.lin c else 1) *
        (normalizeTensor 1e-8 (l.features x' p) c - normalizeTensor 1e-8 (l.features y' p) c) ^ 2 ≤ 4 := by
      intro p
      have h1 := (C86_normalised 1e-8 (by norm_num) (l.features x' p)).1
      have h2 := (C86_normalised 1e-8 (by norm_num) (l.features y' p)).1
      calc _ ≤ ∑ c, (2 * normalizeTensor 1e-8 (l.features x' p) c ^ 2 +
            2 * normalizeTensor 1e-8 (l.features y' p) c ^ 2) := by
            refine Finset.sum_le_sum fun c _ => ?_
            simp only [Bool.false_eq_true, if_false, one_mul]
            nlinarith [sq_nonneg (normalizeTensor 1e-8 (l.features x' p) c + normalizeTensor 1e-8 (l.features y' p) c)]
        _ = 2 * ∑ c, normalizeTensor 1e-8 (l.features x' p) c ^ 2 +
            2 * ∑ c, normalizeTensor 1e-8 (l.features y' p) c ^ 2 := by
            rw [Finset.sum_add_distrib, Finset.mul_sum, Finset.mul_sum]
        _ ≤ 4 := by linarith
    rcases Nat.eq_zero_or_pos l.positions with h | h
    · have : (l.positions : ℝ) = 0 := by exact_mod_cast h
      rw [this, div_zero]
      norm_num
    · rw [div_le_iff₀ (by exact_mod_cast h)]
      calc _ ≤ ∑ _p : Fin l.positions, (4 : ℝ) := Finset.sum_le_sum fun p _ => hp p
        _ = _ := by simp; ring
  induction layers with
  | nil => simp
  | cons l layers ih =>
    rw [List.map_cons, List.sum_cons, List.length_cons]
    push_cast
    linarith [key l]

mutual

/-- Every module in a `NormFixLPIPS` is in evaluation mode. -/
def Mod.LpipsEval : Bool → Mod → Prop
  | inside, .node lpips training children =>
    ((inside || lpips) = true → training = false) ∧ Mods.LpipsEval (inside || lpips) children

/-- The same for the children. -/
def Mods.LpipsEval : Bool → Mods → Prop
  | _, .nil => True
  | inside, .cons m ms => Mod.LpipsEval inside m ∧ Mods.LpipsEval inside ms

end

mutual

theorem train_eval : ∀ (m : Mod) (inside mode : Bool), (inside = true → mode = false) → (m.train mode).LpipsEval inside
  | .node lpips _ children, inside, mode, h => by
    unfold Mod.train
    dsimp only
    refine ⟨fun hi => ?_, train_evals children _ _ fun hi => ?_⟩ <;>
    · cases lpips with
      | true => rfl
      | false => exact h (by simpa using hi)

theorem train_evals : ∀ (ms : Mods) (inside mode : Bool), (inside = true → mode = false) →
    (ms.train mode).LpipsEval inside
  | .nil, _, _, _ => trivial
  | .cons m ms, inside, mode, h => ⟨train_eval m inside mode h, train_evals ms inside mode h⟩

end

/-- **C86, mode.** After any number of calls of `train` and `eval` on a model that contains a `NormFixLPIPS` somewhere, the
LPIPS network and all its modules are in evaluation mode. -/
theorem C86_eval (m : Mod) (mode : Bool) (modes : List Bool) :
    ((mode :: modes).foldl (fun m mode => m.train mode) m).LpipsEval false := by
  have : ∀ (modes : List Bool) (m : Mod), m.LpipsEval false → (modes.foldl (fun m mode => m.train mode) m).LpipsEval false := by
    intro modes
    induction modes with
    | nil => exact fun m h => h
    | cons mode modes ih => exact fun m _ => ih _ (train_eval m false mode nofun)
  exact this modes _ (train_eval m false mode nofun)

/-- The mode theorem is not vacuous: a loss with a network, in a module that is trained. -/
example : (Mod.node false false (.cons (.node true false (.cons (.node false true .nil) .nil)) .nil)).train true =
    .node false true (.cons (.node true false (.cons (.node false false .nil) .nil)) .nil) := by
  simp [Mod.train, Mods.train]

/-- **C86, losses.** The MSE loss and the combined loss of an image with itself are zero; both are symmetric, and not
negative for scales and weights that are not; and the combined loss of a batch of images of one size is the mean of the losses
of the images. -/
theorem C86_losses {B n : ℕ} (mseParam lpipsParam : ℝ) (normalize trained : Bool)
    (layers : List (LpipsLayer (Fin n → ℝ))) (x y : Fin B → Fin n → ℝ) :
    let loss := fun (B : ℕ) (x y : Fin B → Fin n → ℝ) => mseLpipsLoss mseParam lpipsParam normalize layers trained x y
    loss B x x = 0 ∧ loss B x y = loss B y x ∧
    (0 ≤ mseParam → 0 ≤ lpipsParam → (trained = true → ∀ l ∈ layers, ∀ c, 0 ≤ l.lin c) → 0 ≤ loss B x y) ∧
    (loss B x y = (∑ b, loss 1 (fun _ => x b) (fun _ => y b)) / B) ∧
    (∀ b, mseLoss mseParam (x b) (x b) = 0 ∧ mseLoss mseParam (x b) (y b) = mseLoss mseParam (y b) (x b) ∧
      (0 ≤ mseParam → 0 ≤ mseLoss mseParam (x b) (y b))) := by
  intro loss
  refine ⟨?_, ?_, ?_, ?_, fun b => ⟨?_, ?_, ?_⟩⟩
  · have h : ∀ b, lpips (fun z i => 2 * z i - 1) layers trained normalize (x b) (x b) = 0 := fun b =>
      (C86_distance _ layers trained normalize (x b) (x b)).1
    simp [loss, mseLpipsLoss, h]
  · show mseLpipsLoss _ _ _ _ _ _ _ = mseLpipsLoss _ _ _ _ _ _ _
    unfold mseLpipsLoss
    congr 2
    · congr 1
      exact Finset.sum_congr rfl fun b _ => Finset.sum_congr rfl fun i _ => by ring
    · congr 1
      exact Finset.sum_congr rfl fun b _ => (C86_distance _ layers trained normalize _ _).2.1
  · intro h1 h2 hw
    show 0 ≤ mseLpipsLoss _ _ _ _ _ _ _
    unfold mseLpipsLoss
    refine add_nonneg (mul_nonneg h1 (div_nonneg ?_ (by positivity))) (mul_nonneg h2 (div_nonneg ?_ (by positivity)))
    · exact Finset.sum_nonneg fun b _ => Finset.sum_nonneg fun i _ => sq_nonneg _
    · exact Finset.sum_nonneg fun b _ => (C86_distance _ layers trained normalize _ _).2.2 hw
  · show mseLpipsLoss _ _ _ _ _ _ _ = _
    simp only [loss]
    unfold mseLpipsLoss
    simp only [Finset.univ_unique, Finset.sum_singleton, Nat.cast_one, div_one, one_mul]
    rw [Finset.sum_add_distrib, ← Finset.mul_sum, ← Finset.mul_sum, add_div, mul_div_assoc, mul_div_assoc]
    congr 2
    rw [← Finset.sum_div, div_div]
    congr 1
    push_cast
    ring
  · simp [mseLoss, mse]
  · unfold mseLoss mse
    congr 2
    exact Finset.sum_congr rfl fun i _ => by ring
  · intro h
    unfold mseLoss mse
    exact mul_nonneg h (div_nonneg (Finset.sum_nonneg fun i _ => sq_nonneg _) (by positivity))

/-- **C86, formula of the MSE loss.** For the default scale and images in `[0, 1]` with values `k / 255` the loss is the mean
square of the differences of the 8-bit values. -/
theorem C86_mse {n : ℕ} (a b : Fin n → ℕ) :
    mseLoss (255 ^ 2) (fun i => (a i : ℝ) / 255) (fun i => (b i : ℝ) / 255) =
      (∑ i, ((a i : ℝ) - b i) ^ 2) / n := by
  unfold mseLoss mse
  rw [← mul_div_assoc, Finset.mul_sum]
  congr 1
  refine Finset.sum_congr rfl fun i _ => ?_
  field_simp

end Verif.Train.Loss
