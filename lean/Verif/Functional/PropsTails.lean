import Verif.Functional.Tails
import Mathlib.Tactic.Linarith
import Mathlib.Tactic.NormNum
import Mathlib.Tactic.Positivity
import Mathlib.Tactic.FieldSimp
import Mathlib.Data.Fintype.Lattice
import Mathlib.Analysis.Complex.ExponentialBounds
import Mathlib.Analysis.Calculus.Deriv.Slope
import Mathlib.Analysis.Calculus.Deriv.MeanValue
import Mathlib.Analysis.SpecialFunctions.Log.Deriv

/-!
C68: the tail quantiles.
-/

namespace Verif.Functional.Tails

open Real

theorem eps_pos : 0 < eps := by unfold eps; positivity

/-- A state that can occur: the variance is positive and the momentum is bounded by it. -/
structure Adam.Good (s : Adam) : Prop where
  pos : 0 < s.variance
  le : s.mean ^ 2 ≤ 5.5 * s.variance

theorem init_good : Adam.init.Good := ⟨by simp [Adam.init], by simp [Adam.init]; norm_num⟩

theorem step_good (g : ℝ → ℝ) (s : Adam) (h : s.Good) : (s.step g).Good := by
  have hp := h.pos
  have hl := h.le
  refine ⟨?_, ?_⟩
  · show 0 < 0.99 * s.variance + (1 - 0.99) * g s.tail ^ 2
    have := sq_nonneg (g s.tail)
    linarith
  · show (0.9 * s.mean + (1 - 0.9) * g s.tail) ^ 2 ≤
      5.5 * (0.99 * s.variance + (1 - 0.99) * g s.tail ^ 2)
    nlinarith [sq_nonneg (0.2 * s.mean - 0.1 * g s.tail), sq_nonneg (s.mean - (9 / 2)⁻¹ * g s.tail)]

theorem Adam.Good.abs_le {s : Adam} (h : s.Good) : |s.mean| ≤ 2.346 * √s.variance := by
  have hp := h.pos
  have h0 := Real.sqrt_nonneg s.variance
  have hs := Real.sq_sqrt hp.le
  refine abs_le_of_sq_le_sq ?_ (by positivity)
  have := h.le
  nlinarith

/-- The new position. -/
theorem step_tail (g : ℝ → ℝ) (s : Adam) :
    (s.step g).tail = s.tail - 1e-2 * ((s.step g).mean / (√(s.step g).variance + eps)) := by
  show s.tail - _ = _
  rw [mul_div_assoc]
  rfl

theorem den_pos (s : Adam) : 0 < √s.variance + eps :=
  add_pos_of_nonneg_of_pos (Real.sqrt_nonneg _) eps_pos

theorem div_le_of {m v ρ : ℝ} (hρ : 0 ≤ ρ) (h : m ≤ ρ * √v) : m / (√v + eps) ≤ ρ := by
  have hd : 0 < √v + eps := add_pos_of_nonneg_of_pos (Real.sqrt_nonneg _) eps_pos
  rw [div_le_iff₀ hd]
  have := mul_nonneg hρ eps_pos.le
  linarith

/-- **Step size.** One iteration moves an element by less than 0.0235. -/
theorem step_move (g : ℝ → ℝ) (s : Adam) (h : s.Good) : |(s.step g).tail - s.tail| ≤ 0.02346 := by
  have h' := abs_le.1 (step_good g s h).abs_le
  rw [step_tail, abs_le]
  have a : (s.step g).mean / (√(s.step g).variance + eps) ≤ 2.346 := div_le_of (by norm_num) h'.2
  have b : -(s.step g).mean / (√(s.step g).variance + eps) ≤ 2.346 :=
    div_le_of (by norm_num) (by linarith [h'.1])
  rw [neg_div] at b
  constructor <;> linarith

theorem sqrt_step (g : ℝ → ℝ) (s : Adam) (h : s.Good) : 0.9949 * √s.variance ≤ √(s.step g).variance := by
  refine Real.le_sqrt_of_sq_le ?_
  rw [mul_pow, Real.sq_sqrt h.pos.le]
  show _ ≤ 0.99 * s.variance + (1 - 0.99) * g s.tail ^ 2
  have := h.pos
  have := sq_nonneg (g s.tail)
  linarith

/-- The element cannot get further above `c` than 0.247: its position and its momentum upwards together are
bounded. -/
def Below (c : ℝ) (s : Adam) : Prop :=
  ∃ ρ, 0 ≤ ρ ∧ -s.mean ≤ ρ * √s.variance ∧ s.tail - c + 0.095 * ρ ≤ 0.247

theorem below_step (g : ℝ → ℝ) (c : ℝ) (hg : ∀ x, c ≤ x → 0 ≤ g x) (s : Adam) (h : s.Good)
    (hb : Below c s) : Below c (s.step g) := by
  have h' := abs_le.1 (step_good g s h).abs_le
  have hm := abs_le.1 (step_move g s h)
  rcases lt_or_ge s.tail c with hx | hx
  · exact ⟨2.346, by norm_num, by linarith [h'.1], by linarith [hm.2]⟩
  · obtain ⟨ρ, h0, h1, h2⟩ := hb
    have hs := sqrt_step g s h
    have hmean : -(s.step g).mean ≤ 0.9047 * ρ * √(s.step g).variance := by
      have e : (s.step g).mean = 0.9 * s.mean + (1 - 0.9) * g s.tail := rfl
      have := hg _ hx
      have : ρ * (0.9949 * √s.variance) ≤ ρ * √(s.step g).variance := mul_le_mul_of_nonneg_left hs h0
      have : 0 ≤ ρ * √s.variance := mul_nonneg h0 (Real.sqrt_nonneg _)
      rw [e]
      nlinarith
    refine ⟨0.9047 * ρ, by positivity, hmean, ?_⟩
    have := div_le_of (by positivity) hmean
    rw [neg_div] at this
    rw [step_tail]
    linarith

theorem below_le {c : ℝ} {s : Adam} (h : Below c s) : s.tail ≤ c + 0.247 := by
  obtain ⟨ρ, h0, -, h2⟩ := h
  linarith

/-- The mirror image of an element. -/
noncomputable def Adam.neg (s : Adam) : Adam := ⟨-s.tail, -s.mean, s.variance, s.count⟩

theorem step_neg (g : ℝ → ℝ) (s : Adam) : s.neg.step (fun x => -g (-x)) = (s.step g).neg := by
  have e : -g (- -s.tail) = -g s.tail := by rw [neg_neg]
  simp only [Adam.step, Adam.neg, e, Adam.mk.injEq]
  have e2 : -s.tail - 1e-2 * (0.9 * -s.mean + (1 - 0.9) * -g s.tail) /
      (√(0.99 * s.variance + (1 - 0.99) * (-g s.tail) ^ 2) + eps) =
      -(s.tail - 1e-2 * (0.9 * s.mean + (1 - 0.9) * g s.tail) /
        (√(0.99 * s.variance + (1 - 0.99) * g s.tail ^ 2) + eps)) := by
    rw [neg_sq]; ring
  refine ⟨e2, by ring, by rw [neg_sq], ?_⟩
  rw [e2, neg_mul_neg]

/-- The element cannot get further below `c` than 0.247. -/
def Above (c : ℝ) (s : Adam) : Prop := Below (-c) s.neg

theorem neg_good {s : Adam} (h : s.Good) : s.neg.Good := ⟨h.pos, by show (-s.mean) ^ 2 ≤ _; rw [neg_sq]; exact h.le⟩

theorem above_step (g : ℝ → ℝ) (c : ℝ) (hg : ∀ x, x ≤ c → g x ≤ 0) (s : Adam) (h : s.Good)
    (hb : Above c s) : Above c (s.step g) := by
  unfold Above
  rw [← step_neg]
  refine below_step _ _ (fun x hx => ?_) _ (neg_good h) hb
  have := hg (-x) (by linarith)
  linarith

theorem above_ge {c : ℝ} {s : Adam} (h : Above c s) : c - 0.247 ≤ s.tail := by
  have := below_le h
  have e : s.neg.tail = -s.tail := rfl
  rw [e] at this
  linarith

/-- An element that has not reached `c` yet. -/
def Early (s : Adam) : Prop := s.count = 0 ∧ s.mean ≤ 0 ∧ 0 ≤ s.tail

/-- Every state is early, or bounded below too. -/
theorem early_step (g : ℝ → ℝ) (c : ℝ) (hg : ∀ x, x ≤ c → g x ≤ 0) (s : Adam) (h : s.Good)
    (he : Early s) : Early (s.step g) ∨ Above c (s.step g) := by
  obtain ⟨hc, hm, hx⟩ := he
  rcases le_or_gt (g s.tail) 0 with hgs | hgs
  · left
    have e : (s.step g).mean = 0.9 * s.mean + (1 - 0.9) * g s.tail := rfl
    have hm' : (s.step g).mean ≤ 0 := by rw [e]; linarith
    have ht : s.tail ≤ (s.step g).tail := by
      rw [step_tail]
      have := div_nonpos_of_nonpos_of_nonneg hm' (den_pos (s.step g)).le
      linarith
    refine ⟨?_, hm', hx.trans ht⟩
    show (if s.count > 0 ∨ g s.tail * (s.step g).tail > 0 then s.count + 1 else s.count) = 0
    rw [if_neg, hc]
    push Not
    exact ⟨by omega, mul_nonpos_of_nonpos_of_nonneg hgs (hx.trans ht)⟩
  · right
    have hxc : c < s.tail := by
      by_contra hn
      have := hg s.tail (by linarith)
      linarith
    have h' := abs_le.1 (step_good g s h).abs_le
    have hmv := abs_le.1 (step_move g s h)
    refine ⟨2.346, by norm_num, ?_, ?_⟩
    · show - -(s.step g).mean ≤ _
      exact (neg_neg (s.step g).mean).le.trans h'.2
    · show -(s.step g).tail - -c + _ ≤ _
      linarith [hmv.1]

/-- The invariant of the loop for an element with solution `c ≥ 0`. -/
structure Inv (c : ℝ) (s : Adam) : Prop where
  good : s.Good
  below : Below c s
  side : Early s ∨ Above c s

theorem inv_step {c : ℝ} {g : ℝ → ℝ} (h1 : ∀ x, c ≤ x → 0 ≤ g x) (h2 : ∀ x, x ≤ c → g x ≤ 0) {s : Adam}
    (h : Inv c s) : Inv c (s.step g) :=
  ⟨step_good g s h.good, below_step g c h1 s h.good h.below,
    h.side.elim (early_step g c h2 s h.good) fun a => .inr (above_step g c h2 s h.good a)⟩

theorem inv_init {c : ℝ} (hc : 0 ≤ c) : Inv c Adam.init :=
  ⟨init_good, ⟨0, le_rfl, by simp [Adam.init], by simp [Adam.init]; norm_num; linarith⟩,
    .inl ⟨rfl, le_rfl, le_rfl⟩⟩

theorem inv_done {c : ℝ} {s : Adam} (h : Inv c s) (hs : 0 < s.count) : |s.tail - c| ≤ 1 / 4 := by
  rcases h.side with he | ha
  · exact absurd he.1 (by omega)
  · have := below_le h.below
    have := above_ge ha
    rw [abs_le]
    constructor <;> linarith

theorem inv_iter {c : ℝ} {g : ℝ → ℝ} (hc : 0 ≤ c) (h1 : ∀ x, c ≤ x → 0 ≤ g x)
    (h2 : ∀ x, x ≤ c → g x ≤ 0) (n : ℕ) : Inv c ((Adam.step g)^[n] Adam.init) := by
  induction n with
  | zero => exact inv_init hc
  | succ n ih =>
    rw [Function.iterate_succ_apply']
    exact inv_step h1 h2 ih

theorem iter_neg (g : ℝ → ℝ) (n : ℕ) (s : Adam) :
    (Adam.step fun x => -g (-x))^[n] s.neg = ((Adam.step g)^[n] s).neg := by
  induction n generalizing s with
  | zero => rfl
  | succ n ih => rw [Function.iterate_succ_apply, Function.iterate_succ_apply, step_neg, ih]

theorem init_neg : Adam.init.neg = Adam.init := by simp [Adam.init, Adam.neg]

/-- One element after `n` iterations, once its counter runs: within a quarter of the point where the gradient
changes its sign. -/
theorem iter_close {c : ℝ} {g : ℝ → ℝ} (h1 : ∀ x, c ≤ x → 0 ≤ g x) (h2 : ∀ x, x ≤ c → g x ≤ 0) (n : ℕ)
    (hn : 0 < ((Adam.step g)^[n] Adam.init).count) : |((Adam.step g)^[n] Adam.init).tail - c| ≤ 1 / 4 := by
  rcases le_total 0 c with hc | hc
  · exact inv_done (inv_iter hc h1 h2 n) hn
  · have hi := inv_iter (c := -c) (g := fun x => -g (-x)) (by linarith)
      (fun x hx => by have := h2 (-x) (by linarith); linarith)
      (fun x hx => by have := h1 (-x) (by linarith); linarith) n
    rw [← init_neg, iter_neg] at hi
    have := inv_done hi hn
    have e : (((Adam.step g)^[n] Adam.init).neg).tail = -((Adam.step g)^[n] Adam.init).tail := rfl
    rw [e, show -((Adam.step g)^[n] Adam.init).tail - -c = -(((Adam.step g)^[n] Adam.init).tail - c) by ring,
      abs_neg] at this
    exact this

/-- The loop returns the state after some number of iterations, the first in which all counters are at least
100. -/
theorem loop_iff {ι : Type} (g : ι → ℝ → ℝ) (s t : State ι) :
    Loop g s t ↔ ∃ n, (t = fun i => (Adam.step (g i))^[n] (s i)) ∧ ¬ Continue t ∧
      ∀ m < n, Continue fun i => (Adam.step (g i))^[m] (s i) := by
  constructor
  · intro h
    induction h with
    | done h => exact ⟨0, rfl, h, by omega⟩
    | next h _ ih =>
      obtain ⟨n, h1, h2, h3⟩ := ih
      refine ⟨n + 1, h1, h2, fun m hm => ?_⟩
      cases m with
      | zero => exact h
      | succ m => exact h3 m (by omega)
  · rintro ⟨n, h1, h2, h3⟩
    induction n generalizing s with
    | zero => subst h1; exact .done h2
    | succ n ih =>
      exact .next (h3 0 (by omega)) (ih _ h1 fun m hm => h3 (m + 1) (by omega))

/-- A function that the documentation of `estimate_tails` allows: monotone, with the derivative that
automatic differentiation supplies. -/
def Allowed (f f' : ℝ → ℝ) : Prop :=
  (∀ x, HasDerivAt f (f' x) x) ∧ (Monotone f ∨ Antitone f)

theorem gradient_sign {f f' : ℝ → ℝ} (h : Allowed f f') {target c : ℝ} (hc : f c = target) :
    (∀ x, c ≤ x → 0 ≤ gradient f f' target x) ∧ (∀ x, x ≤ c → gradient f f' target x ≤ 0) := by
  obtain ⟨hd, hm | hm⟩ := h
  · have hp : ∀ x, 0 ≤ f' x := fun x => (hd x).nonneg_of_monotone hm
    constructor
    · intro x hx
      have := hm hx
      refine mul_nonneg ?_ (hp x)
      have h0 : 0 ≤ f x - target := by linarith
      rcases h0.eq_or_lt with e | e
      · rw [← e]; simp
      · rw [sign_pos e]; simp
    · intro x hx
      have := hm hx
      refine mul_nonpos_of_nonpos_of_nonneg ?_ (hp x)
      have h0 : f x - target ≤ 0 := by linarith
      rcases h0.eq_or_lt with e | e
      · rw [e]; simp
      · rw [sign_neg e]; simp
  · have hp : ∀ x, f' x ≤ 0 := fun x => (hd x).nonpos_of_antitone hm
    constructor
    · intro x hx
      have := hm hx
      refine mul_nonneg_of_nonpos_of_nonpos ?_ (hp x)
      have h0 : f x - target ≤ 0 := by linarith
      rcases h0.eq_or_lt with e | e
      · rw [e]; simp
      · rw [sign_neg e]; simp
    · intro x hx
      have := hm hx
      refine mul_nonpos_of_nonneg_of_nonpos ?_ (hp x)
      have h0 : 0 ≤ f x - target := by linarith
      rcases h0.eq_or_lt with e | e
      · rw [← e]; simp
      · rw [sign_pos e]; simp

/-- **C68, accuracy.** Whenever `estimate_tails` returns, each element is within a quarter of the solution
of its equation, for every monotone function that has one, however many elements there are and however
long the others take. -/
theorem C68_accuracy {ι : Type} (f f' : ι → ℝ → ℝ) (target : ℝ) (x : ι → ℝ)
    (hf : ∀ i, Allowed (f i) (f' i)) (h : EstimateTails f f' target x) (i : ι) (c : ℝ) (hc : f i c = target) :
    |x i - c| ≤ 1 / 4 := by
  obtain ⟨t, ht, rfl⟩ := h
  obtain ⟨n, h1, h2, -⟩ := (loop_iff _ _ _).1 ht
  have hs := gradient_sign (hf i) hc
  have hcount : 100 ≤ (t i).count := by
    by_contra hn
    exact h2 ⟨i, by omega⟩
  subst h1
  exact iter_close hs.1 hs.2 n (lt_of_lt_of_le (by norm_num) hcount)

/-! ### Termination -/

/-- An element that has not passed a solution `c`, with a gradient bounded away from zero so far. -/
structure Climb (V : ℝ) (s : Adam) : Prop where
  good : s.Good
  mean : s.mean ≤ 0
  tail : 0 ≤ s.tail
  var : s.variance ≤ V

theorem climb_step {g : ℝ → ℝ} {c δ G : ℝ} (hδ : 0 < δ)
    (hg : ∀ x, 0 ≤ x → x < c → -G ≤ g x ∧ g x ≤ -δ) {s : Adam} (h : Climb (max 1 (G ^ 2)) s)
    (hx : s.tail < c) :
    Climb (max 1 (G ^ 2)) (s.step g) ∧ (s.step g).mean ≤ -(0.1 * δ) ∧
      s.tail + 1e-2 * (0.1 * δ) / (√(max 1 (G ^ 2)) + eps) ≤ (s.step g).tail := by
  have hgs := hg s.tail h.tail hx
  have e : (s.step g).mean = 0.9 * s.mean + (1 - 0.9) * g s.tail := rfl
  have hm := h.mean
  have hm' : (s.step g).mean ≤ -(0.1 * δ) := by rw [e]; linarith [hgs.2]
  have hvar : (s.step g).variance ≤ max 1 (G ^ 2) := by
    show 0.99 * s.variance + (1 - 0.99) * g s.tail ^ 2 ≤ _
    have h1 := h.var
    have h2 : g s.tail ^ 2 ≤ G ^ 2 := by nlinarith [hgs.1, hgs.2]
    have h3 := le_max_right 1 (G ^ 2)
    linarith
  have hmove : 1e-2 * (0.1 * δ) / (√(max 1 (G ^ 2)) + eps) ≤
      -(1e-2 * ((s.step g).mean / (√(s.step g).variance + eps))) := by
    rw [← mul_neg, ← neg_div, mul_div_assoc]
    have h1 : √(s.step g).variance + eps ≤ √(max 1 (G ^ 2)) + eps := by
      have := Real.sqrt_le_sqrt hvar
      linarith
    have h2 : 0.1 * δ / (√(max 1 (G ^ 2)) + eps) ≤ -(s.step g).mean / (√(s.step g).variance + eps) :=
      div_le_div₀ (by linarith) (by linarith) (den_pos _) h1
    linarith
  have ht : s.tail + 1e-2 * (0.1 * δ) / (√(max 1 (G ^ 2)) + eps) ≤ (s.step g).tail := by
    rw [step_tail]; linarith
  refine ⟨⟨step_good g s h.good, by linarith, ?_, hvar⟩, hm', ht⟩
  have : 0 ≤ 1e-2 * (0.1 * δ) / (√(max 1 (G ^ 2)) + eps) := by
    have := eps_pos
    positivity
  linarith [h.tail]

/-- Counting starts at the latest in the iteration after `c > 0.0235` has been passed. -/
theorem counted {g : ℝ → ℝ} {c : ℝ} (hc : 0.024 ≤ c) (hpos : ∀ x, c < x → 0 < g x) {s : Adam} (h : s.Good)
    (hx : c < s.tail) : 0 < (s.step g).count := by
  have hm := abs_le.1 (step_move g s h)
  show 0 < (if s.count > 0 ∨ g s.tail * (s.step g).tail > 0 then s.count + 1 else s.count)
  rw [if_pos (.inr (mul_pos (hpos _ hx) (by linarith [hm.1])))]
  omega

theorem iter_counts_pos {g : ℝ → ℝ} {c δ G : ℝ} (hc : 0.024 ≤ c) (hδ : 0 < δ)
    (hg : ∀ x, 0 ≤ x → x < c → -G ≤ g x ∧ g x ≤ -δ) (h0 : g c = 0) (hpos : ∀ x, c < x → 0 < g x) :
    ∃ n, 0 < ((Adam.step g)^[n] Adam.init).count := by
  set κ := 1e-2 * (0.1 * δ) / (√(max 1 (G ^ 2)) + eps) with hκ
  have hκ0 : 0 < κ := by
    have := eps_pos
    positivity
  have hinit : Climb (max 1 (G ^ 2)) Adam.init :=
    ⟨init_good, le_rfl, le_rfl, le_max_left _ _⟩
  -- the first time at or above c
  have hex : ∃ n, c ≤ ((Adam.step g)^[n] Adam.init).tail := by
    by_contra hn
    push Not at hn
    have hall : ∀ n, Climb (max 1 (G ^ 2)) ((Adam.step g)^[n] Adam.init) ∧
        n * κ ≤ ((Adam.step g)^[n] Adam.init).tail := by
      intro n
      induction n with
      | zero => exact ⟨hinit, by simp [Adam.init]⟩
      | succ n ih =>
        have := climb_step hδ hg ih.1 (hn n)
        rw [Function.iterate_succ_apply']
        refine ⟨this.1, ?_⟩
        push_cast
        have := this.2.2
        have := ih.2
        linarith
    obtain ⟨n, hN⟩ := exists_nat_gt (c / κ)
    have := (hall n).2
    have := hn n
    rw [div_lt_iff₀ hκ0] at hN
    linarith
  classical
  obtain ⟨hN, hmin⟩ := (⟨Nat.find_spec hex, fun m hm => Nat.find_min hex hm⟩ :
    c ≤ ((Adam.step g)^[Nat.find hex] Adam.init).tail ∧
      ∀ m, m < Nat.find hex → ¬ c ≤ ((Adam.step g)^[m] Adam.init).tail)
  set N := Nat.find hex with hNdef
  have hclimb : ∀ n ≤ N, Climb (max 1 (G ^ 2)) ((Adam.step g)^[n] Adam.init) ∧
      (0 < n → ((Adam.step g)^[n] Adam.init).mean ≤ -(0.1 * δ)) := by
    intro n hn
    induction n with
    | zero => exact ⟨hinit, by omega⟩
    | succ n ih =>
      have hlt := hmin n (by omega)
      have := climb_step hδ hg (ih (by omega)).1 (by linarith)
      rw [Function.iterate_succ_apply']
      exact ⟨this.1, fun _ => this.2.1⟩
  have hN0 : 0 < N := by
    rcases Nat.eq_zero_or_pos N with e | e
    · rw [e] at hN
      have : Adam.init.tail = 0 := rfl
      rw [Function.iterate_zero, id, this] at hN
      linarith
    · exact e
  have hgood := (hclimb N le_rfl).1.good
  have hmean := (hclimb N le_rfl).2 hN0
  rcases hN.eq_or_lt with he | hlt
  · refine ⟨N + 2, ?_⟩
    rw [Function.iterate_succ_apply', Function.iterate_succ_apply']
    refine counted hc hpos (step_good g _ hgood) ?_
    rw [step_tail, ← he]
    have e : (((Adam.step g)^[N] Adam.init).step g).mean =
      0.9 * ((Adam.step g)^[N] Adam.init).mean + (1 - 0.9) * g ((Adam.step g)^[N] Adam.init).tail := rfl
    rw [← he, h0] at e
    have hneg : (((Adam.step g)^[N] Adam.init).step g).mean < 0 := by rw [e]; linarith
    have := div_neg_of_neg_of_pos hneg (den_pos (((Adam.step g)^[N] Adam.init).step g))
    linarith
  · refine ⟨N + 1, ?_⟩
    rw [Function.iterate_succ_apply']
    exact counted hc hpos hgood hlt

theorem count_grows (g : ℝ → ℝ) (s : Adam) (h : 0 < s.count) (k : ℕ) :
    ((Adam.step g)^[k] s).count = s.count + k := by
  induction k with
  | zero => rfl
  | succ k ih =>
    rw [Function.iterate_succ_apply']
    have : ∀ t : Adam, 0 < t.count → (t.step g).count = t.count + 1 := fun t ht => by
      show (if t.count > 0 ∨ _ then t.count + 1 else t.count) = _
      rw [if_pos (.inl ht)]
    rw [this _ (by omega), ih]
    rfl

/-- If every element is counted at some time, the loop ends. -/
theorem loop_ends {ι : Type} [Finite ι] (g : ι → ℝ → ℝ)
    (h : ∀ i, ∃ n, 0 < ((Adam.step (g i))^[n] Adam.init).count) :
    ∃ t, Loop g (fun _ => Adam.init) t := by
  choose n hn using h
  obtain ⟨M, hM⟩ := Finite.exists_le n
  have hex : ∃ m, ¬ Continue fun i => (Adam.step (g i))^[m] Adam.init := by
    refine ⟨M + 100, ?_⟩
    rintro ⟨i, hi⟩
    have := count_grows (g i) _ (hn i) (M - n i + 100)
    rw [← Function.iterate_add_apply, show M - n i + 100 + n i = M + 100 by have := hM i; omega] at this
    change ((Adam.step (g i))^[M + 100] Adam.init).count < 100 at hi
    omega
  classical
  exact ⟨_, (loop_iff _ _ _).2 ⟨Nat.find hex, rfl, Nat.find_spec hex,
    fun m hm => not_not.1 (Nat.find_min hex hm)⟩⟩

theorem abs_gradient {f f' : ℝ → ℝ} (h : Allowed f f') (hne : ∀ x, f' x ≠ 0) {target c : ℝ} (hc : f c = target) :
    (∀ x, x < c → gradient f f' target x = -|f' x|) ∧ (∀ x, c < x → gradient f f' target x = |f' x|) := by
  obtain ⟨hd, hm | hm⟩ := h
  · have hp : ∀ x, 0 < f' x := fun x => lt_of_le_of_ne ((hd x).nonneg_of_monotone hm) (hne x).symm
    have hs : StrictMono f := strictMono_of_deriv_pos fun x => by rw [(hd x).deriv]; exact hp x
    constructor
    · intro x hx
      have := hs hx
      unfold gradient
      rw [sign_neg (by linarith), abs_of_pos (hp x)]; simp
    · intro x hx
      have := hs hx
      unfold gradient
      rw [sign_pos (by linarith), abs_of_pos (hp x)]; simp
  · have hp : ∀ x, f' x < 0 := fun x => lt_of_le_of_ne ((hd x).nonpos_of_antitone hm) (hne x)
    have hs : StrictAnti f := strictAnti_of_deriv_neg fun x => by rw [(hd x).deriv]; exact hp x
    constructor
    · intro x hx
      have := hs hx
      unfold gradient
      rw [sign_pos (by linarith), abs_of_neg (hp x)]; simp
    · intro x hx
      have := hs hx
      unfold gradient
      rw [sign_neg (by linarith), abs_of_neg (hp x)]; simp

/-- **C68, termination.** `estimate_tails` returns if every element's function has a continuous derivative
without zeros and its solution is at least 0.024 away from zero. -/
theorem C68_terminates_partial {ι : Type} [Finite ι] (f f' : ι → ℝ → ℝ) (target : ℝ) (c : ι → ℝ)
    (hf : ∀ i, Allowed (f i) (f' i)) (hcont : ∀ i, Continuous (f' i)) (hne : ∀ i x, f' i x ≠ 0)
    (hc : ∀ i, f i (c i) = target) (hfar : ∀ i, 0.024 ≤ |c i|) : ∃ x, EstimateTails f f' target x := by
  suffices key : ∀ i, ∃ n, 0 < ((Adam.step (gradient (f i) (f' i) target))^[n] Adam.init).count by
    obtain ⟨t, ht⟩ := loop_ends (fun i => gradient (f i) (f' i) target) key
    exact ⟨_, t, ht, rfl⟩
  intro i
  have hcomp : IsCompact (Set.uIcc 0 (c i)) := isCompact_uIcc
  have hca : ContinuousOn (fun x => |f' i x|) (Set.uIcc 0 (c i)) := (hcont i).abs.continuousOn
  obtain ⟨a, -, ha⟩ := hcomp.exists_isMinOn Set.nonempty_uIcc hca
  obtain ⟨b, -, hb⟩ := hcomp.exists_isMaxOn Set.nonempty_uIcc hca
  have hδ : 0 < |f' i a| := abs_pos.2 (hne i a)
  have hs := abs_gradient (hf i) (hne i) (hc i)
  have h0 : gradient (f i) (f' i) target (c i) = 0 := by unfold gradient; rw [hc i]; simp
  rcases le_total 0 (c i) with h | h
  · have hfar' := hfar i
    rw [abs_of_nonneg h] at hfar'
    refine iter_counts_pos (c := c i) (δ := |f' i a|) (G := |f' i b|) hfar' hδ (fun x hx hx' => ?_) h0
      (fun x hx => by rw [hs.2 x hx]; exact abs_pos.2 (hne i x))
    have hmem : x ∈ Set.uIcc 0 (c i) := by rw [Set.uIcc_of_le h]; exact ⟨hx, hx'.le⟩
    rw [hs.1 x hx']
    exact ⟨neg_le_neg (hb hmem), neg_le_neg (ha hmem)⟩
  · have hfar' := hfar i
    rw [abs_of_nonpos h] at hfar'
    obtain ⟨n, hn⟩ := iter_counts_pos (g := fun x => -gradient (f i) (f' i) target (-x)) (c := -c i)
      (δ := |f' i a|) (G := |f' i b|) hfar' hδ (fun x hx hx' => by
        have hmem : -x ∈ Set.uIcc 0 (c i) := by
          rw [Set.uIcc_of_ge h]; exact ⟨by linarith, by linarith⟩
        rw [hs.2 (-x) (by linarith)]
        exact ⟨neg_le_neg (hb hmem), neg_le_neg (ha hmem)⟩)
      (by rw [neg_neg, h0, neg_zero])
      (fun x hx => by
        rw [hs.1 (-x) (by linarith), neg_neg]
        exact abs_pos.2 (hne i _))
    rw [← init_neg, iter_neg] at hn
    exact ⟨n, hn⟩

/-! ### The two tails -/

/-- A family of distributions given by positive cumulative distribution functions with continuous positive
densities. -/
structure Smooth {ι : Type} (cdf pdf : ι → ℝ → ℝ) : Prop where
  deriv : ∀ i x, HasDerivAt (cdf i) (pdf i x) x
  cont : ∀ i, Continuous (pdf i)
  pdf : ∀ i x, 0 < pdf i x
  pos : ∀ i x, 0 < cdf i x

/-- **C68, classes with `icdf`.** The tails are the exact quantiles. -/
theorem C68_icdf {ι : Type} (d : Batch ι) (q : ι → ℝ → ℝ) (h : d.icdf = some q) (tailMass : ℝ) (x : ι → ℝ) :
    (LowerTail d tailMass x ↔ ∀ i, x i = q i (tailMass / 2)) ∧
      (UpperTail d tailMass x ↔ ∀ i, x i = q i (1 - tailMass / 2)) := by
  constructor
  · unfold LowerTail; rw [h]; exact ⟨fun e i => by rw [e], fun e => funext e⟩
  · unfold UpperTail; rw [h]; exact ⟨fun e i => by rw [e], fun e => funext e⟩

/-- **C68, lower tail of classes without `icdf`.** Whatever `lower_tail` returns is within a quarter of the
exact quantiles, and it does return if they are not within 0.024 of zero. -/
theorem C68_lower_partial {ι : Type} [Finite ι] (cdf pdf : ι → ℝ → ℝ) (h : Smooth cdf pdf) (tailMass : ℝ)
    (q : ι → ℝ) (hq : ∀ i, cdf i (q i) = tailMass / 2) :
    (∀ x, LowerTail (ofCdf cdf pdf) tailMass x → ∀ i, |x i - q i| ≤ 1 / 4) ∧
      ((∀ i, 0.024 ≤ |q i|) → ∃ x, LowerTail (ofCdf cdf pdf) tailMass x) := by
  have hall : ∀ i, Allowed ((ofCdf cdf pdf).logCdf i) ((ofCdf cdf pdf).logCdf' i) := by
    intro i
    refine ⟨fun x => (h.deriv i x).log (h.pos i x).ne', .inl fun a b hab => ?_⟩
    have hm : StrictMono (cdf i) := strictMono_of_deriv_pos fun x => by
      rw [(h.deriv i x).deriv]; exact h.pdf i x
    exact Real.log_le_log (h.pos i a) (hm.monotone hab)
  have hc : ∀ i, (ofCdf cdf pdf).logCdf i (q i) = log (tailMass / 2) := fun i => by
    show log (cdf i (q i)) = _
    rw [hq i]
  refine ⟨fun x hx i => C68_accuracy _ _ _ x hall hx i (q i) (hc i), fun hfar => ?_⟩
  refine C68_terminates_partial _ _ _ q hall (fun i => ?_) (fun i x => ?_) hc hfar
  · exact (h.cont i).div (continuous_iff_continuousAt.2 fun x => (h.deriv i x).continuousAt)
      fun x => (h.pos i x).ne'
  · exact (div_pos (h.pdf i x) (h.pos i x)).ne'

/-- If the gradient is nowhere positive on the non-negative numbers, the counter never starts. -/
theorem never_counted (g : ℝ → ℝ) (hg : ∀ x, 0 ≤ x → g x ≤ 0) (n : ℕ) :
    Early ((Adam.step g)^[n] Adam.init) := by
  induction n with
  | zero => exact ⟨rfl, le_rfl, le_rfl⟩
  | succ n ih =>
    rw [Function.iterate_succ_apply']
    set s := (Adam.step g)^[n] Adam.init
    obtain ⟨hc, hm, hx⟩ := ih
    have hgs := hg _ hx
    have e : (s.step g).mean = 0.9 * s.mean + (1 - 0.9) * g s.tail := rfl
    have hm' : (s.step g).mean ≤ 0 := by rw [e]; linarith
    have ht : s.tail ≤ (s.step g).tail := by
      rw [step_tail]
      have := div_nonpos_of_nonpos_of_nonneg hm' (den_pos (s.step g)).le
      linarith
    refine ⟨?_, hm', hx.trans ht⟩
    show (if s.count > 0 ∨ g s.tail * (s.step g).tail > 0 then s.count + 1 else s.count) = 0
    rw [if_neg, hc]
    push Not
    exact ⟨by omega, mul_nonpos_of_nonpos_of_nonneg hgs (hx.trans ht)⟩

theorem loop_never {ι : Type} (g : ι → ℝ → ℝ) (i : ι) (hg : ∀ x, 0 ≤ x → g i x ≤ 0) :
    ¬ ∃ t, Loop g (fun _ => Adam.init) t := by
  rintro ⟨t, ht⟩
  obtain ⟨n, h1, h2, -⟩ := (loop_iff _ _ _).1 ht
  refine h2 ⟨i, ?_⟩
  rw [h1]
  show ((Adam.step (g i))^[n] Adam.init).count < 100
  rw [(never_counted (g i) hg n).1]
  decide

/-- **C68 is violated.** `upper_tail` never returns for any class without `icdf` and any tail mass below two,
and `lower_tail` never returns if the quantile looked for is zero. -/
theorem C68_violated {ι : Type} [Nonempty ι] (cdf pdf : ι → ℝ → ℝ) (h : Smooth cdf pdf) (tailMass : ℝ)
    (h0 : 0 < tailMass) (h2 : tailMass < 2) :
    (¬ ∃ x, UpperTail (ofCdf cdf pdf) tailMass x) ∧
      ((∃ i, cdf i 0 = tailMass / 2) → ¬ ∃ x, LowerTail (ofCdf cdf pdf) tailMass x) := by
  constructor
  · rintro ⟨x, t, ht, -⟩
    obtain ⟨i⟩ := ‹Nonempty ι›
    refine loop_never _ i (fun y _ => ?_) ⟨t, ht⟩
    have e : (ofCdf cdf pdf).logSf i y = log (1 + cdf i (-y)) := rfl
    have e' : (ofCdf cdf pdf).logSf' i y = -pdf i (-y) / (1 + cdf i (-y)) := rfl
    have hp := h.pos i (-y)
    have hl : log (tailMass / 2) < 0 := Real.log_neg (by linarith) (by linarith)
    have hg : 0 < log (1 + cdf i (-y)) := Real.log_pos (by linarith)
    simp only [gradient]
    rw [e, e', sign_pos (by linarith)]
    have := h.pdf i (-y)
    have := div_neg_of_neg_of_pos (neg_lt_zero.2 this) (show 0 < 1 + cdf i (-y) by linarith)
    simpa using this.le
  · rintro ⟨i, hi⟩ ⟨x, t, ht, -⟩
    obtain ⟨n, h1, h2', -⟩ := (loop_iff _ _ _).1 ht
    have hzero : gradient ((ofCdf cdf pdf).logCdf i) ((ofCdf cdf pdf).logCdf' i) (log (tailMass / 2)) 0 = 0 := by
      have e : (ofCdf cdf pdf).logCdf i 0 = log (cdf i 0) := rfl
      unfold gradient
      rw [e, hi]; simp
    have hstay : ∀ n, ((Adam.step (gradient ((ofCdf cdf pdf).logCdf i) ((ofCdf cdf pdf).logCdf' i)
        (log (tailMass / 2))))^[n] Adam.init).tail = 0 ∧ ((Adam.step (gradient ((ofCdf cdf pdf).logCdf i)
        ((ofCdf cdf pdf).logCdf' i) (log (tailMass / 2))))^[n] Adam.init).mean = 0 ∧
        ((Adam.step (gradient ((ofCdf cdf pdf).logCdf i) ((ofCdf cdf pdf).logCdf' i)
        (log (tailMass / 2))))^[n] Adam.init).count = 0 := by
      intro n
      induction n with
      | zero => exact ⟨rfl, rfl, rfl⟩
      | succ n ih =>
        rw [Function.iterate_succ_apply']
        simp only [Adam.step, ih.1, ih.2.1, ih.2.2, hzero]
        simp
    refine h2' ⟨i, ?_⟩
    rw [h1]
    show (Adam.count _) < 100
    rw [(hstay n).2.2]
    norm_num

/-- The hypotheses are met: a logistic distribution (a mixture with one component, say), whose lower quarter
quantile is about -1.1. -/
theorem logistic_smooth :
    Smooth (fun (_ : Unit) x => 1 / (1 + exp (-x))) (fun _ x => exp (-x) / (1 + exp (-x)) ^ 2) where
  deriv := fun _ x => by
    have h1 : HasDerivAt (fun x : ℝ => 1 + exp (-x)) (-exp (-x)) x := by
      have := ((hasDerivAt_neg x).exp).const_add 1
      refine this.congr_deriv (by ring)
    have hp : (1 + exp (-x)) ≠ 0 := by positivity
    have := h1.inv hp
    refine (this.congr_deriv (by ring)).congr_of_eventuallyEq (Filter.Eventually.of_forall fun y => by simp)
  cont := fun _ => by
    refine Continuous.div (by fun_prop) (by fun_prop) fun x => by positivity
  pdf := fun _ x => by positivity
  pos := fun _ x => by positivity

example : ∃ x, LowerTail (ofCdf (fun (_ : Unit) x => 1 / (1 + exp (-x)))
    (fun _ x => exp (-x) / (1 + exp (-x)) ^ 2)) (1 / 2) x := by
  have h3 : 0 < log 3 := Real.log_pos (by norm_num)
  have hbig : 0.024 ≤ log 3 := by
    have := Real.add_one_le_exp (0.024 : ℝ)
    rw [Real.le_log_iff_exp_le (by norm_num)]
    have h1 : exp 0.024 ≤ exp 1 := Real.exp_le_exp.2 (by norm_num)
    linarith [Real.exp_one_lt_d9]
  refine (C68_lower_partial _ _ logistic_smooth (1 / 2) (fun _ => -log 3) (fun _ => ?_)).2 (fun _ => ?_)
  · show 1 / (1 + exp (- -log 3)) = _
    rw [neg_neg, Real.exp_log (by norm_num)]; norm_num
  · rw [abs_neg, abs_of_pos h3]; exact hbig

example : ¬ ∃ x, UpperTail (ofCdf (fun (_ : Unit) x => 1 / (1 + exp (-x)))
    (fun _ x => exp (-x) / (1 + exp (-x)) ^ 2)) (1 / 256) x :=
  (C68_violated _ _ logistic_smooth _ (by norm_num) (by norm_num)).1

end Verif.Functional.Tails
