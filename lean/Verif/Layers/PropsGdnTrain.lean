import Verif.Layers.GdnTrain
import Verif.Layers.PropsNorm
import Mathlib.Analysis.Calculus.FDeriv.Mul
import Mathlib.Analysis.Calculus.FDeriv.Pi
import Mathlib.Analysis.Calculus.FDeriv.Prod
import Mathlib.Analysis.Calculus.FDeriv.Comp
import Mathlib.Analysis.Calculus.Deriv.Inv
import Mathlib.Analysis.Calculus.Deriv.Abs
import Mathlib.Tactic.FieldSimp

/-!
C128: training through the GDN layers.
-/

namespace Verif.Layers.GdnTrain

open scoped BigOperators

open Verif.Layers.Norm

variable {C P : ℕ}

/-! ### Specification -/

/-- The documented formula of the two layers, as a function of weights, biases and the image. -/
noncomputable def formula (inverse : Bool) (gamma : Fin C → Fin C → ℝ) (beta : Fin C → ℝ) (x : Fin P → Fin C → ℝ)
    (p : Fin P) (i : Fin C) : ℝ :=
  if inverse then x p i * (beta i + ∑ j, gamma i j * |x p j|) else x p i / (beta i + ∑ j, gamma i j * |x p j|)

/-- Parameters in the range that the layers promise. -/
def Feasible (betaMin : ℝ) (gamma : Fin C → Fin C → ℝ) (beta : Fin C → ℝ) : Prop :=
  (∀ i j, 0 ≤ gamma i j) ∧ ∀ i, betaMin ≤ beta i

/-- The squared distance of two sets of parameters. -/
noncomputable def sqDist (gamma : Fin C → Fin C → ℝ) (beta : Fin C → ℝ) (gamma' : Fin C → Fin C → ℝ)
    (beta' : Fin C → ℝ) : ℝ := ∑ i, ∑ j, (gamma i j - gamma' i j) ^ 2 + ∑ i, (beta i - beta' i) ^ 2

/-- The gradients that a call of the layer and `backward` with the output's gradient `up` leave. -/
noncomputable def gradsOf (inverse : Bool) (g : Gdn C) (x up : Fin P → Fin C → ℝ) : Grads C P :=
  if inverse then backwardInverse (call inverse g x).1 x up else backward (call inverse g x).1 x up

/-! ### Lemmas -/

theorem clamp_clamp (g : Gdn C) : g.clamp.clamp = g.clamp := by
  unfold Gdn.clamp
  simp

theorem call_out (inverse : Bool) (g : Gdn C) (x : Fin P → Fin C → ℝ) (p : Fin P) (i : Fin C) :
    (call inverse g x).2 p i = formula inverse g.clamp.gamma g.clamp.beta x p i := by
  have e := clamp_clamp g
  unfold call formula
  cases inverse
  · simp only [Gdn.forward, e, Bool.false_eq_true, if_false, Gdn.norm]
    rw [add_comm]
  · simp only [Gdn.inverse, e, if_true, Gdn.norm]
    rw [add_comm]

theorem norm_pos (g : Gdn C) (hb : 0 < g.betaMin) (x : Fin C → ℝ) (i : Fin C) : 0 < g.clamp.norm x i :=
  lt_of_lt_of_le hb (norm_ge g x i)

theorem clamp_feasible (g : Gdn C) : Feasible g.betaMin g.clamp.gamma g.clamp.beta :=
  ⟨fun _ _ => le_max_right _ _, fun _ => le_max_right _ _⟩

theorem hasDerivAt_formula (inverse : Bool) (g : Gdn C) (hb : 0 < g.betaMin) (x : Fin P → Fin C → ℝ) (p : Fin P)
    (i : Fin C) :
    HasFDerivAt (fun θ : (Fin C → Fin C → ℝ) × (Fin C → ℝ) => formula inverse θ.1 θ.2 x p i)
      ((if inverse then x p i else -x p i / (g.clamp.norm (x p) i) ^ 2) •
        ((ContinuousLinearMap.proj (R := ℝ) (φ := fun _ : Fin C => ℝ) i).comp (ContinuousLinearMap.snd ℝ _ _) +
          ∑ j, |x p j| • ((ContinuousLinearMap.proj (R := ℝ) (φ := fun _ : Fin C => ℝ) j).comp
            (ContinuousLinearMap.proj (R := ℝ) (φ := fun _ : Fin C => Fin C → ℝ) i)).comp
              (ContinuousLinearMap.fst ℝ _ _)))
      (g.clamp.gamma, g.clamp.beta) := by
  set D : (Fin C → Fin C → ℝ) × (Fin C → ℝ) →L[ℝ] ℝ :=
    (ContinuousLinearMap.proj (R := ℝ) (φ := fun _ : Fin C => ℝ) i).comp (ContinuousLinearMap.snd ℝ _ _) +
          ∑ j, |x p j| • ((ContinuousLinearMap.proj (R := ℝ) (φ := fun _ : Fin C => ℝ) j).comp
            (ContinuousLinearMap.proj (R := ℝ) (φ := fun _ : Fin C => Fin C → ℝ) i)).comp
              (ContinuousLinearMap.fst ℝ _ _) with hD
  have hDv : ∀ θ, D θ = θ.2 i + ∑ j, θ.1 i j * |x p j| := by
    intro θ
    rw [hD]
    simp [mul_comm]
  have hn : g.clamp.norm (x p) i = D (g.clamp.gamma, g.clamp.beta) := by
    rw [hDv]; unfold Gdn.norm; rw [add_comm]
  have hpos := norm_pos g hb (x p) i
  have hd := D.hasFDerivAt (x := (g.clamp.gamma, g.clamp.beta))
  cases inverse
  · have e : (fun θ : (Fin C → Fin C → ℝ) × (Fin C → ℝ) => formula false θ.1 θ.2 x p i) =
        fun θ => x p i * (D θ)⁻¹ := by
      funext θ
      rw [hDv]
      simp [formula, div_eq_mul_inv]
    rw [e]
    have h1 := (hasDerivAt_inv (hn ▸ hpos.ne' : D (g.clamp.gamma, g.clamp.beta) ≠ 0)).comp_hasFDerivAt _ hd
    have h2 := h1.const_mul (x p i)
    refine h2.congr_fderiv ?_
    rw [hn, smul_smul]
    congr 1
    simp
    field_simp
  · have e : (fun θ : (Fin C → Fin C → ℝ) × (Fin C → ℝ) => formula true θ.1 θ.2 x p i) = fun θ => x p i * D θ := by
      funext θ
      rw [hDv]
      simp [formula]
    rw [e]
    exact hd.const_mul (x p i)

/-! ### C128 -/

/-- **C128, gradient of the parameters.** For every state of a layer with a positive minimum for the bias, every batch
and every rest of the network (`loss` of the layer's output, with gradient `up` there), the gradients that training
leaves in weights and biases are the exact partial derivatives of the loss with the documented formula in place of the
layer, at the parameters that are in the layer after the call, also where the clamping has just moved them. -/
theorem C128_parameters (inverse : Bool) (g : Gdn C) (hb : 0 < g.betaMin) (x : Fin P → Fin C → ℝ)
    (loss : (Fin P → Fin C → ℝ) → ℝ) (up : Fin P → Fin C → ℝ) (L : (Fin P → Fin C → ℝ) →L[ℝ] ℝ)
    (hL : ∀ d, L d = ∑ p, ∑ i, up p i * d p i) (hloss : HasFDerivAt loss L (call inverse g x).2) :
    let g' := (call inverse g x).1
    let d := gradsOf inverse g x up
    ∃ D : (Fin C → Fin C → ℝ) × (Fin C → ℝ) →L[ℝ] ℝ,
      HasFDerivAt (fun θ => loss fun p i => formula inverse θ.1 θ.2 x p i) D (g'.gamma, g'.beta) ∧
      ∀ δ, D δ = ∑ i, ∑ j, d.gamma i j * δ.1 i j + ∑ i, d.beta i * δ.2 i := by
  intro g' d
  have hg' : g' = g.clamp := rfl
  have hout : (call inverse g x).2 = fun p i => formula inverse g.clamp.gamma g.clamp.beta x p i := by
    funext p i; exact call_out inverse g x p i
  rw [hout] at hloss
  have hF : HasFDerivAt (fun θ : (Fin C → Fin C → ℝ) × (Fin C → ℝ) => fun p i => formula inverse θ.1 θ.2 x p i) _
      (g.clamp.gamma, g.clamp.beta) :=
    hasFDerivAt_pi.2 fun p => hasFDerivAt_pi.2 fun i => hasDerivAt_formula inverse g hb x p i
  have := HasFDerivAt.comp (g.clamp.gamma, g.clamp.beta) hloss hF
  refine ⟨_, this, fun δ => ?_⟩
  simp only [ContinuousLinearMap.comp_apply, hL, ContinuousLinearMap.coe_pi', ContinuousLinearMap.smul_apply,
    ContinuousLinearMap.add_apply, ContinuousLinearMap.sum_apply, ContinuousLinearMap.proj_apply,
    ContinuousLinearMap.coe_fst', ContinuousLinearMap.coe_snd', smul_eq_mul]
  set n : Fin P → Fin C → ℝ := fun p i =>
    up p i * (if inverse then x p i else -x p i / (g.clamp.norm (x p) i) ^ 2) with hn
  have hgam : d.gamma = fun i j => ∑ p, n p i * |x p j| := by
    funext i j
    simp only [d, gradsOf, hn, show (call inverse g x).1 = g.clamp from rfl]
    cases inverse
    · simp [backward, convBackward]
      exact Finset.sum_congr rfl fun p _ => by ring
    · simp [backwardInverse, convBackward]
  have hbet : d.beta = fun i => ∑ p, n p i := by
    funext i
    simp only [d, gradsOf, hn, show (call inverse g x).1 = g.clamp from rfl]
    cases inverse
    · simp [backward, convBackward]
      exact Finset.sum_congr rfl fun p _ => by ring
    · simp [backwardInverse, convBackward]
  rw [hgam, hbet]
  have e1 : ∀ p i, up p i * ((if inverse then x p i else -x p i / (g.clamp.norm (x p) i) ^ 2) *
      (δ.2 i + ∑ j, |x p j| * δ.1 i j)) = n p i * δ.2 i + ∑ j, n p i * |x p j| * δ.1 i j := by
    intro p i
    rw [hn]
    simp only [mul_add, Finset.mul_sum]
    rw [← mul_assoc]
    congr 1
    exact Finset.sum_congr rfl fun j _ => by ring
  simp only [e1, Finset.sum_add_distrib, Finset.sum_mul]
  rw [add_comm]
  congr 1
  · rw [Finset.sum_comm]
    refine Finset.sum_congr rfl fun i _ => ?_
    rw [Finset.sum_comm]
  · rw [Finset.sum_comm]

theorem hasDerivAt_abs_sign {x : ℝ} (h : x ≠ 0) : HasDerivAt (fun t : ℝ => |t|) (signOf x) x := by
  unfold signOf
  rcases lt_or_gt_of_ne h with h | h
  · rw [if_neg (not_lt.2 h.le), if_pos h]
    exact hasDerivAt_abs_neg h
  · rw [if_pos h]
    exact hasDerivAt_abs_pos h

theorem hasFDerivAt_image (inverse : Bool) (g : Gdn C) (hb : 0 < g.betaMin) (x : Fin P → Fin C → ℝ)
    (hx : ∀ p j, x p j ≠ 0) (p : Fin P) (i : Fin C) :
    ∃ D : (Fin P → Fin C → ℝ) →L[ℝ] ℝ,
      HasFDerivAt (fun y => formula inverse g.clamp.gamma g.clamp.beta y p i) D x ∧
      ∀ δ, D δ = (if inverse then g.clamp.norm (x p) i else 1 / g.clamp.norm (x p) i) * δ p i +
        (if inverse then x p i else -x p i / (g.clamp.norm (x p) i) ^ 2) *
          ∑ j, g.clamp.gamma i j * (signOf (x p j) * δ p j) := by
  have hpos := norm_pos g hb (x p) i
  have hc : ∀ j, HasFDerivAt (fun y : Fin P → Fin C → ℝ => y p j)
      ((ContinuousLinearMap.proj (R := ℝ) (φ := fun _ : Fin C => ℝ) j).comp
        (ContinuousLinearMap.proj (R := ℝ) (φ := fun _ : Fin P => Fin C → ℝ) p)) x := fun j =>
    ContinuousLinearMap.hasFDerivAt
      ((ContinuousLinearMap.proj (R := ℝ) (φ := fun _ : Fin C => ℝ) j).comp
        (ContinuousLinearMap.proj (R := ℝ) (φ := fun _ : Fin P => Fin C → ℝ) p))
  have ha := fun j => (HasDerivAt.comp_hasFDerivAt x (hasDerivAt_abs_sign (hx p j)) (hc j))
  have hs := (HasFDerivAt.fun_sum (u := Finset.univ) fun j _ => (ha j).const_mul (g.clamp.gamma i j)).const_add
    (g.clamp.beta i)
  have en : g.clamp.norm (x p) i = g.clamp.beta i + ∑ j, g.clamp.gamma i j * |x p j| := by
    unfold Gdn.norm; rw [add_comm]
  cases inverse
  · have h1 := (hasDerivAt_inv (en ▸ hpos.ne' : g.clamp.beta i + ∑ j, g.clamp.gamma i j * |x p j| ≠ 0)).comp_hasFDerivAt
      x hs
    refine ⟨_, ((hc i).mul h1).congr_of_eventuallyEq ?_, ?_⟩
    · refine Filter.Eventually.of_forall fun y => ?_
      simp [formula, div_eq_mul_inv]
    · intro δ
      rw [en]
      simp
      ring
  · refine ⟨_, ((hc i).mul hs).congr_of_eventuallyEq ?_, ?_⟩
    · refine Filter.Eventually.of_forall fun y => ?_
      simp [formula]
    · intro δ
      rw [en]
      simp
      ring

/-- **C128, gradient of the image.** The same for the gradient that is sent on to the layers before, at every image
without a zero: it is the exact gradient of the loss with the documented formula in place of the layer. -/
theorem C128_image (inverse : Bool) (g : Gdn C) (hb : 0 < g.betaMin) (x : Fin P → Fin C → ℝ) (hx : ∀ p j, x p j ≠ 0)
    (loss : (Fin P → Fin C → ℝ) → ℝ) (up : Fin P → Fin C → ℝ) (L : (Fin P → Fin C → ℝ) →L[ℝ] ℝ)
    (hL : ∀ d, L d = ∑ p, ∑ i, up p i * d p i) (hloss : HasFDerivAt loss L (call inverse g x).2) :
    let g' := (call inverse g x).1
    let d := gradsOf inverse g x up
    ∃ D : (Fin P → Fin C → ℝ) →L[ℝ] ℝ,
      HasFDerivAt (fun y => loss fun p i => formula inverse g'.gamma g'.beta y p i) D x ∧
      ∀ δ, D δ = ∑ p, ∑ j, d.image p j * δ p j := by
  intro g' d
  have hout : (call inverse g x).2 = fun p i => formula inverse g.clamp.gamma g.clamp.beta x p i := by
    funext p i; exact call_out inverse g x p i
  rw [hout] at hloss
  choose D hD hDv using hasFDerivAt_image inverse g hb x hx
  have hF : HasFDerivAt (fun y : Fin P → Fin C → ℝ => fun p i => formula inverse g.clamp.gamma g.clamp.beta y p i)
      (ContinuousLinearMap.pi fun p => ContinuousLinearMap.pi fun i => D p i) x :=
    hasFDerivAt_pi.2 fun p => hasFDerivAt_pi.2 fun i => hD p i
  refine ⟨_, HasFDerivAt.comp x hloss hF, fun δ => ?_⟩
  simp only [ContinuousLinearMap.comp_apply, hL, ContinuousLinearMap.coe_pi', hDv]
  refine Finset.sum_congr rfl fun p _ => ?_
  set n : Fin C → ℝ := fun i => up p i * (if inverse then x p i else -x p i / (g.clamp.norm (x p) i) ^ 2) with hn
  have himg : ∀ j, d.image p j = up p j * (if inverse then g.clamp.norm (x p) j else 1 / g.clamp.norm (x p) j) +
      (∑ i, g.clamp.gamma i j * n i) * signOf (x p j) := by
    intro j
    simp only [d, gradsOf, hn, show (call inverse g x).1 = g.clamp from rfl]
    cases inverse
    · simp only [backward, convBackward, Bool.false_eq_true, if_false]
      congr 1
      · ring
      · congr 1
        exact Finset.sum_congr rfl fun i _ => by ring
    · simp [backwardInverse, convBackward]
  simp only [himg, add_mul, mul_add, Finset.sum_add_distrib, Finset.sum_mul, Finset.mul_sum]
  congr 1
  · exact Finset.sum_congr rfl fun i _ => by ring
  · rw [Finset.sum_comm]
    refine Finset.sum_congr rfl fun j _ => Finset.sum_congr rfl fun i _ => ?_
    rw [hn]
    ring

/-- The spec of a step of gradient descent on the parameters `g'`. -/
noncomputable def descent (lr : ℝ) (g' : Gdn C) (d : Grads C P) : (Fin C → Fin C → ℝ) × (Fin C → ℝ) :=
  (fun i j => g'.gamma i j - lr * d.gamma i j, fun i => g'.beta i - lr * d.beta i)

/-- The nearest point of a half line. -/
theorem max_nearest (a m b : ℝ) (h : m ≤ b) : (a - max a m) ^ 2 + (max a m - b) ^ 2 ≤ (a - b) ^ 2 := by
  rcases le_total a m with h1 | h1
  · rw [max_eq_right h1]
    nlinarith
  · rw [max_eq_left h1]
    nlinarith [sq_nonneg (a - b)]

/-- **C128, projected gradient descent.** After a step of plain gradient descent the parameters in use in the next call
are the unique feasible parameters that are nearest to the point that the step reached: the training is projected
gradient descent. -/
theorem C128_projected (inverse : Bool) (lr : ℝ) (g : Gdn C) (x x' : Fin P → Fin C → ℝ)
    (up : (Fin P → Fin C → ℝ) → Fin P → Fin C → ℝ) :
    let used := (call inverse g x).1
    let target := descent lr used (gradsOf inverse g x (up (call inverse g x).2))
    let next := (call inverse (step inverse () g (.train x up (sgd lr))).2.1 x').1
    Feasible g.betaMin next.gamma next.beta ∧
      ∀ gamma beta, Feasible g.betaMin gamma beta →
        sqDist target.1 target.2 next.gamma next.beta ≤ sqDist target.1 target.2 gamma beta ∧
        (sqDist target.1 target.2 gamma beta ≤ sqDist target.1 target.2 next.gamma next.beta →
          gamma = next.gamma ∧ beta = next.beta) := by
  intro used target next
  have hnext : next = Gdn.clamp ⟨target.1, target.2, g.betaMin⟩ := rfl
  refine ⟨by rw [hnext]; exact clamp_feasible ⟨target.1, target.2, g.betaMin⟩, ?_⟩
  intro gamma beta hf
  have hg : ∀ i j, (target.1 i j - next.gamma i j) ^ 2 + (next.gamma i j - gamma i j) ^ 2 ≤
      (target.1 i j - gamma i j) ^ 2 := fun i j => max_nearest _ _ _ (hf.1 i j)
  have hbt : ∀ i, (target.2 i - next.beta i) ^ 2 + (next.beta i - beta i) ^ 2 ≤ (target.2 i - beta i) ^ 2 :=
    fun i => max_nearest _ _ _ (hf.2 i)
  have key : sqDist target.1 target.2 next.gamma next.beta + sqDist next.gamma next.beta gamma beta ≤
      sqDist target.1 target.2 gamma beta := by
    unfold sqDist
    have h1 : ∑ i, ∑ j, ((target.1 i j - next.gamma i j) ^ 2 + (next.gamma i j - gamma i j) ^ 2) ≤
        ∑ i, ∑ j, (target.1 i j - gamma i j) ^ 2 :=
      Finset.sum_le_sum fun i _ => Finset.sum_le_sum fun j _ => hg i j
    have h2 : ∑ i, ((target.2 i - next.beta i) ^ 2 + (next.beta i - beta i) ^ 2) ≤
        ∑ i, (target.2 i - beta i) ^ 2 := Finset.sum_le_sum fun i _ => hbt i
    simp only [Finset.sum_add_distrib] at h1 h2
    linarith
  have h0 : 0 ≤ ∑ i, ∑ j, (next.gamma i j - gamma i j) ^ 2 :=
    Finset.sum_nonneg fun i _ => Finset.sum_nonneg fun j _ => sq_nonneg _
  have h0' : 0 ≤ ∑ i, (next.beta i - beta i) ^ 2 := Finset.sum_nonneg fun i _ => sq_nonneg _
  have hs : 0 ≤ sqDist next.gamma next.beta gamma beta := add_nonneg h0 h0'
  refine ⟨by linarith, fun hle => ?_⟩
  have hz : sqDist next.gamma next.beta gamma beta = 0 := by linarith
  have hz' : ∑ i, ∑ j, (next.gamma i j - gamma i j) ^ 2 + ∑ i, (next.beta i - beta i) ^ 2 = 0 := hz
  have e1 : ∑ i, ∑ j, (next.gamma i j - gamma i j) ^ 2 = 0 := by linarith
  have e2 : ∑ i, (next.beta i - beta i) ^ 2 = 0 := by linarith
  constructor
  · funext i j
    have := (Finset.sum_eq_zero_iff_of_nonneg fun i _ => Finset.sum_nonneg fun j _ => sq_nonneg _).1 e1 i
      (Finset.mem_univ i)
    have := (Finset.sum_eq_zero_iff_of_nonneg fun j _ => sq_nonneg _).1 this j (Finset.mem_univ j)
    have := pow_eq_zero_iff (two_ne_zero) |>.1 this
    linarith
  · funext i
    have := (Finset.sum_eq_zero_iff_of_nonneg fun j _ => sq_nonneg _).1 e2 i (Finset.mem_univ i)
    have := pow_eq_zero_iff (two_ne_zero) |>.1 this
    linarith

/-- The training events of a history. -/
def isTrain {S : Type} : Event C P S → Bool
  | .evaluate _ => false
  | .train _ _ _ => true

theorem run_congr {S : Type} (inverse : Bool) (evs : List (Event C P S)) :
    ∀ (s : S) (g h : Gdn C), g.clamp = h.clamp →
      (run inverse s g evs).1 = (run inverse s h (evs.filter isTrain)).1 ∧
      (run inverse s g evs).2.1.clamp = (run inverse s h (evs.filter isTrain)).2.1.clamp ∧
      (run inverse s g evs).2.2 = (run inverse s h (evs.filter isTrain)).2.2 := by
  induction evs with
  | nil => intro s g h e; exact ⟨rfl, e, rfl⟩
  | cons ev evs ih =>
    intro s g h e
    cases ev with
    | evaluate x =>
      have : (Event.evaluate x :: evs).filter (isTrain (S := S)) = evs.filter isTrain := by simp [isTrain]
      rw [this]
      have hc : (call inverse g x).1.clamp = h.clamp := by
        show g.clamp.clamp = _
        rw [clamp_clamp, e]
      have := ih s (call inverse g x).1 h hc
      simpa [run, step] using this
    | train x up opt =>
      have hf : (Event.train x up opt :: evs).filter isTrain = Event.train x up opt :: evs.filter isTrain :=
        List.filter_cons_of_pos rfl
      rw [hf]
      have hcall : call inverse g x = call inverse h x := by unfold call; rw [e]
      have hstep : step inverse s g (.train x up opt) = step inverse s h (.train x up opt) := by
        simp only [step, hcall]
      simp only [run, hstep]
      obtain ⟨h1, h2, h3⟩ := ih (step inverse s h (.train x up opt)).1 (step inverse s h (.train x up opt)).2.1
        (step inverse s h (.train x up opt)).2.1 rfl
      exact ⟨h1, h2, by rw [h3]⟩

/-- **C128, evaluations.** Although every call stores clamped parameters in the layer, evaluations in between do not
disturb training: with and without them the outputs of all training steps and the state of the optimiser are the same,
and so is every later output of the layer. -/
theorem C128_evaluations {S : Type} (inverse : Bool) (s : S) (g : Gdn C) (evs : List (Event C P S)) :
    let with_ := run inverse s g evs
    let without := run inverse s g (evs.filter isTrain)
    with_.2.2 = without.2.2 ∧ with_.1 = without.1 ∧
      ∀ {Q : ℕ} (y : Fin Q → Fin C → ℝ), call inverse with_.2.1 y = call inverse without.2.1 y := by
  intro a b
  obtain ⟨h1, h2, h3⟩ := run_congr inverse evs s g g rfl
  refine ⟨h3, h1, fun y => ?_⟩
  have h2' : a.2.1.clamp = b.2.1.clamp := h2
  unfold call
  rw [h2']

/-- **C128, range.** At every point of every history, the parameters that a call uses are in their range, and the call
computes the documented formula with them. -/
theorem C128_range {S : Type} (inverse : Bool) (s : S) (g : Gdn C) (evs : List (Event C P S)) {Q : ℕ}
    (y : Fin Q → Fin C → ℝ) :
    let r := call inverse (run inverse s g evs).2.1 y
    Feasible g.betaMin r.1.gamma r.1.beta ∧ ∀ p i, r.2 p i = formula inverse r.1.gamma r.1.beta y p i := by
  have key : ∀ (evs : List (Event C P S)) (s : S) (g : Gdn C), (run inverse s g evs).2.1.betaMin = g.betaMin := by
    intro evs
    induction evs with
    | nil => intro s g; rfl
    | cons ev evs ih =>
      intro s g
      simp only [run]
      rw [ih]
      cases ev <;> rfl
  intro r
  refine ⟨?_, fun p i => call_out inverse _ y p i⟩
  have := clamp_feasible (run inverse s g evs).2.1
  rw [key] at this
  exact this

/-- **C128, disagreement.** (A remark on a private helper.) The documented "clamping but preserving gradients" does not exist: `backward` through the
clamping of a tensor that requires a gradient raises. The layers never meet this, because they clamp `.data`. -/
theorem C128_clamp_backward (data min grad : ℝ) :
    (clampMin true data min grad).2 = some none ∧ (clampMin false data min grad).2 = none := by
  simp [clampMin, clampMinBackward]

/-- C128 is not vacuous: one channel, one pixel of value 3, weight and bias below their minimum; the loss is the output.
The call clamps to weight 0 and bias 2 and returns 3 / 2, and the gradients are those of `3 / (beta + 3 * gamma)`. -/
example : let g : Gdn 1 := ⟨fun _ _ => -5, fun _ => 1, 2⟩
    let x : Fin 1 → Fin 1 → ℝ := fun _ _ => 3
    let d := gradsOf false g x fun _ _ => 1
    (call false g x).2 0 0 = 3 / 2 ∧ d.gamma 0 0 = -9 / 4 ∧ d.beta 0 = -3 / 4 ∧ d.image 0 0 = 1 / 2 := by
  simp [call, gradsOf, backward, convBackward, Gdn.forward, Gdn.clamp, Gdn.norm]
  norm_num

/-- The hypotheses of the gradient theorems are met by that layer and the loss `output`. -/
example : let g : Gdn 1 := ⟨fun _ _ => -5, fun _ => 1, 2⟩
    0 < g.betaMin ∧ ∃ L : (Fin 1 → Fin 1 → ℝ) →L[ℝ] ℝ, (∀ d, L d = ∑ p, ∑ i, 1 * d p i) ∧
      HasFDerivAt (fun o : Fin 1 → Fin 1 → ℝ => o 0 0) L (call false g fun _ _ => (3 : ℝ)).2 := by
  refine ⟨by norm_num, (ContinuousLinearMap.proj (R := ℝ) (φ := fun _ : Fin 1 => ℝ) 0).comp
        (ContinuousLinearMap.proj (R := ℝ) (φ := fun _ : Fin 1 => Fin 1 → ℝ) 0), by simp, ?_⟩
  exact ContinuousLinearMap.hasFDerivAt ((ContinuousLinearMap.proj (R := ℝ) (φ := fun _ : Fin 1 => ℝ) 0).comp
        (ContinuousLinearMap.proj (R := ℝ) (φ := fun _ : Fin 1 => Fin 1 → ℝ) 0))

end Verif.Layers.GdnTrain
