import Verif.Train.LossGrad
import Verif.Train.PropsLoss
import Mathlib.Analysis.Calculus.Deriv.Inv
import Mathlib.Analysis.Calculus.Deriv.Pow
import Mathlib.Analysis.SpecialFunctions.ExpDeriv
import Mathlib.Analysis.SpecialFunctions.Log.Deriv

/-!
C155: gradients of the training losses.
-/

namespace Verif.Train.LossGrad

open Filter Topology Verif.Train.Loss
open scoped BigOperators

/-! ### Specification -/

/-- Along a path, the loss never raises, and `g` times its value has the derivative `D` at zero. -/
def Slope {E : Type} (loss : ℝ → Except E ℝ) (g D : ℝ) : Prop :=
  ∃ L : ℝ → ℝ, (∀ s, loss s = .ok (L s)) ∧ HasDerivAt (fun s => g * L s) D 0

/-- Logits on a straight line. -/
noncomputable def along (t : Tensor ℝ) (δ : ℕ → ℝ) (s : ℝ) : Tensor ℝ := ⟨t.shape, fun i => t.data i + s * δ i⟩

/-- A map of logits on a straight line. -/
noncomputable def alongMap (l : Logits) (δ : ℕ → ℕ → ℕ → ℝ) (s : ℝ) : Logits :=
  { l with data := fun b c p => l.data b c p + s * δ b c p }

theorem hasDerivAt_line (a b : ℝ) : HasDerivAt (fun s : ℝ => a + s * b) b 0 := by
  simpa using ((hasDerivAt_id (0 : ℝ)).mul_const b).const_add a

/-! ### Binary cross-entropy -/

theorem hasDerivAt_bce (x t : ℝ) : HasDerivAt (fun x => bce x t) (sigm x - t) x := by
  have e : (fun x => bce x t) = fun x => Real.log (1 + Real.exp x) - x * t := by
    funext x; exact bce_softplus x t
  rw [e]
  have h1 : HasDerivAt (fun x => Real.log (1 + Real.exp x)) (Real.exp x / (1 + Real.exp x)) x :=
    ((Real.hasDerivAt_exp x).const_add 1).log (by positivity)
  have h2 : HasDerivAt (fun x : ℝ => x * t) (1 * t) x := (hasDerivAt_id x).mul_const t
  refine (h1.sub h2).congr_deriv ?_
  unfold sigm
  rw [one_mul, Real.exp_neg]
  have : Real.exp x ≠ 0 := (Real.exp_pos x).ne'
  congr 1
  field_simp
  ring

theorem slope_bceLoss {l t : Tensor ℝ} {v : ℝ} (h : bceLoss l t = .ok v) (δ : ℕ → ℝ) (g : ℝ) :
    ∃ G, bceBack l t g = .ok G ∧
      Slope (fun s => bceLoss (along l δ s) t) g (∑ i ∈ Finset.range l.numel, G i * δ i) := by
  by_cases hs : l.shape = t.shape
  · refine ⟨fun i => g * (sigm (l.data i) - t.data i) / l.numel, by simp [bceBack, hs], ?_⟩
    refine ⟨fun s => Tensor.mean ⟨l.shape, fun i => bce (l.data i + s * δ i) (t.data i)⟩, fun s => ?_, ?_⟩
    · simp [bceLoss, along, hs]
    · unfold Tensor.mean
      have hsum : HasDerivAt (fun s : ℝ => ∑ i ∈ Finset.range l.numel, bce (l.data i + s * δ i) (t.data i))
          (∑ i ∈ Finset.range l.numel, (sigm (l.data i) - t.data i) * δ i) 0 := by
        refine HasDerivAt.fun_sum fun i _ => ?_
        have h := HasDerivAt.comp (h₂ := fun x => bce x (t.data i)) (0 : ℝ) (hasDerivAt_bce (l.data i + 0 * δ i) (t.data i))
          (hasDerivAt_line (l.data i) (δ i))
        have h' : HasDerivAt (fun s : ℝ => bce (l.data i + s * δ i) (t.data i))
          ((sigm (l.data i + 0 * δ i) - t.data i) * δ i) 0 := h
        rwa [zero_mul, add_zero] at h'
      refine ((hsum.div_const (l.numel : ℝ)).const_mul g).congr_deriv ?_
      rw [Finset.sum_div, Finset.mul_sum]
      exact Finset.sum_congr rfl fun i _ => by ring
  · simp [bceLoss, hs] at h

/-- **C155, the generator's cross-entropy.** Wherever the loss has a value, its gradient is its derivative, in every direction. -/
theorem C155_bce_generator (logits target : Tensor ℝ) (v : ℝ) (h : bceGenerator logits target = .ok v) (δ : ℕ → ℝ) (g : ℝ) :
    ∃ G, bceGeneratorBack logits target g = .ok G ∧
      Slope (fun s => bceGenerator (along logits δ s) target) g (∑ i ∈ Finset.range logits.numel, G i * δ i) := by
  have he : ∀ s, expandTarget (along logits δ s) target = expandTarget logits target := fun s => rfl
  unfold bceGenerator bceGeneratorBack at *
  simp only [he]
  cases ht : expandTarget logits target with
  | error e => rw [ht] at h; cases h
  | ok t =>
    rw [ht] at h
    exact slope_bceLoss (l := logits) (t := t) h δ g

theorem Slope.half {E : Type} {a b : ℝ → Except E ℝ} {g x y : ℝ} (ha : Slope a (g * 0.5) x) (hb : Slope b (g * 0.5) y) :
    Slope (fun s => (do let u ← a s; let v ← b s; return 0.5 * (u + v) : Except E ℝ)) g (x + y) := by
  obtain ⟨L, h1, h2⟩ := ha
  obtain ⟨M, h3, h4⟩ := hb
  refine ⟨fun s => 0.5 * (L s + M s), fun s => ?_, ?_⟩
  · show (a s >>= fun u => b s >>= fun v => pure (0.5 * (u + v))) = _
    rw [h1, h3]; rfl
  · refine (h2.add h4).congr_of_eventuallyEq (Eventually.of_forall fun s => ?_)
    show g * (0.5 * (L s + M s)) = g * 0.5 * L s + g * 0.5 * M s
    ring

/-- **C155, the discriminator's cross-entropy.** The same for real and fake logits together. -/
theorem C155_bce_discriminator (real fake target : Tensor ℝ) (v : ℝ) (h : bceDiscriminator real fake target = .ok v)
    (δ ε : ℕ → ℝ) (g : ℝ) :
    ∃ G, bceDiscriminatorBack real fake target g = .ok G ∧
      Slope (fun s => bceDiscriminator (along real δ s) (along fake ε s) target) g
        (∑ i ∈ Finset.range real.numel, G.1 i * δ i + ∑ i ∈ Finset.range fake.numel, G.2 i * ε i) := by
  have he : ∀ s, expandTarget (along real δ s) target = expandTarget real target := fun s => rfl
  unfold bceDiscriminator bceDiscriminatorBack at *
  simp only [he]
  cases ht : expandTarget real target with
  | error e => rw [ht] at h; cases h
  | ok t =>
    rw [ht] at h
    change (bceLoss real t >>= fun a => bceLoss fake ⟨t.shape, fun _ => 0⟩ >>= fun b => pure (0.5 * (a + b))) = _ at h
    cases h1 : bceLoss real t with
    | error e => rw [h1] at h; cases h
    | ok a =>
      rw [h1] at h
      cases h2 : bceLoss fake ⟨t.shape, fun _ => 0⟩ with
      | error e => 
        change (bceLoss fake ⟨t.shape, fun _ => 0⟩ >>= fun b => pure (0.5 * (a + b))) = _ at h
        rw [h2] at h; cases h
      | ok b =>
        obtain ⟨G, g1, g2⟩ := slope_bceLoss h1 δ (g * 0.5)
        obtain ⟨G', g3, g4⟩ := slope_bceLoss h2 ε (g * 0.5)
        refine ⟨(G, G'), ?_, g2.half g4⟩
        show (bceBack real t (g * 0.5) >>= fun a => bceBack fake ⟨t.shape, fun _ => 0⟩ (g * 0.5) >>= fun b => pure (a, b)) = _
        rw [g1, g3]; rfl

/-- **C155, a generator that is found out still learns.** With target 1 the gradient of every logit is negative, at most the
weight, and at least half of it where the discriminator says "fake". -/
theorem C155_bce_saturation (logits : Tensor ℝ) (g : ℝ) (hg : 0 < g) (i : ℕ)
    (hi : 0 < logits.numel) :
    ∃ G, bceGeneratorBack logits ⟨[], fun _ => 1⟩ g = .ok G ∧ G i < 0 ∧ -(g / logits.numel) < G i ∧
      (logits.data i ≤ 0 → G i ≤ -(g / logits.numel) / 2) := by
  have hn : (0 : ℝ) < logits.numel := by exact_mod_cast hi
  refine ⟨fun i => g * (sigm (logits.data i) - 1 * 1) / logits.numel, ?_, ?_, ?_, fun hx => ?_⟩
  · show bceBack logits ⟨logits.shape, fun _ => 1 * 1⟩ g = _
    simp [bceBack]
  · refine div_neg_of_neg_of_pos (mul_neg_of_pos_of_neg hg ?_) hn
    have := sigmoid_lt_one (logits.data i)
    change sigm (logits.data i) < 1 at this
    linarith
  · rw [← neg_div, div_lt_div_iff_of_pos_right hn]
    have := sigmoid_pos (logits.data i)
    change 0 < sigm (logits.data i) at this
    nlinarith
  · have h2 : sigm (logits.data i) ≤ 1 / 2 := by
      unfold sigm
      refine one_div_le_one_div_of_le (by norm_num) ?_
      have : 1 ≤ Real.exp (-logits.data i) := Real.one_le_exp (by linarith)
      linarith
    have e : -(g / (logits.numel : ℝ)) / 2 = (-(g / 2)) / logits.numel := by ring
    rw [e, div_le_div_iff_of_pos_right hn]
    nlinarith

/-! ### OASIS -/

theorem hasDerivAt_crossEntropy (classes : ℕ) (x δ : ℕ → ℝ) (label : ℕ) (hl : label < classes) :
    HasDerivAt (fun s : ℝ => crossEntropy classes (fun c => x c + s * δ c) label)
      (∑ c ∈ Finset.range classes, (softmax classes x c - if c = label then 1 else 0) * δ c) 0 := by
  have hpos : 0 < ∑ c ∈ Finset.range classes, Real.exp (x c) :=
    Finset.sum_pos (fun c _ => Real.exp_pos _) ⟨label, Finset.mem_range.2 hl⟩
  have h1 : HasDerivAt (fun s : ℝ => ∑ c ∈ Finset.range classes, Real.exp (x c + s * δ c))
      (∑ c ∈ Finset.range classes, Real.exp (x c) * δ c) 0 := by
    refine HasDerivAt.fun_sum fun c _ => ?_
    simpa using (hasDerivAt_line (x c) (δ c)).exp
  have h2 := h1.log (by simpa using hpos.ne')
  refine (h2.sub (hasDerivAt_line (x label) (δ label))).congr_deriv ?_
  simp only [zero_mul, add_zero, sub_mul, Finset.sum_sub_distrib, ite_mul, one_mul]
  congr 1
  · unfold softmax
    rw [Finset.sum_div]
    exact Finset.sum_congr rfl fun c _ => by ring
  · rw [Finset.sum_ite_eq' (Finset.range classes) label δ, if_pos (Finset.mem_range.2 hl)]

theorem slope_crossEntropyLoss {l : Logits} {labels : ℕ → ℕ → ℤ} {v : ℝ} (h : crossEntropyLoss l labels = .ok v)
    (δ : ℕ → ℕ → ℕ → ℝ) (g : ℝ) :
    ∃ G, crossEntropyBack l labels g = .ok G ∧
      Slope (fun s => crossEntropyLoss (alongMap l δ s) labels) g
        (∑ b ∈ Finset.range l.batch, ∑ p ∈ Finset.range (l.height * l.width), ∑ c ∈ Finset.range l.classes,
          G b c p * δ b c p) := by
  classical
  unfold crossEntropyLoss at h
  split_ifs at h with hr
  refine ⟨_, by unfold crossEntropyBack; rw [if_pos hr], ?_⟩
  refine ⟨fun s => (∑ b ∈ Finset.range l.batch, ∑ p ∈ Finset.range (l.height * l.width),
      if labels b p = -100 then 0
      else crossEntropy l.classes (fun c => l.data b c p + s * δ b c p) (labels b p).toNat) /
      (∑ b ∈ Finset.range l.batch, ∑ p ∈ Finset.range (l.height * l.width), if labels b p = -100 then 0 else 1 : ℕ),
    fun s => ?_, ?_⟩
  · show crossEntropyLoss (alongMap l δ s) labels = _
    unfold crossEntropyLoss
    split_ifs with hr'
    · rfl
    · exact absurd hr hr'
  · have hsum : HasDerivAt (fun s : ℝ => ∑ b ∈ Finset.range l.batch, ∑ p ∈ Finset.range (l.height * l.width),
        if labels b p = -100 then 0
        else crossEntropy l.classes (fun c => l.data b c p + s * δ b c p) (labels b p).toNat)
        (∑ b ∈ Finset.range l.batch, ∑ p ∈ Finset.range (l.height * l.width), if labels b p = -100 then 0 else
          ∑ c ∈ Finset.range l.classes, (softmax l.classes (fun c => l.data b c p) c -
            if (c : ℤ) = labels b p then 1 else 0) * δ b c p) 0 := by
      refine HasDerivAt.fun_sum fun b hb => HasDerivAt.fun_sum fun p hp => ?_
      split_ifs with h100
      · exact hasDerivAt_const _ _
      · rcases hr b (Finset.mem_range.1 hb) p (Finset.mem_range.1 hp) with h' | ⟨h0, h1⟩
        · exact absurd h' h100
        · obtain ⟨k, hk⟩ := Int.eq_ofNat_of_zero_le h0
          rw [hk] at h1 ⊢
          have hk' : k < l.classes := by exact_mod_cast h1
          refine (hasDerivAt_crossEntropy l.classes (fun c => l.data b c p) (fun c => δ b c p) k hk').congr_deriv ?_
          refine Finset.sum_congr rfl fun c _ => ?_
          simp only [Int.natCast_inj]
    refine ((hsum.div_const _).const_mul g).congr_deriv ?_
    rw [Finset.sum_div, Finset.mul_sum]
    refine Finset.sum_congr rfl fun b _ => ?_
    rw [Finset.sum_div, Finset.mul_sum]
    refine Finset.sum_congr rfl fun p _ => ?_
    split_ifs with h100
    · simp
    · rw [Finset.sum_div, Finset.mul_sum]
      refine Finset.sum_congr rfl fun c _ => ?_
      ring

/-- **C155, the OASIS generator loss.** Wherever the loss has a value, its gradient is its derivative, in every direction. -/
theorem C155_oasis_generator (l : Logits) (t : Target) (v : ℝ) (h : oasisGenerator l t = .ok v) (δ : ℕ → ℕ → ℕ → ℝ) (g : ℝ) :
    ∃ G, oasisGeneratorBack l t g = .ok G ∧
      Slope (fun s => oasisGenerator (alongMap l δ s) t) g
        (∑ b ∈ Finset.range l.batch, ∑ p ∈ Finset.range (l.height * l.width), ∑ c ∈ Finset.range l.classes,
          G b c p * δ b c p) := by
  have he : ∀ s, verifyShape (alongMap l δ s) t = verifyShape l t := fun s => rfl
  have hv : ∀ s b p, t.view (alongMap l δ s) b p = t.view l b p := fun s b p => rfl
  unfold oasisGenerator oasisGeneratorBack at *
  simp only [he, hv]
  cases h1 : verifyShape l t with
  | error e => rw [h1] at h; cases h
  | ok u =>
    rw [h1] at h
    cases h2 : t.long with
    | false => rw [h2] at h; cases h
    | true =>
      rw [h2] at h
      exact slope_crossEntropyLoss (l := l) (labels := fun b p => t.view l b p + 1) h δ g

/-- **C155, the OASIS discriminator loss.** The same for real and fake logits together. -/
theorem C155_oasis_discriminator (real fake : Logits) (t : Target) (v : ℝ) (h : oasisDiscriminator real fake t = .ok v)
    (δ ε : ℕ → ℕ → ℕ → ℝ) (g : ℝ) :
    ∃ G, oasisDiscriminatorBack real fake t g = .ok G ∧
      Slope (fun s => oasisDiscriminator (alongMap real δ s) (alongMap fake ε s) t) g
        (∑ b ∈ Finset.range real.batch, ∑ p ∈ Finset.range (real.height * real.width), ∑ c ∈ Finset.range real.classes,
            G.1 b c p * δ b c p +
          ∑ b ∈ Finset.range fake.batch, ∑ p ∈ Finset.range (fake.height * fake.width), ∑ c ∈ Finset.range fake.classes,
            G.2 b c p * ε b c p) := by
  have he : ∀ s, verifyShape (alongMap real δ s) t = verifyShape real t := fun s => rfl
  have he' : ∀ s, verifyShape (alongMap fake ε s) t = verifyShape fake t := fun s => rfl
  have hv : ∀ s b p, t.view (alongMap real δ s) b p = t.view real b p := fun s b p => rfl
  unfold oasisDiscriminator oasisDiscriminatorBack at *
  simp only [he, he', hv]
  cases h1 : verifyShape real t with
  | error e => rw [h1] at h; cases h
  | ok u =>
    rw [h1] at h
    cases h1' : verifyShape fake t with
    | error e => 
      rw [h1'] at h; cases h
    | ok u' =>
      rw [h1'] at h
      cases h2 : t.long with
      | false => rw [h2] at h; cases h
      | true =>
        rw [h2] at h
        change (crossEntropyLoss real (fun b p => t.view real b p + 1) >>= fun a =>
          crossEntropyLoss fake (fun _ _ => 0) >>= fun b => pure (0.5 * (a + b))) = _ at h
        cases h3 : crossEntropyLoss real (fun b p => t.view real b p + 1) with
        | error e => rw [h3] at h; cases h
        | ok a =>
          rw [h3] at h
          change (crossEntropyLoss fake (fun _ _ => 0) >>= fun b => pure (0.5 * (a + b))) = _ at h
          cases h4 : crossEntropyLoss fake (fun _ _ => 0) with
          | error e => rw [h4] at h; cases h
          | ok b =>
            obtain ⟨G, g1, g2⟩ := slope_crossEntropyLoss h3 δ (g * 0.5)
            obtain ⟨G', g3, g4⟩ := slope_crossEntropyLoss h4 ε (g * 0.5)
            refine ⟨(G, G'), ?_, g2.half g4⟩
            show (crossEntropyBack real (fun b p => t.view real b p + 1) (g * 0.5) >>= fun a =>
              crossEntropyBack fake (fun _ _ => 0) (g * 0.5) >>= fun b => pure (a, b)) = _
            rw [g1, g3]; rfl

/-- **C155, classes.** At every position the gradients of all classes sum to zero: only differences of logits are learned. -/
theorem C155_oasis_balance (l : Logits) (t : Target) (g : ℝ) (G : ℕ → ℕ → ℕ → ℝ) (h : oasisGeneratorBack l t g = .ok G)
    (b p : ℕ) (hb : b < l.batch) (hp : p < l.height * l.width) :
    ∑ c ∈ Finset.range l.classes, G b c p = 0 := by
  classical
  unfold oasisGeneratorBack at h
  cases h1 : verifyShape l t with
  | error e => rw [h1] at h; cases h
  | ok u =>
    rw [h1] at h
    cases h2 : t.long with
    | false => rw [h2] at h; cases h
    | true =>
      rw [h2] at h
      change crossEntropyBack l (fun b p => t.view l b p + 1) g = .ok G at h
      unfold crossEntropyBack at h
      split_ifs at h with hr
      cases h
      have hr' : t.view l b p + 1 = -100 ∨ (0 ≤ t.view l b p + 1 ∧ t.view l b p + 1 < l.classes) := hr b hb p hp
      rcases hr' with h' | ⟨h0, h1⟩
      · exact Finset.sum_eq_zero fun c _ => if_pos h'
      · have hne : t.view l b p + 1 ≠ -100 := by omega
        obtain ⟨k, hk⟩ := Int.eq_ofNat_of_zero_le h0
        simp only [if_neg hne]
        rw [← Finset.sum_div, ← Finset.mul_sum, Finset.sum_sub_distrib]
        simp only [hk, Int.natCast_inj]
        have hk' : k < l.classes := by rw [hk] at h1; exact_mod_cast h1
        rw [Finset.sum_ite_eq' (Finset.range l.classes) k fun _ => (1 : ℝ), if_pos (Finset.mem_range.2 hk')]
        have hpos : 0 < ∑ c ∈ Finset.range l.classes, Real.exp (l.data b c p) :=
          Finset.sum_pos (fun c _ => Real.exp_pos _) ⟨k, Finset.mem_range.2 hk'⟩
        unfold softmax
        rw [← Finset.sum_div, div_self hpos.ne', sub_self, mul_zero, zero_div]

/-! ### LPIPS -/

/-- The backward pass of the network is right at `x`: in every direction the features have a derivative, and pairing it with a
gradient of the features is pairing the direction with what the backward pass makes of that gradient. -/
def RightAt {n : ℕ} (l : LayerBack n) (x : Fin n → ℝ) : Prop :=
  ∀ δ : Fin n → ℝ, ∃ f' : Fin l.1.positions → Fin l.1.channels → ℝ,
    (∀ p c, HasDerivAt (fun s : ℝ => l.1.features (fun i => x i + s * δ i) p c) (f' p c) 0) ∧
    ∀ g, ∑ p, ∑ c, g p c * f' p c = ∑ i, l.2 x g i * δ i

theorem radicand_pos {C : ℕ} (eps : ℝ) (he : 0 < eps) (x : Fin C → ℝ) (c : Fin C) : 0 < ∑ j, (x j ^ 2 + eps) :=
  Finset.sum_pos (fun j _ => by positivity) ⟨c, Finset.mem_univ _⟩

/-- The normalisation along a path. -/
theorem hasDerivAt_normalizeTensor {C : ℕ} (eps : ℝ) (he : 0 < eps) {x : ℝ → Fin C → ℝ} {x' : Fin C → ℝ}
    (hx : ∀ c, HasDerivAt (fun s => x s c) (x' c) 0) :
    ∃ n' : Fin C → ℝ, (∀ c, HasDerivAt (fun s => normalizeTensor eps (x s) c) (n' c) 0) ∧
      ∀ g, ∑ c, g c * n' c = ∑ c, normalizeTensorBack eps (x 0) g c * x' c := by
  set N := √(∑ j, (x 0 j ^ 2 + eps)) with hN
  refine ⟨fun c => (x' c * N - x 0 c * ((∑ j, x 0 j * x' j) / N)) / N ^ 2, fun c => ?_, fun g => ?_⟩
  · have hpos := radicand_pos eps he (x 0) c
    have hN0 : 0 < N := Real.sqrt_pos.2 hpos
    have h1 : HasDerivAt (fun s => ∑ j, (x s j ^ 2 + eps)) (∑ j, 2 * (x 0 j * x' j)) 0 := by
      refine HasDerivAt.fun_sum fun j _ => ?_
      refine (((hx j).fun_pow 2).add_const eps).congr_deriv ?_
      norm_num
      ring
    have h2 : HasDerivAt (fun s => √(∑ j, (x s j ^ 2 + eps))) ((∑ j, x 0 j * x' j) / N) 0 := by
      refine (h1.sqrt hpos.ne').congr_deriv ?_
      rw [← hN, ← Finset.mul_sum]
      field_simp
    have h3 := (hx c).fun_div h2 hN0.ne'
    exact h3
  · rcases Nat.eq_zero_or_pos C with hC | hC
    · subst hC; simp
    · have hN0 : 0 < N := Real.sqrt_pos.2 (radicand_pos eps he (x 0) ⟨0, hC⟩)
      simp only [normalizeTensorBack, ← hN]
      have e1 : ∀ c, g c * ((x' c * N - x 0 c * ((∑ j, x 0 j * x' j) / N)) / N ^ 2) =
          g c * x' c / N - g c * x 0 c * ((∑ j, x 0 j * x' j) / N ^ 3) := by
        intro c; field_simp
      have e2 : ∀ c, (g c / N + (-∑ j, g j * x 0 j / N ^ 2) / (2 * N) * (2 * x 0 c)) * x' c =
          g c * x' c / N - x 0 c * x' c * ((∑ j, g j * x 0 j) / N ^ 3) := by
        intro c; rw [← Finset.sum_div]; field_simp; ring
      rw [Finset.sum_congr rfl fun c _ => e1 c, Finset.sum_congr rfl fun c _ => e2 c]
      rw [Finset.sum_sub_distrib, Finset.sum_sub_distrib, ← Finset.sum_mul, ← Finset.sum_mul]
      ring

theorem hasDerivAt_result {n : ℕ} (l : LayerBack n) (trained : Bool) (x y δ : Fin n → ℝ) (g : ℝ) (hr : RightAt l x) :
    HasDerivAt (fun s : ℝ => g * l.1.result trained (fun i => x i + s * δ i) y)
      (∑ i, l.2 x (resultBack l.1 trained x y g) i * δ i) 0 := by
  obtain ⟨f', hf, hadj⟩ := hr δ
  have h0 : (fun i => x i + 0 * δ i) = x := by funext i; ring
  have hn : ∀ p, ∃ n' : Fin l.1.channels → ℝ,
      (∀ c, HasDerivAt (fun s : ℝ => normalizeTensor 1e-8 (l.1.features (fun i => x i + s * δ i) p) c) (n' c) 0) ∧
      ∀ g, ∑ c, g c * n' c = ∑ c, normalizeTensorBack 1e-8 (l.1.features x p) g c * f' p c := by
    intro p
    have := hasDerivAt_normalizeTensor (1e-8) (by norm_num) (x := fun s => l.1.features (fun i => x i + s * δ i) p)
      (x' := f' p) (hf p)
    simpa only [h0] using this
  choose n' hn1 hn2 using hn
  have hsum : HasDerivAt (fun s : ℝ => ∑ p, ∑ c, (if trained then l.1.lin c else 1) *
      (normalizeTensor 1e-8 (l.1.features (fun i => x i + s * δ i) p) c - normalizeTensor 1e-8 (l.1.features y p) c) ^ 2)
      (∑ p, ∑ c, (if trained then l.1.lin c else 1) * (2 *
        (normalizeTensor 1e-8 (l.1.features x p) c - normalizeTensor 1e-8 (l.1.features y p) c) * n' p c)) 0 := by
    refine HasDerivAt.fun_sum fun p _ => HasDerivAt.fun_sum fun c _ => ?_
    refine ((((hn1 p c).sub_const _).fun_pow 2).const_mul _).congr_deriv ?_
    norm_num [h0]
  refine ((hsum.div_const (l.1.positions : ℝ)).const_mul g).congr_deriv ?_
  rw [← hadj]
  simp only [resultBack]
  rw [Finset.sum_div, Finset.mul_sum]
  refine Finset.sum_congr rfl fun p _ => ?_
  rw [← hn2 p, Finset.sum_div, Finset.mul_sum]
  refine Finset.sum_congr rfl fun c _ => ?_
  ring

theorem hasDerivAt_lpips {n : ℕ} (layers : List (LayerBack n)) (trained normalize : Bool) (x y δ : Fin n → ℝ) (g : ℝ)
    (hr : ∀ l ∈ layers, RightAt l (if normalize then fun i => 2 * x i - 1 else x)) :
    HasDerivAt (fun s : ℝ => g * lpips (fun z i => 2 * z i - 1) (layers.map Sigma.fst) trained normalize
        (fun i => x i + s * δ i) y)
      (∑ i, lpipsBack layers trained normalize x y g i * δ i) 0 := by
  have key : ∀ (x y δ : Fin n → ℝ), (∀ l ∈ layers, RightAt l x) →
      HasDerivAt (fun s : ℝ => g * ((layers.map Sigma.fst).map fun l => l.result trained (fun i => x i + s * δ i) y).sum)
        (∑ i, (layers.map fun l => l.2 x (resultBack l.1 trained x y g) i).sum * δ i) 0 := by
    intro x y δ h
    clear hr
    induction layers with
    | nil => simpa using hasDerivAt_const (0 : ℝ) (0 : ℝ)
    | cons l ls ih =>
      simp only [List.map_cons, List.sum_cons, mul_add, add_mul, Finset.sum_add_distrib]
      exact (hasDerivAt_result l trained x y δ g (h l (by simp))).add (ih fun l hl => h l (by simp [hl]))
  cases normalize with
  | false => simpa [lpips, lpipsBack] using key x y δ (by simpa using hr)
  | true =>
    have h := key (fun i => 2 * x i - 1) (fun i => 2 * y i - 1) (fun i => 2 * δ i) (by simpa using hr)
    have e : ∀ s : ℝ, (fun i => 2 * (x i + s * δ i) - 1) = fun i => 2 * x i - 1 + s * (2 * δ i) := by
      intro s; funext i; ring
    simp only [lpips, if_true, e]
    refine h.congr_deriv ?_
    simp only [lpipsBack, if_true]
    exact Finset.sum_congr rfl fun i _ => by ring

/-- **C155, distortion.** Where the backward pass of the network is right, the gradient of the MSE-LPIPS loss is its derivative in
every direction, also where features or their differences are zero. -/
theorem C155_distortion {B n : ℕ} (mseParam lpipsParam : ℝ) (normalize trained : Bool) (layers : List (LayerBack n))
    (x y δ : Fin B → Fin n → ℝ) (g : ℝ)
    (hr : ∀ b, ∀ l ∈ layers, RightAt l (if normalize then fun i => 2 * x b i - 1 else x b)) :
    HasDerivAt (fun s : ℝ => g * mseLpipsLoss mseParam lpipsParam normalize (layers.map Sigma.fst) trained
        (fun b i => x b i + s * δ b i) y)
      (∑ b, ∑ i, mseLpipsBack mseParam lpipsParam normalize layers trained x y g b i * δ b i) 0 := by
  have h1 : HasDerivAt (fun s : ℝ => ∑ b, ∑ i, (x b i + s * δ b i - y b i) ^ 2)
      (∑ b, ∑ i, 2 * (x b i - y b i) * δ b i) 0 := by
    refine HasDerivAt.fun_sum fun b _ => HasDerivAt.fun_sum fun i _ => ?_
    refine (((hasDerivAt_line (x b i) (δ b i)).sub_const (y b i)).fun_pow 2).congr_deriv ?_
    norm_num
  have h2 : HasDerivAt (fun s : ℝ => ∑ b, g * lpipsParam / B * lpips (fun z i => 2 * z i - 1) (layers.map Sigma.fst)
      trained normalize (fun i => x b i + s * δ b i) (y b))
      (∑ b, ∑ i, lpipsBack layers trained normalize (x b) (y b) (g * lpipsParam / B) i * δ b i) 0 :=
    HasDerivAt.fun_sum fun b _ => hasDerivAt_lpips layers trained normalize (x b) (y b) (δ b) _ (hr b)
  have h3 := (h1.const_mul (g * mseParam / (B * n : ℕ))).add h2
  refine (h3.congr_of_eventuallyEq (Eventually.of_forall fun s => ?_)).congr_deriv ?_
  · show g * mseLpipsLoss _ _ _ _ _ _ _ = g * mseParam / (B * n : ℕ) * (∑ b, ∑ i, (x b i + s * δ b i - y b i) ^ 2) + _
    unfold mseLpipsLoss
    show _ = _ + ∑ b, g * lpipsParam / B * lpips (fun z i => 2 * z i - 1) (layers.map Sigma.fst)
      trained normalize (fun i => x b i + s * δ b i) (y b)
    rw [← Finset.mul_sum]
    ring
  · rw [Finset.mul_sum, ← Finset.sum_add_distrib]
    refine Finset.sum_congr rfl fun b _ => ?_
    rw [Finset.mul_sum, ← Finset.sum_add_distrib]
    refine Finset.sum_congr rfl fun i _ => ?_
    unfold mseLpipsBack
    ring

/-- **C155, stable gradients.** The normalisation amplifies no gradient by more than `1 / √(C eps)`, whatever the features,
zero ones included. -/
theorem C155_stable {C : ℕ} (eps : ℝ) (he : 0 < eps) (x g : Fin C → ℝ) :
    ∑ c, normalizeTensorBack eps x g c ^ 2 ≤ (∑ c, g c ^ 2) / (C * eps) := by
  rcases Nat.eq_zero_or_pos C with hC | hC
  · subst hC; simp
  set A := ∑ j, (x j ^ 2 + eps) with hA
  have hApos : 0 < A := radicand_pos eps he x ⟨0, hC⟩
  have hA' : A = ∑ j, x j ^ 2 + C * eps := norm_radicand eps x
  set N := √A with hN
  have hN0 : 0 < N := Real.sqrt_pos.2 hApos
  have hNN : N ^ 2 = A := Real.sq_sqrt hApos.le
  set S := ∑ j, g j * x j with hS
  have e : ∀ c, normalizeTensorBack eps x g c ^ 2 =
      g c ^ 2 / A - 2 * (S / A ^ 2) * (g c * x c) + S ^ 2 / A ^ 3 * x c ^ 2 := by
    intro c
    have : normalizeTensorBack eps x g c = g c / N - S / N ^ 3 * x c := by
      simp only [normalizeTensorBack, ← hA, ← hN]
      rw [← Finset.sum_div, ← hS]
      field_simp
      ring
    rw [this, ← hNN]
    field_simp
    ring
  rw [Finset.sum_congr rfl fun c _ => e c, Finset.sum_add_distrib, Finset.sum_sub_distrib, ← Finset.sum_div,
    ← Finset.mul_sum, ← Finset.mul_sum, ← hS]
  have hx : ∑ j, x j ^ 2 ≤ A := by
    rw [hA']; have : 0 ≤ (C : ℝ) * eps := by positivity
    linarith
  have h1 : S ^ 2 / A ^ 3 * ∑ j, x j ^ 2 ≤ S ^ 2 / A ^ 2 := by
    calc S ^ 2 / A ^ 3 * ∑ j, x j ^ 2 ≤ S ^ 2 / A ^ 3 * A := mul_le_mul_of_nonneg_left hx (by positivity)
      _ = S ^ 2 / A ^ 2 := by field_simp
  have h2 : 2 * (S / A ^ 2) * S = 2 * (S ^ 2 / A ^ 2) := by ring
  have h3 : 0 ≤ S ^ 2 / A ^ 2 := by positivity
  have h4 : (∑ c, g c ^ 2) / A ≤ (∑ c, g c ^ 2) / (C * eps) := by
    refine div_le_div_of_nonneg_left (Finset.sum_nonneg fun c _ => sq_nonneg _) ?_ ?_
    · have : (0 : ℝ) < C := by exact_mod_cast hC
      positivity
    · rw [hA']
      have : 0 ≤ ∑ j, x j ^ 2 := Finset.sum_nonneg fun j _ => sq_nonneg (x j)
      linarith
  linarith

/-! ### Rate -/

/-- The likelihoods of a batch on straight lines. -/
noncomputable def alongLikelihoods {B n m : ℕ} (v dv q dq : Fin B → Fin n → ℝ) (u du r dr : Fin B → Fin m → ℝ) (s : ℝ)
    (b : Fin B) : Rate.Likelihoods :=
  { latent := List.ofFn fun j => v b j + s * dv b j
    quantizedLatent := List.ofFn fun j => q b j + s * dq b j
    hyper := List.ofFn fun j => u b j + s * du b j
    quantizedHyper := List.ofFn fun j => r b j + s * dr b j }

/-- The rate in bits per pixel of the latents with likelihoods `q` and `r`. -/
noncomputable def bpp {n m : ℕ} (height width : ℕ) (q : Fin n → ℝ) (r : Fin m → ℝ) : ℝ :=
  -(∑ j, Real.log (q j) + ∑ j, Real.log (r j)) / Real.log 2 / (height * width : ℕ)

theorem bits_ofFn {n : ℕ} (f : Fin n → ℝ) : Rate.bits (List.ofFn f) = (∑ j, Real.log (f j)) / -Real.log 2 := by
  simp [Rate.bits, List.map_ofFn, List.sum_ofFn]

theorem hasDerivAt_bits {n : ℕ} (v d : Fin n → ℝ) (h : ∀ j, v j ≠ 0) :
    HasDerivAt (fun s : ℝ => Rate.bits (List.ofFn fun j => v j + s * d j)) (∑ j, bitsBack (v j) 1 * d j) 0 := by
  simp only [bits_ofFn]
  have h1 : HasDerivAt (fun s : ℝ => ∑ j, Real.log (v j + s * d j)) (∑ j, d j / v j) 0 := by
    refine HasDerivAt.fun_sum fun j _ => ?_
    have := (hasDerivAt_line (v j) (d j)).log (by simpa using h j)
    simpa using this
  refine (h1.div_const _).congr_deriv ?_
  rw [Finset.sum_div]
  refine Finset.sum_congr rfl fun j _ => ?_
  unfold bitsBack
  ring

theorem getD_map_ofFn {n : ℕ} (f : Fin n → ℝ) (g : ℝ → ℝ) (j : Fin n) : ((List.ofFn f).map g).getD j 0 = g (f j) := by
  simp [List.getD_eq_getElem?_getD]

/-- **C155, rate.** Wherever the rate loss has a value, its gradient is its derivative in every direction of the noisy and of the
quantised likelihoods, if the quantised ones do not move or the quantised rate of the image is not exactly the
target. The quantised likelihoods get zero. -/
theorem C155_rate {B n m : ℕ} (c : Rate.Config) (globalStep : ℤ) (height width : ℕ) (v dv q dq : Fin B → Fin n → ℝ)
    (u du r dr : Fin B → Fin m → ℝ) (g : ℝ) (hv : ∀ b j, v b j ≠ 0) (hu : ∀ b j, u b j ≠ 0)
    (hq : ∀ b, (dq b = 0 ∧ dr b = 0) ∨ ((∀ j, q b j ≠ 0) ∧ (∀ j, r b j ≠ 0) ∧
      ∀ target, Rate.scheduled globalStep c.targetBpp c.targetFactors c.targetSteps = .ok target →
        bpp height width (q b) (r b) ≠ target))
    (o : Rate.Output) (ho : Rate.rateLoss c globalStep height width (alongLikelihoods v dv q dq u du r dr 0) = .ok o) :
    ∃ G, rateLossBack c globalStep height width (alongLikelihoods v dv q dq u du r dr 0) g = .ok G ∧
      (∀ b, (∀ a ∈ (G b).quantizedLatent, a = 0) ∧ ∀ a ∈ (G b).quantizedHyper, a = 0) ∧
      Slope (fun s => (Rate.rateLoss c globalStep height width (alongLikelihoods v dv q dq u du r dr s)).map (·.rateLoss)) g
        (∑ b, (∑ j : Fin n, (G b).latent.getD j 0 * dv b j + ∑ j : Fin m, (G b).hyper.getD j 0 * du b j)) := by
  classical
  unfold Rate.rateLoss at ho
  cases h1 : Rate.scheduled globalStep c.targetBpp c.targetFactors c.targetSteps with
  | error e => rw [h1] at ho; cases ho
  | ok target =>
    rw [h1] at ho
    cases h2 : Rate.scheduled globalStep c.lamLevels.2 c.lam2Factors c.lam2Steps with
    | error e => rw [h2] at ho; cases ho
    | ok lam2 =>
      clear ho
      set P := alongLikelihoods v dv q dq u du r dr with hP
      set N : ℝ := ((height * width : ℕ) : ℝ) with hN
      set lam : ℝ → Fin B → ℝ := fun s b =>
        if Rate.bits (P s b).quantizedLatent / N + Rate.bits (P s b).quantizedHyper / N > target then lam2 else c.lamLevels.1
        with hlam
      refine ⟨fun b =>
        { latent := (P 0 b).latent.map fun v => bitsBack v (g / B * lam 0 b / N)
          quantizedLatent := (P 0 b).quantizedLatent.map fun _ => 0
          hyper := (P 0 b).hyper.map fun v => bitsBack v (g / B * lam 0 b / N)
          quantizedHyper := (P 0 b).quantizedHyper.map fun _ => 0 }, ?_, ?_, ?_⟩
      · unfold rateLossBack
        rw [h1, h2]
        show Except.ok _ = Except.ok _
        congr 1
      · intro b
        constructor <;>
        · intro a ha
          simp only [List.mem_map] at ha
          obtain ⟨_, _, rfl⟩ := ha
          rfl
      · refine ⟨fun s => Rate.mean fun b => lam s b *
          (Rate.bits (P s b).latent / N + Rate.bits (P s b).hyper / N), fun s => ?_, ?_⟩
        · unfold Rate.rateLoss
          rw [h1, h2]
          show Except.ok _ = Except.ok _
          congr 1
        · have hbits : ∀ (b : Fin B), HasDerivAt (fun s => Rate.bits (P s b).quantizedLatent / N +
              Rate.bits (P s b).quantizedHyper / N) (deriv (fun s => Rate.bits (P s b).quantizedLatent / N +
              Rate.bits (P s b).quantizedHyper / N) 0) 0 ∨ (dq b = 0 ∧ dr b = 0) := by
            intro b
            rcases hq b with h | ⟨hq1, hr1, -⟩
            · exact Or.inr h
            · exact Or.inl (((hasDerivAt_bits (q b) (dq b) hq1).div_const N).add
                ((hasDerivAt_bits (r b) (dr b) hr1).div_const N)).differentiableAt.hasDerivAt
          have hev : ∀ b, ∀ᶠ s in 𝓝 (0 : ℝ), lam s b = lam 0 b := by
            intro b
            rcases hq b with ⟨hd1, hd2⟩ | ⟨hq1, hr1, hne⟩
            · refine Eventually.of_forall fun s => ?_
              simp only [hlam, hP, alongLikelihoods, hd1, hd2, Pi.zero_apply, mul_zero]
            · rcases hbits b with hc | ⟨hd1, hd2⟩
              · have hne' : Rate.bits (P 0 b).quantizedLatent / N + Rate.bits (P 0 b).quantizedHyper / N ≠ target := by
                  have := hne target h1
                  intro hcon
                  apply this
                  rw [← hcon]
                  simp only [hP, alongLikelihoods, bits_ofFn, bpp, zero_mul, add_zero]
                  ring
                have hcont := hc.continuousAt
                rcases lt_or_gt_of_ne hne' with hlt | hgt
                · filter_upwards [hcont.eventually (gt_mem_nhds hlt)] with s hs
                  simp only [hlam, gt_iff_lt, not_lt.2 hs.le, not_lt.2 hlt.le, if_false]
                · filter_upwards [hcont.eventually (lt_mem_nhds hgt)] with s hs
                  simp only [hlam]
                  rw [if_pos hs, if_pos hgt]
              · refine Eventually.of_forall fun s => ?_
                simp only [hlam, hP, alongLikelihoods, hd1, hd2, Pi.zero_apply, mul_zero]
          have hfix : HasDerivAt (fun s => g * Rate.mean fun b => lam 0 b *
              (Rate.bits (P s b).latent / N + Rate.bits (P s b).hyper / N))
              (g * ((∑ b, lam 0 b * ((∑ j, bitsBack (v b j) 1 * dv b j) / N + (∑ j, bitsBack (u b j) 1 * du b j) / N)) / B)) 0 := by
            unfold Rate.mean
            refine HasDerivAt.const_mul g (HasDerivAt.div_const (HasDerivAt.fun_sum fun b _ => ?_) _)
            exact HasDerivAt.const_mul _ (((hasDerivAt_bits (v b) (dv b) (hv b)).div_const N).add
                ((hasDerivAt_bits (u b) (du b) (hu b)).div_const N))
          refine (hfix.congr_of_eventuallyEq ?_).congr_deriv ?_
          · filter_upwards [eventually_all.2 hev] with s hs
            simp only [hs]
          · rw [Finset.sum_div, Finset.mul_sum]
            refine Finset.sum_congr rfl fun b _ => ?_
            have e1 : ∀ j, ((P 0 b).latent.map fun v => bitsBack v (g / B * lam 0 b / N)).getD (j : Fin n) 0 =
                bitsBack (v b j) (g / B * lam 0 b / N) := by
              intro j
              rw [hP]
              simp only [alongLikelihoods]
              rw [getD_map_ofFn]
              simp
            have e2 : ∀ j, ((P 0 b).hyper.map fun v => bitsBack v (g / B * lam 0 b / N)).getD (j : Fin m) 0 =
                bitsBack (u b j) (g / B * lam 0 b / N) := by
              intro j
              rw [hP]
              simp only [alongLikelihoods]
              rw [getD_map_ofFn]
              simp
            simp only [e1, e2]
            rw [mul_add, add_div, mul_add]
            congr 1
            · rw [Finset.sum_div, Finset.mul_sum, Finset.sum_div, Finset.mul_sum]
              exact Finset.sum_congr rfl fun j _ => by unfold bitsBack; ring
            · rw [Finset.sum_div, Finset.mul_sum, Finset.sum_div, Finset.mul_sum]
              exact Finset.sum_congr rfl fun j _ => by unfold bitsBack; ring

/-! ### Cases -/

/-- Two logits and the target 1: hypotheses of `C155_bce_generator` and `C155_bce_discriminator`. -/
example : (∃ v, bceGenerator ⟨[2], fun i => i⟩ ⟨[], fun _ => 1⟩ = .ok v) ∧
    ∃ v, bceDiscriminator ⟨[2], fun i => i⟩ ⟨[2], fun i => -i⟩ ⟨[], fun _ => 1⟩ = .ok v := ⟨⟨_, rfl⟩, ⟨_, rfl⟩⟩

/-- One image of one pixel with three classes and label 1: hypotheses of `C155_oasis_generator` and
`C155_oasis_discriminator`. -/
example : (∃ v, oasisGenerator ⟨1, 3, 1, 1, fun _ c _ => c⟩ ⟨1, true, fun _ => 1⟩ = .ok v) ∧
    ∃ v, oasisDiscriminator ⟨1, 3, 1, 1, fun _ c _ => c⟩ ⟨1, 3, 1, 1, fun _ _ _ => 0⟩ ⟨1, true, fun _ => 1⟩ = .ok v := by
  have h := C85_oasis ⟨1, 3, 1, 1, fun _ c _ => c⟩ ⟨1, 3, 1, 1, fun _ _ _ => 0⟩ ⟨1, true, fun _ => 1⟩ rfl rfl
    ⟨rfl, rfl, rfl, rfl⟩ (fun i _ => by simp) (by simp)
  exact ⟨⟨_, h.2⟩, ⟨_, h.1⟩⟩

/-- A network whose features are the image itself has a right backward pass: hypothesis of `C155_distortion`. -/
example (x : Fin 2 → ℝ) : RightAt ⟨⟨2, 1, fun x _ c => x c, fun _ => 1⟩, fun _ g i => g 0 i⟩ x := by
  intro δ
  refine ⟨fun _ c => δ c, fun p c => hasDerivAt_line _ _, fun g => ?_⟩
  show ∑ p : Fin 1, ∑ c : Fin 2, g p c * δ c = _
  simp

/-- A configuration without stages has a rate loss: hypotheses of `C155_rate`. -/
example : ∃ o, Rate.rateLoss ⟨1, [1], [], (1, 2), [1], []⟩ 0 1 1
    (alongLikelihoods (B := 1) (n := 1) (m := 1) (fun _ _ => 1 / 2) 0 (fun _ _ => 1 / 2) 0 (fun _ _ => 1 / 2) 0
      (fun _ _ => 1 / 2) 0 0) = .ok o ∧ bpp 1 1 (fun _ : Fin 1 => 1 / 2) (fun _ : Fin 1 => 1 / 2) ≠ 1 := by
  refine ⟨_, rfl, ?_⟩
  have : Real.log 2 ≠ 0 := (Real.log_pos (by norm_num)).ne'
  have e : bpp 1 1 (fun _ : Fin 1 => 1 / 2) (fun _ : Fin 1 => 1 / 2) = 2 := by
    simp [bpp]
    field_simp
    norm_num
  rw [e]; norm_num

end Verif.Train.LossGrad
