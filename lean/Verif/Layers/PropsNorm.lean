import Mathlib.Data.Matrix.Mul
import Verif.Layers.Norm
import Mathlib.Tactic.Linarith
import Mathlib.Tactic.NormNum
import Mathlib.Tactic.FieldSimp
import Mathlib.Tactic.Ring
import Mathlib.Tactic.Positivity
import Mathlib.Algebra.Order.BigOperators.Ring.Finset
import Mathlib.Data.Fin.VecNotation
import Mathlib.Algebra.BigOperators.Field

/-!
C48, C49 and C75: normalisation layers and cross-covariance attention.
-/

namespace Verif.Layers.Norm

/-! ### C48 -/

theorem norm_ge {C : ℕ} (g : Gdn C) (x : Fin C → ℝ) (i : Fin C) : g.betaMin ≤ g.clamp.norm x i := by
  unfold Gdn.norm Gdn.clamp
  have : 0 ≤ ∑ j, max (g.gamma i j) 0 * |x j| :=
    Finset.sum_nonneg fun j _ => mul_nonneg (le_max_right _ _) (abs_nonneg _)
  have := le_max_right (g.beta i) g.betaMin
  dsimp only
  linarith

/-- **C48.** For every state of the parameters, with a positive minimum for the bias: both layers use weights that
are not negative and a normaliser of at least the minimum; the outputs keep the sign of the input (and are zero only
where it is zero); GDN's output is at most `|x| / beta_min` in size, the inverse layer's at least
`beta_min * |x|`; and the parameters that stay in the layer are in their range. -/
theorem C48_bounds {C : ℕ} (g : Gdn C) (hb : 0 < g.betaMin) (x : Fin C → ℝ) (i : Fin C) :
    let out := (g.forward x).2
    let inv := (g.inverse x).2
    (∃ d, g.betaMin ≤ d ∧ out i = x i / d ∧ inv i = x i * d) ∧
      |out i| ≤ |x i| / g.betaMin ∧ g.betaMin * |x i| ≤ |inv i| ∧
      (0 < out i ↔ 0 < x i) ∧ (out i < 0 ↔ x i < 0) ∧ (0 < inv i ↔ 0 < x i) ∧ (inv i < 0 ↔ x i < 0) ∧
      (∀ j, 0 ≤ (g.forward x).1.gamma i j) ∧ g.betaMin ≤ (g.forward x).1.beta i ∧
      (g.inverse x).1 = (g.forward x).1 := by
  intro out inv
  have hd := norm_ge g x i
  set d := g.clamp.norm x i with hdef
  have hd0 : 0 < d := lt_of_lt_of_le hb hd
  have ho : out i = x i / d := rfl
  have hi : inv i = x i * d := rfl
  refine ⟨⟨d, hd, ho, hi⟩, ?_, ?_, ?_, ?_, ?_, ?_, fun j => le_max_right _ _, le_max_right _ _, rfl⟩
  · rw [ho, abs_div, abs_of_pos hd0]
    exact div_le_div_of_nonneg_left (abs_nonneg _) hb hd
  · rw [hi, abs_mul, abs_of_pos hd0, mul_comm]
    exact mul_le_mul_of_nonneg_left hd (abs_nonneg _)
  · rw [ho]; exact div_pos_iff_of_pos_right hd0
  · rw [ho]
    constructor
    · intro h
      by_contra hn
      have := div_nonneg (not_lt.1 hn) hd0.le
      linarith
    · exact fun h => div_neg_of_neg_of_pos h hd0
  · rw [hi]; exact mul_pos_iff_of_pos_right hd0
  · rw [hi]
    constructor
    · intro h
      by_contra hn
      have := mul_nonneg (not_lt.1 hn) hd0.le
      linarith
    · exact fun h => mul_neg_of_neg_of_pos h hd0

/-- **C48, formula.** Where the parameters are already in their range, the layer computes the documented
quotient (and the inverse layer the product), and leaves the parameters as they are. -/
theorem C48_formula {C : ℕ} (g : Gdn C) (hg : ∀ i j, 0 ≤ g.gamma i j) (hbeta : ∀ i, g.betaMin ≤ g.beta i)
    (x : Fin C → ℝ) :
    (g.forward x).1 = g ∧ ∀ i, (g.forward x).2 i = x i / (g.beta i + ∑ j, g.gamma i j * |x j|) ∧
      (g.inverse x).2 i = x i * (g.beta i + ∑ j, g.gamma i j * |x j|) := by
  have e : g.clamp = g := by
    unfold Gdn.clamp
    obtain ⟨a, b, c⟩ := g
    congr 1
    · funext i j; exact max_eq_left (hg i j)
    · funext i; exact max_eq_left (hbeta i)
  refine ⟨e, fun i => ⟨?_, ?_⟩⟩
  · show x i / g.clamp.norm x i = _
    rw [e, add_comm]; rfl
  · show x i * g.clamp.norm x i = _
    rw [e, add_comm]; rfl

/-- **C48, new layers.** A new layer of non-negative initial weight acts on every channel alone. -/
theorem C48_fresh {C : ℕ} (gammaInit betaMin : ℝ) (hg : 0 ≤ gammaInit) (hb : betaMin ≤ 1) (x : Fin C → ℝ)
    (i : Fin C) :
    ((Gdn.init C gammaInit betaMin).forward x).2 i = x i / (1 + gammaInit * |x i|) ∧
      ((Gdn.init C gammaInit betaMin).inverse x).2 i = x i * (1 + gammaInit * |x i|) := by
  have h := (C48_formula (Gdn.init C gammaInit betaMin)
    (fun i j => by unfold Gdn.init; dsimp only; split_ifs <;> simp [hg]) (fun i => hb) x).2 i
  have e : ∑ j, (Gdn.init C gammaInit betaMin).gamma i j * |x j| = gammaInit * |x i| := by
    rw [Finset.sum_eq_single i]
    · simp [Gdn.init]
    · intro j _ hj; simp [Gdn.init, Ne.symm hj]
    · simp
  rw [e] at h
  exact h

/-- **C48, default layers.** A new layer with the default settings, in every dimension: channel by channel `x / (1 + |x|/10)`,
and the inverse layer `x (1 + |x|/10)`; the minimum of the offsets is a millionth, and outputs stay below ten. -/
theorem C48_default {C : ℕ} (x : Fin C → ℝ) (i : Fin C) :
    ((Gdn.init C).forward x).2 i = x i / (1 + |x i| / 10) ∧
      ((Gdn.init C).inverse x).2 i = x i * (1 + |x i| / 10) ∧
      (Gdn.init C).betaMin = 1 / 1000000 ∧ |((Gdn.init C).forward x).2 i| < 10 := by
  have h := C48_fresh (C := C) 0.1 1e-6 (by norm_num) (by norm_num) x i
  have e : (1 : ℝ) + 0.1 * |x i| = 1 + |x i| / 10 := by ring
  rw [e] at h
  have h0 := abs_nonneg (x i)
  have hp : 0 < 1 + |x i| / 10 := by positivity
  refine ⟨h.1, h.2, by norm_num [Gdn.init], ?_⟩
  have h1 : ((Gdn.init C).forward x).2 i = x i / (1 + |x i| / 10) := h.1
  rw [h1, abs_div, abs_of_pos hp, div_lt_iff₀ hp]
  linarith

/-- **C48, saturation.** A channel with a positive weight on itself has bounded output, whatever the input. -/
theorem C48_saturates {C : ℕ} (g : Gdn C) (hb : 0 < g.betaMin) (x : Fin C → ℝ) (i : Fin C) (hi : 0 < g.gamma i i) :
    |(g.forward x).2 i| ≤ 1 / g.gamma i i := by
  have hd0 : 0 < g.clamp.norm x i := lt_of_lt_of_le hb (norm_ge g x i)
  show |x i / g.clamp.norm x i| ≤ _
  rw [abs_div, abs_of_pos hd0, div_le_div_iff₀ hd0 hi, one_mul]
  unfold Gdn.norm Gdn.clamp
  dsimp only
  have h1 : g.gamma i i * |x i| ≤ ∑ j, max (g.gamma i j) 0 * |x j| := by
    have := Finset.single_le_sum (f := fun j => max (g.gamma i j) 0 * |x j|)
      (fun j _ => mul_nonneg (le_max_right _ _) (abs_nonneg _)) (Finset.mem_univ i)
    exact le_trans (mul_le_mul_of_nonneg_right (le_max_left _ _) (abs_nonneg _)) this
  have h2 : 0 < max (g.beta i) g.betaMin := lt_of_lt_of_le hb (le_max_right _ _)
  linarith [mul_comm |x i| (g.gamma i i)]

/-- The minimum never changes, so the bounds hold at every point of every history of forward passes and optimiser
steps. -/
theorem C48_history {C : ℕ} (gammaInit betaMin : ℝ) (hb : 0 < betaMin) (ops : List (GdnOp C)) (x : Fin C → ℝ)
    (i : Fin C) :
    |((ops.foldl Gdn.apply (Gdn.init C gammaInit betaMin)).forward x).2 i| ≤ |x i| / betaMin := by
  have key : ∀ (ops : List (GdnOp C)) (g : Gdn C), (ops.foldl Gdn.apply g).betaMin = g.betaMin := by
    intro ops
    induction ops with
    | nil => intro g; rfl
    | cons op ops ih =>
      intro g
      rw [List.foldl_cons, ih]
      cases op <;> rfl
  have e := key ops (Gdn.init C gammaInit betaMin)
  have e' : (Gdn.init C gammaInit betaMin).betaMin = betaMin := rfl
  rw [e'] at e
  have h := (C48_bounds (ops.foldl Gdn.apply (Gdn.init C gammaInit betaMin)) (by rw [e]; exact hb) x i).2.1
  rw [e] at h
  exact h

/-- C48 is not vacuous: the default minimum is positive, and negative parameters are clamped. -/
example : 0 < (Gdn.init 3).betaMin ∧
    ((Gdn.forward ⟨fun _ _ => -1, fun _ => -1, 2⟩ ![4, -6] : Gdn 2 × (Fin 2 → ℝ)).2 1) = -3 := by
  refine ⟨by norm_num [Gdn.init], ?_⟩
  simp [Gdn.forward, Gdn.clamp, Gdn.norm]
  norm_num

/-! ### C49 -/

theorem sum_centred {C : ℕ} (hC : 2 ≤ C) (x : Fin C → ℝ) : ∑ i, (x i - mean x) = 0 := by
  have : (C : ℝ) ≠ 0 := by positivity
  rw [Finset.sum_sub_distrib, Finset.sum_const, Finset.card_univ, Fintype.card_fin, nsmul_eq_mul]
  unfold mean
  field_simp
  ring

theorem variance_nonneg {C : ℕ} (hC : 2 ≤ C) (x : Fin C → ℝ) : 0 ≤ variance x := by
  have : (2 : ℝ) ≤ C := by exact_mod_cast hC
  exact div_nonneg (Finset.sum_nonneg fun i _ => sq_nonneg _) (by linarith)

/-- **C49.** For every input with at least two channels and a positive guard, the output before the affine part has
mean zero over the channels and variance `v / (v + epsilon) < 1`, where `v` is the variance of the input; and it
does not change when a constant is added to all channels. -/
theorem C49_normalised {C : ℕ} (hC : 2 ≤ C) (epsilon : ℝ) (he : 0 < epsilon) (x : Fin C → ℝ) :
    mean (normed epsilon x) = 0 ∧ variance (normed epsilon x) = variance x / (variance x + epsilon) ∧
      variance (normed epsilon x) < 1 ∧ ∀ t : ℝ, normed epsilon (fun i => x i + t) = normed epsilon x := by
  have hv := variance_nonneg hC x
  have hpos : 0 < variance x + epsilon := by linarith
  have hm : mean (normed epsilon x) = 0 := by
    unfold mean normed
    rw [← Finset.sum_mul, sum_centred hC, zero_mul, zero_div]
  have hvar : variance (normed epsilon x) = variance x / (variance x + epsilon) := by
    have e : ∀ i, (normed epsilon x i - mean (normed epsilon x)) ^ 2 =
        (x i - mean x) ^ 2 * (1 / (variance x + epsilon)) := by
      intro i
      rw [hm, sub_zero]
      unfold normed
      rw [mul_pow, div_pow, one_pow, Real.sq_sqrt hpos.le]
    conv_lhs => unfold variance
    simp only [e]
    rw [← Finset.sum_mul]
    conv_rhs => rw [show variance x = (∑ i, (x i - mean x) ^ 2) / ((C : ℝ) - 1) from rfl]
    rw [show variance x + epsilon = (∑ i, (x i - mean x) ^ 2) / ((C : ℝ) - 1) + epsilon from rfl]
    ring
  refine ⟨hm, hvar, ?_, ?_⟩
  · rw [hvar, div_lt_one hpos]; linarith
  · intro t
    have hC0 : (C : ℝ) ≠ 0 := by positivity
    have h1 : mean (fun i => x i + t) = mean x + t := by
      unfold mean
      rw [Finset.sum_add_distrib, Finset.sum_const, Finset.card_univ, Fintype.card_fin, nsmul_eq_mul]
      field_simp
    have h2 : variance (fun i => x i + t) = variance x := by
      unfold variance
      rw [h1]
      simp
    funext i
    unfold normed
    rw [h1, h2]
    ring

/-- **C49, whole layer.** The constructor accepts exactly two or more channels; a new layer, with or without affine
part, returns the normalised pixel, and in general the affine part is applied to it. -/
theorem C49_layer (channels : ℕ) (affine : Bool) (epsilon : ℝ) :
    (channelNormInit channels affine = none ↔ channels < 2) ∧
      (∀ a, channelNormInit channels affine = some a → ∀ x, channelNorm epsilon a x = normed epsilon x) ∧
      ∀ gamma beta (x : Fin channels → ℝ) i,
        channelNorm epsilon (some (gamma, beta)) x i = gamma i * normed epsilon x i + beta i := by
  refine ⟨?_, ?_, fun _ _ _ _ => rfl⟩
  · unfold channelNormInit
    by_cases h : channels ≤ 1
    · rw [if_pos h]; simp; omega
    · rw [if_neg h]; cases affine <;> simp <;> omega
  · intro a ha x
    unfold channelNormInit at ha
    by_cases h : channels ≤ 1
    · rw [if_pos h] at ha; simp at ha
    · rw [if_neg h] at ha
      cases affine <;> simp at ha <;> subst ha
      · rfl
      · funext i
        simp [channelNorm]

/-- C49 is not vacuous: channels 1 and 3 have variance 2. -/
example : variance (![1, 3] : Fin 2 → ℝ) = 2 ∧ mean (![1, 3] : Fin 2 → ℝ) = 2 := by
  have h : mean (![1, 3] : Fin 2 → ℝ) = 2 := by norm_num [mean, Fin.sum_univ_two]
  refine ⟨?_, h⟩
  unfold variance
  rw [h]
  norm_num [Fin.sum_univ_two]

/-! ### C75 -/

variable {N h c : ℕ}

theorem part_perm (m : Xca h c) (x : Tokens N h c) (σ : Equiv.Perm (Fin N)) (s : Fin 3) (a : Fin h) (i : Fin c) :
    m.part (fun n => x (σ n)) s a i = fun n => m.part x s a i (σ n) := rfl

theorem normalizeTokens_perm (v : Fin N → ℝ) (σ : Equiv.Perm (Fin N)) :
    normalizeTokens (fun n => v (σ n)) = fun n => normalizeTokens v (σ n) := by
  unfold normalizeTokens
  rw [Equiv.sum_comp σ fun n => v n ^ 2]

theorem logits_perm (m : Xca h c) (x : Tokens N h c) (σ : Equiv.Perm (Fin N)) (a : Fin h) (i j : Fin c) :
    m.logits (fun n => x (σ n)) a i j = m.logits x a i j := by
  unfold Xca.logits
  rw [part_perm, part_perm, normalizeTokens_perm, normalizeTokens_perm]
  rw [Equiv.sum_comp σ fun n => normalizeTokens (m.part x 0 a i) n * normalizeTokens (m.part x 1 a j) n]

/-- **C75, equivariance.** Permuting the tokens of a sample permutes the output in the same way. -/
theorem C75_equivariant (m : Xca h c) (x : Tokens N h c) (σ : Equiv.Perm (Fin N)) :
    m.forward (fun n => x (σ n)) = fun n => m.forward x (σ n) := by
  have hattn : ∀ a i j, m.attn (fun n => x (σ n)) a i j = m.attn x a i j := by
    intro a i j
    unfold Xca.attn
    simp only [logits_perm]
  funext n a i
  unfold Xca.forward Xca.mix
  simp only [hattn, part_perm]

/-- **C75, weights.** The attention weights of every channel are positive and sum to one, so every mixed value lies
between bounds on the values of the head at the same token. -/
theorem C75_weights (m : Xca h c) (x : Tokens N h c) (a : Fin h) (i : Fin c) :
    (∀ j, 0 < m.attn x a i j) ∧ ∑ j, m.attn x a i j = 1 ∧
      ∀ n lo hi, (∀ j, lo ≤ m.part x 2 a j n ∧ m.part x 2 a j n ≤ hi) → lo ≤ m.mix x n a i ∧ m.mix x n a i ≤ hi := by
  have hS : 0 < ∑ k, Real.exp (m.logits x a i k) := Finset.sum_pos (fun _ _ => Real.exp_pos _) ⟨i, Finset.mem_univ _⟩
  have hp : ∀ j, 0 < m.attn x a i j := fun j => div_pos (Real.exp_pos _) hS
  have h1 : ∑ j, m.attn x a i j = 1 := by
    unfold Xca.attn
    rw [← Finset.sum_div]
    exact div_self hS.ne'
  refine ⟨hp, h1, ?_⟩
  intro n lo hi hb
  unfold Xca.mix
  constructor
  · calc lo = ∑ j, m.attn x a i j * lo := by rw [← Finset.sum_mul, h1, one_mul]
      _ ≤ _ := Finset.sum_le_sum fun j _ => mul_le_mul_of_nonneg_left (hb j).1 (hp j).le
  · calc ∑ j, m.attn x a i j * m.part x 2 a j n ≤ ∑ j, m.attn x a i j * hi :=
          Finset.sum_le_sum fun j _ => mul_le_mul_of_nonneg_left (hb j).2 (hp j).le
      _ = hi := by rw [← Finset.sum_mul, h1, one_mul]

/-- **C75, bounded logits.** By the normalisation, the logits of a head are at most its temperature in size,
however large the input is. -/
theorem C75_logits (m : Xca h c) (x : Tokens N h c) (a : Fin h) (i j : Fin c) :
    |m.logits x a i j| ≤ |m.temperature a| := by
  have hn : ∀ v : Fin N → ℝ, ∑ n, normalizeTokens v n ^ 2 ≤ 1 := by
    intro v
    unfold normalizeTokens
    simp only [div_pow]
    rw [← Finset.sum_div]
    have h0 : 0 ≤ ∑ n, v n ^ 2 := Finset.sum_nonneg fun _ _ => sq_nonneg _
    have hM : 0 < max √(∑ n, v n ^ 2) 1e-12 := lt_of_lt_of_le (by norm_num) (le_max_right _ _)
    rw [div_le_one (by positivity)]
    calc ∑ n, v n ^ 2 = √(∑ n, v n ^ 2) ^ 2 := (Real.sq_sqrt h0).symm
      _ ≤ _ := pow_le_pow_left₀ (Real.sqrt_nonneg _) (le_max_left _ _) 2
  unfold Xca.logits
  rw [abs_mul]
  have hcs : |∑ n, normalizeTokens (m.part x 0 a i) n * normalizeTokens (m.part x 1 a j) n| ≤ 1 := by
    have := Finset.sum_mul_sq_le_sq_mul_sq Finset.univ (normalizeTokens (m.part x 0 a i))
      (normalizeTokens (m.part x 1 a j))
    have h1 := hn (m.part x 0 a i)
    have h2 := hn (m.part x 1 a j)
    have h3 : 0 ≤ ∑ n, normalizeTokens (m.part x 1 a j) n ^ 2 := Finset.sum_nonneg fun _ _ => sq_nonneg _
    rw [← sq_le_one_iff_abs_le_one]
    nlinarith
  calc _ ≤ 1 * |m.temperature a| := mul_le_mul_of_nonneg_right hcs (abs_nonneg _)
    _ = _ := one_mul _

/-- The softmax of the rows of a matrix, for the specification. -/
noncomputable def softmaxRows (A : Matrix (Fin c) (Fin c) ℝ) : Matrix (Fin c) (Fin c) ℝ :=
  fun i j => Real.exp (A i j) / ∑ k, Real.exp (A i k)

theorem formula_parts (m : Xca h c) (x : Tokens N h c) (n : Fin N) (a : Fin h) (i : Fin c) :
    let q : Fin h → Matrix (Fin c) (Fin N) ℝ := fun b j => normalizeTokens (m.part x 0 b j)
    let k : Fin h → Matrix (Fin c) (Fin N) ℝ := fun b j => normalizeTokens (m.part x 1 b j)
    let v : Fin h → Matrix (Fin c) (Fin N) ℝ := fun b j => m.part x 2 b j
    m.forward x n a i = m.projBias a i +
      ∑ b, ∑ j, m.proj a i b j * (softmaxRows (m.temperature b • (q b * (k b).transpose)) * v b) j n := by
  intro q k v
  unfold Xca.forward
  rw [add_comm]
  congr 1
  refine Finset.sum_congr rfl fun b _ => Finset.sum_congr rfl fun j _ => ?_
  congr 1
  unfold Xca.mix
  rw [Matrix.mul_apply]
  refine Finset.sum_congr rfl fun l _ => ?_
  have e : ∀ l, (m.temperature b • (q b * (k b).transpose)) j l = m.logits x b j l := by
    intro l
    rw [Matrix.smul_apply, Matrix.mul_apply, smul_eq_mul, mul_comm]
    rfl
  unfold softmaxRows Xca.attn
  simp only [e]
  rfl

/-- **C75, formula.** Queries, keys and values are affine in each token. Every head mixes its values by the softmax of the
scaled cross-covariance of its queries and keys, normalised over the tokens; the mixed channels of all heads go through one affine projection, token by token. -/
theorem C75_formula (m : Xca h c) (x : Tokens N h c) (n : Fin N) (a : Fin h) (i : Fin c) :
    let linear : Fin 3 → Fin h → Fin c → Fin N → ℝ := fun s b j n => m.qkvBias s b j + ∑ b', ∑ j', m.qkv s b j b' j' * x n b' j'
    let unit : (Fin N → ℝ) → Fin N → ℝ := fun u n => u n / max √(∑ n, u n ^ 2) 1e-12
    let q : Fin h → Matrix (Fin c) (Fin N) ℝ := fun b j => unit (linear 0 b j)
    let k : Fin h → Matrix (Fin c) (Fin N) ℝ := fun b j => unit (linear 1 b j)
    let v : Fin h → Matrix (Fin c) (Fin N) ℝ := fun b j => linear 2 b j
    m.forward x n a i = m.projBias a i +
      ∑ b, ∑ j, m.proj a i b j * (softmaxRows (m.temperature b • (q b * (k b).transpose)) * v b) j n := by
  intro linear unit q k v
  have hl : linear = fun s b j => m.part x s b j := by
    funext s b j n
    exact add_comm _ _
  have hq : q = fun b j => normalizeTokens (m.part x 0 b j) := by
    simp only [q, hl]
    rfl
  have hk : k = fun b j => normalizeTokens (m.part x 1 b j) := by
    simp only [k, hl]
    rfl
  have hv : v = fun b j => m.part x 2 b j := by
    simp only [v, hl]
    rfl
  rw [hq, hk, hv]
  exact formula_parts m x n a i

/-- C75 is not vacuous: two tokens can be exchanged. -/
example (m : Xca 2 4) (x : Tokens 2 2 4) : m.forward (fun n => x (Equiv.swap 0 1 n)) 0 = m.forward x 1 := by
  have := congrFun (C75_equivariant m x (Equiv.swap 0 1)) 0
  simpa using this

end Verif.Layers.Norm
