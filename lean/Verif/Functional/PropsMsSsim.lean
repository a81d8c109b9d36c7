import Verif.Functional.MsSsim
import Mathlib.Algebra.BigOperators.Field
import Mathlib.Tactic.Linarith
import Mathlib.Tactic.Ring
import Mathlib.Tactic.Positivity

/-!
C45: the multiscale structural similarity of identical images is one, too small images are rejected; and the
index is symmetric and lies between zero and one.
-/

namespace Verif.Functional.MsSsim

open Real Finset

/-! ### The window is a probability distribution -/

theorem gauss_pos (ws : ℕ) (std : ℝ) (u : ℕ) : 0 < gauss ws std u := exp_pos _

theorem sum_gauss_pos {ws : ℕ} (h : 0 < ws) (std : ℝ) : 0 < ∑ v ∈ range ws, gauss ws std v :=
  sum_pos (fun v _ => gauss_pos ws std v) ⟨0, mem_range.2 h⟩

theorem normalized_nonneg (ws : ℕ) (std : ℝ) (u : ℕ) : 0 ≤ normalized ws std u :=
  div_nonneg (gauss_pos _ _ _).le (sum_nonneg fun v _ => (gauss_pos ws std v).le)

theorem sum_normalized {ws : ℕ} (h : 0 < ws) (std : ℝ) : ∑ u ∈ range ws, normalized ws std u = 1 := by
  unfold normalized
  rw [← sum_div, div_self (sum_gauss_pos h std).ne']

theorem window_nonneg (ws : ℕ) (std : ℝ) (u v : ℕ) : 0 ≤ window ws std u v :=
  mul_nonneg (normalized_nonneg _ _ _) (normalized_nonneg _ _ _)

theorem conv_const {ws : ℕ} (h : 0 < ws) (std c : ℝ) (i j : ℕ) : conv ws std (fun _ _ => c) i j = c := by
  unfold conv window
  have : ∀ u ∈ range ws, ∑ v ∈ range ws, normalized ws std u * normalized ws std v * c = normalized ws std u * c := by
    intro u _
    rw [← sum_mul, ← mul_sum, sum_normalized h, mul_one]
  rw [sum_congr rfl this, ← sum_mul, sum_normalized h, one_mul]

theorem conv_add (ws : ℕ) (std : ℝ) (f g : ℕ → ℕ → ℝ) (i j : ℕ) :
    conv ws std (fun a b => f a b + g a b) i j = conv ws std f i j + conv ws std g i j := by
  simp only [conv, mul_add, sum_add_distrib]

theorem conv_smul (ws : ℕ) (std c : ℝ) (f : ℕ → ℕ → ℝ) (i j : ℕ) :
    conv ws std (fun a b => c * f a b) i j = c * conv ws std f i j := by
  simp only [conv, mul_sum]
  refine sum_congr rfl fun u _ => sum_congr rfl fun v _ => ?_
  ring

theorem conv_nonneg (ws : ℕ) (std : ℝ) (f : ℕ → ℕ → ℝ) (i j : ℕ) (h : ∀ a b, 0 ≤ f a b) : 0 ≤ conv ws std f i j :=
  sum_nonneg fun u _ => sum_nonneg fun v _ => mul_nonneg (window_nonneg _ _ _ _) (h _ _)

/-- A weighted variance is not negative. -/
theorem var_nonneg {ws : ℕ} (h : 0 < ws) (std : ℝ) (f : ℕ → ℕ → ℝ) (i j : ℕ) :
    conv ws std f i j * conv ws std f i j ≤ conv ws std (fun a b => f a b * f a b) i j := by
  set m := conv ws std f i j with hm
  have h1 := conv_nonneg ws std (fun a b => (f a b - m) * (f a b - m)) i j fun a b => mul_self_nonneg _
  have e : (fun a b => (f a b - m) * (f a b - m)) =
      fun a b => (f a b * f a b + (-2 * m) * f a b) + m * m := by
    funext a b; ring
  rw [e, conv_add, conv_add, conv_smul, conv_const h, ← hm] at h1
  linarith

/-- The covariance is bounded by the mean of the variances. -/
theorem cov_bound {ws : ℕ} (h : 0 < ws) (std : ℝ) (x y : ℕ → ℕ → ℝ) (i j : ℕ) :
    |2 * (conv ws std (fun a b => x a b * y a b) i j - conv ws std x i j * conv ws std y i j)| ≤
      (conv ws std (fun a b => x a b * x a b) i j - conv ws std x i j * conv ws std x i j) +
        (conv ws std (fun a b => y a b * y a b) i j - conv ws std y i j * conv ws std y i j) := by
  have sq : ∀ c : ℝ, conv ws std (fun a b => (x a b + c * y a b) * (x a b + c * y a b)) i j =
      conv ws std (fun a b => x a b * x a b) i j + 2 * c * conv ws std (fun a b => x a b * y a b) i j +
        c * c * conv ws std (fun a b => y a b * y a b) i j := by
    intro c
    have e : (fun a b => (x a b + c * y a b) * (x a b + c * y a b)) =
        fun a b => (x a b * x a b + 2 * c * (x a b * y a b)) + c * c * (y a b * y a b) := by
      funext a b; ring
    rw [e, conv_add, conv_add, conv_smul, conv_smul]
  have lin : ∀ c : ℝ, conv ws std (fun a b => x a b + c * y a b) i j = conv ws std x i j + c * conv ws std y i j := by
    intro c; rw [conv_add, conv_smul]
  have h1 := var_nonneg h std (fun a b => x a b + 1 * y a b) i j
  have h2 := var_nonneg h std (fun a b => x a b + (-1) * y a b) i j
  rw [sq, lin] at h1 h2
  rw [abs_le]
  constructor <;> nlinarith

/-! ### Values at one position -/

/-- The parameters for which the index is defined: a positive odd window, a standard deviation other than zero and
positive stabilising constants. -/
structure Params.Good (p : Params) : Prop where
  odd : p.windowSize % 2 = 1
  std : p.gaussianStd ≠ 0
  c1 : p.k1 * p.dataRange ≠ 0
  c2 : p.k2 * p.dataRange ≠ 0

theorem Params.Good.pos {p : Params} (h : p.Good) : 0 < p.windowSize := by have := h.odd; omega

theorem luminance_bound {p : Params} (h : p.Good) (x y : ℕ → ℕ → ℝ) (i j : ℕ) : |luminance p x y i j| ≤ 1 := by
  unfold luminance
  simp only
  have hc : 0 < (p.k1 * p.dataRange) ^ 2 := by have := h.c1; positivity
  set a := conv p.windowSize p.gaussianStd x i j
  set b := conv p.windowSize p.gaussianStd y i j
  have hd : 0 < a ^ 2 + b ^ 2 + (p.k1 * p.dataRange) ^ 2 := by positivity
  rw [abs_div, abs_of_pos hd, div_le_one hd, abs_le]
  constructor <;> nlinarith [sq_nonneg (a - b), sq_nonneg (a + b)]

theorem contrast_bound {p : Params} (h : p.Good) (x y : ℕ → ℕ → ℝ) (i j : ℕ) : |contrast p x y i j| ≤ 1 := by
  unfold contrast
  simp only
  have hc : 0 < (p.k2 * p.dataRange) ^ 2 := by have := h.c2; positivity
  have hcov := cov_bound h.pos p.gaussianStd x y i j
  set s := (conv p.windowSize p.gaussianStd (fun a b => x a b * x a b) i j -
    conv p.windowSize p.gaussianStd x i j * conv p.windowSize p.gaussianStd x i j) +
    (conv p.windowSize p.gaussianStd (fun a b => y a b * y a b) i j -
      conv p.windowSize p.gaussianStd y i j * conv p.windowSize p.gaussianStd y i j)
  have hs : 0 ≤ s := (abs_nonneg _).trans hcov
  have hd : 0 < s + (p.k2 * p.dataRange) ^ 2 := by linarith
  rw [abs_le] at hcov
  rw [abs_div, abs_of_pos hd, div_le_one hd, abs_le]
  constructor <;> linarith [hcov.1, hcov.2]

theorem luminance_self {p : Params} (h : p.Good) (x : ℕ → ℕ → ℝ) (i j : ℕ) : luminance p x x i j = 1 := by
  unfold luminance
  simp only
  have hc : 0 < (p.k1 * p.dataRange) ^ 2 := by have := h.c1; positivity
  have hd : 0 < conv p.windowSize p.gaussianStd x i j ^ 2 + conv p.windowSize p.gaussianStd x i j ^ 2 +
      (p.k1 * p.dataRange) ^ 2 := by positivity
  rw [div_eq_one_iff_eq hd.ne']
  ring

theorem contrast_self {p : Params} (h : p.Good) (x : ℕ → ℕ → ℝ) (i j : ℕ) : contrast p x x i j = 1 := by
  unfold contrast
  simp only
  have hc : 0 < (p.k2 * p.dataRange) ^ 2 := by have := h.c2; positivity
  have hv := var_nonneg h.pos p.gaussianStd x i j
  rw [div_eq_one_iff_eq (by linarith)]
  ring

theorem luminance_symm (p : Params) (x y : ℕ → ℕ → ℝ) (i j : ℕ) : luminance p x y i j = luminance p y x i j := by
  unfold luminance
  simp only
  rw [mul_right_comm, add_comm (conv p.windowSize p.gaussianStd x i j ^ 2)]

theorem contrast_symm (p : Params) (x y : ℕ → ℕ → ℝ) (i j : ℕ) : contrast p x y i j = contrast p y x i j := by
  unfold contrast
  simp only
  have e : (fun a b => x a b * y a b) = fun a b => y a b * x a b := by funext a b; ring
  rw [e, mul_comm (conv p.windowSize p.gaussianStd x i j) (conv p.windowSize p.gaussianStd y i j)]
  congr 1
  ring

theorem meanPos_bound (ws h w : ℕ) (f : ℕ → ℕ → ℝ) (hf : ∀ i j, f i j ≤ 1) : meanPos ws h w f ≤ 1 := by
  unfold meanPos
  have hd : (0 : ℝ) < ((h - ws + 1 : ℕ) : ℝ) * ((w - ws + 1 : ℕ) : ℝ) := by positivity
  rw [div_le_one hd]
  calc ∑ i ∈ range (h - ws + 1), ∑ j ∈ range (w - ws + 1), f i j
      ≤ ∑ i ∈ range (h - ws + 1), ∑ j ∈ range (w - ws + 1), (1 : ℝ) :=
        sum_le_sum fun i _ => sum_le_sum fun j _ => hf i j
    _ = _ := by simp; ring

theorem meanPos_one (ws h w : ℕ) : meanPos ws h w (fun _ _ => 1) = 1 := by
  unfold meanPos
  have hd : (0 : ℝ) < ((h - ws + 1 : ℕ) : ℝ) * ((w - ws + 1 : ℕ) : ℝ) := by positivity
  rw [div_eq_one_iff_eq hd.ne']
  simp; ring

theorem ssimSingle_self {p : Params} (h : p.Good) (ht wd : ℕ) (x : ℕ → ℕ → ℝ) : ssimSingle p ht wd x x = (1, 1) := by
  unfold ssimSingle
  simp only [luminance_self h, contrast_self h, mul_one, meanPos_one]

theorem ssimSingle_le {p : Params} (h : p.Good) (ht wd : ℕ) (x y : ℕ → ℕ → ℝ) :
    (ssimSingle p ht wd x y).1 ≤ 1 ∧ (ssimSingle p ht wd x y).2 ≤ 1 := by
  refine ⟨meanPos_bound _ _ _ _ fun i j => ?_, meanPos_bound _ _ _ _ fun i j => ?_⟩
  · have h1 := luminance_bound h x y i j
    have h2 := contrast_bound h x y i j
    refine (le_abs_self _).trans ?_
    rw [abs_mul]
    exact mul_le_one₀ h1 (abs_nonneg _) h2
  · exact (le_abs_self _).trans (contrast_bound h x y i j)

theorem ssimSingle_symm (p : Params) (ht wd : ℕ) (x y : ℕ → ℕ → ℝ) : ssimSingle p ht wd x y = ssimSingle p ht wd y x := by
  unfold ssimSingle
  simp only [luminance_symm p x y, contrast_symm p x y]

/-! ### Sizes -/

/-- Half of a size, rounded up. -/
def half (n : ℕ) : ℕ := (n + n % 2) / 2

/-- The size after `s` rounds of halving and rounding up, in one step. -/
def sizeAt (n s : ℕ) : ℕ := (n + 2 ^ s - 1) / 2 ^ s

theorem half_eq (n : ℕ) : half n = (n + 1) / 2 := by unfold half; omega

theorem sizeAt_zero (n : ℕ) : sizeAt n 0 = n := by simp [sizeAt]

theorem sizeAt_succ (n s : ℕ) : sizeAt n (s + 1) = sizeAt (half n) s := by
  rw [half_eq]
  unfold sizeAt
  have hp : 0 < 2 ^ s := by positivity
  set m := 2 ^ s with hm
  have e : 2 ^ (s + 1) = 2 * m := by rw [pow_succ, hm]; ring
  rw [e, ← Nat.div_div_eq_div_mul]
  congr 1
  omega

theorem down_height (x : Batch) : (padAndDownsample x).height = half x.height := rfl
theorem down_width (x : Batch) : (padAndDownsample x).width = half x.width := rfl

/-! ### The loop -/

theorem multi_ok {p : Params} (h : p.Good) {x y : Batch} (hc : 0 < x.channels) :
    ssimMultichannel p x y = .ok fun c b => ssimSingle p x.height x.width (x.pix b c) (y.pix b c) := by
  unfold ssimMultichannel
  have := h.odd
  rw [if_neg (by omega), if_neg (by omega)]

/-- The images that the loop compares in its current round. -/
noncomputable def current (scale : ℕ) (x : Batch) : Batch := if scale ≠ 0 then padAndDownsample x else x

theorem scale_ok {p : Params} (h : p.Good) (R : Batch → Batch → Prop) (Q : ℝ × ℝ → Prop)
    (hR : ∀ x y, R x y → R (padAndDownsample x) (padAndDownsample y)) (factors : List ℝ)
    (hQ : ∀ f ∈ factors, ∀ x y, R x y → ∀ c b,
      Q (max 0 (ssimSingle p x.height x.width (x.pix b c) (y.pix b c)).1 ^ f,
        max 0 (ssimSingle p x.height x.width (x.pix b c) (y.pix b c)).2 ^ f))
    (scale : ℕ) (x y : Batch) (hc : 0 < x.channels) (hxy : R x y) :
    ((∀ k < factors.length, p.windowSize ≤ sizeAt (current scale x).height k ∧
        p.windowSize ≤ sizeAt (current scale x).width k) →
      ∃ outs, scaleOutputs p factors scale x y = .ok outs ∧ outs.length = factors.length ∧
        ∀ o ∈ outs, ∀ c b, Q (o c b)) ∧
    ((¬ ∀ k < factors.length, p.windowSize ≤ sizeAt (current scale x).height k ∧
        p.windowSize ≤ sizeAt (current scale x).width k) →
      scaleOutputs p factors scale x y = .error .runtime) := by
  induction factors generalizing scale x y with
  | nil => exact ⟨fun _ => ⟨[], rfl, rfl, by simp⟩, fun hn => absurd (by simp) hn⟩
  | cons f fs ih =>
    have hcur : R (current scale x) (current scale y) := by
      unfold current
      split_ifs with hs
      · exact hR _ _ hxy
      · exact hxy
    have hcc : 0 < (current scale x).channels := by
      unfold current
      split_ifs with hs <;> exact hc
    have step : scaleOutputs p (f :: fs) scale x y =
        if (current scale x).height < p.windowSize ∨ (current scale x).width < p.windowSize then .error .runtime
        else (ssimMultichannel p (current scale x) (current scale y)).bind fun s =>
          (scaleOutputs p fs (scale + 1) (current scale x) (current scale y)).map fun rest =>
            (fun c b => (max 0 (s c b).1 ^ f, max 0 (s c b).2 ^ f)) :: rest := rfl
    have ih' := ih (fun g hg => hQ g (by simp [hg])) (scale + 1) _ _ hcc hcur
    have hnext : current (scale + 1) (current scale x) = padAndDownsample (current scale x) := by
      conv_lhs => unfold current
      rw [if_pos (by omega)]
      rfl
    rw [hnext, down_height, down_width] at ih'
    simp only [← sizeAt_succ] at ih'
    have key : (∀ k < (f :: fs).length, p.windowSize ≤ sizeAt (current scale x).height k ∧
        p.windowSize ≤ sizeAt (current scale x).width k) ↔
        ¬ ((current scale x).height < p.windowSize ∨ (current scale x).width < p.windowSize) ∧
        ∀ k < fs.length, p.windowSize ≤ sizeAt (current scale x).height (k + 1) ∧
          p.windowSize ≤ sizeAt (current scale x).width (k + 1) := by
      constructor
      · intro hall
        have h0 := hall 0 (by simp)
        rw [sizeAt_zero, sizeAt_zero] at h0
        exact ⟨by omega, fun k hk => hall (k + 1) (by simpa using hk)⟩
      · rintro ⟨h0, hall⟩ k hk
        cases k with
        | zero => rw [sizeAt_zero, sizeAt_zero]; omega
        | succ k => exact hall k (by simpa using hk)
    rw [key, step]
    constructor
    · rintro ⟨h0, hall⟩
      obtain ⟨outs, ho, hl, hq⟩ := ih'.1 hall
      rw [if_neg h0, multi_ok h hcc]
      refine ⟨_, by rw [Except.bind, ho]; rfl, by simp [hl], ?_⟩
      intro o hmem c b
      rcases List.mem_cons.1 hmem with rfl | hmem
      · exact hQ f (by simp) _ _ hcur c b
      · exact hq o hmem c b
    · intro hn
      by_cases h0 : (current scale x).height < p.windowSize ∨ (current scale x).width < p.windowSize
      · rw [if_pos h0]
      · have hrest := ih'.2 fun hall => hn ⟨h0, hall⟩
        rw [if_neg h0, multi_ok h hcc, Except.bind, hrest]
        rfl

/-! ### Theorems -/

/-- The images are large enough: in each of the `n` rounds (round `s` works on sizes divided by `2 ^ s` and
rounded up) height and width are at least the window size. -/
def LargeEnough (p : Params) (n : ℕ) (x : Batch) : Prop :=
  ∀ s < n, p.windowSize ≤ sizeAt x.height s ∧ p.windowSize ≤ sizeAt x.width s

theorem getLast?_ne {α : Type*} {l : List α} (h : l ≠ []) : ∃ a ∈ l, l.getLast? = some a :=
  ⟨l.getLast h, List.getLast_mem h, List.getLast?_eq_getLast_of_ne_nil h⟩

theorem scores_of {p : Params} (h : p.Good) (R : Batch → Batch → Prop) (Q : ℝ × ℝ → Prop)
    (hR : ∀ x y, R x y → R (padAndDownsample x) (padAndDownsample y)) {factors : List ℝ} (hne : factors ≠ [])
    (hQ : ∀ f ∈ factors, ∀ x y, R x y → ∀ c b,
      Q (max 0 (ssimSingle p x.height x.width (x.pix b c) (y.pix b c)).1 ^ f,
        max 0 (ssimSingle p x.height x.width (x.pix b c) (y.pix b c)).2 ^ f))
    (x y : Batch) (hc : 0 < x.channels) (hxy : R x y) (hl : LargeEnough p factors.length x) :
    ∃ (outs : List (ℕ → ℕ → ℝ × ℝ)) (last : ℕ → ℕ → ℝ × ℝ), (∀ o ∈ outs, ∀ c b, Q (o c b)) ∧ last ∈ outs ∧
      ∀ reduction, msSsim p factors reduction x y = reduce reduction ((List.range x.batch).map fun b =>
        (∑ c ∈ range x.channels, combine outs last c b) / x.channels) := by
  obtain ⟨outs, ho, hlen, hq⟩ := (scale_ok h R Q hR factors hQ 0 x y hc hxy).1 hl
  have hne' : outs ≠ [] := by
    intro e
    rw [e] at hlen
    exact hne (List.length_eq_zero_iff.1 hlen.symm)
  obtain ⟨last, hmem, hlast⟩ := getLast?_ne hne'
  refine ⟨outs, last, hq, hmem, fun reduction => ?_⟩
  unfold msSsim
  rw [ho]
  simp only [Except.bind, hlast]

/-- **C45 (identical images).** For every batch of images that is large enough for the number of scales, the
index of the batch with itself is one: per image, and so in the mean, and the sum is the number of
images. -/
theorem C45_identical {p : Params} (h : p.Good) {factors : List ℝ} (hne : factors ≠ []) (x : Batch)
    (hc : 0 < x.channels) (hb : 0 < x.batch) (hl : LargeEnough p factors.length x) :
    msSsim p factors "mean" x x = .ok (.scalar 1) ∧ msSsim p factors "sum" x x = .ok (.scalar x.batch) ∧
      msSsim p factors "none" x x = .ok (.perImage (List.replicate x.batch 1)) := by
  obtain ⟨outs, last, hq, hmem, hred⟩ := scores_of h (fun x y => x = y) (fun q => q = (1, 1))
    (by rintro x y rfl; rfl) hne (by
      rintro f - x y rfl c b
      rw [ssimSingle_self h]
      simp) x x hc rfl hl
  have hcomb : ∀ c b, combine outs last c b = 1 := by
    intro c b
    unfold combine
    rw [hq last hmem, one_mul]
    refine List.prod_eq_one fun v hv => ?_
    obtain ⟨o, ho, rfl⟩ := List.mem_map.1 hv
    rw [hq o (List.mem_of_mem_dropLast ho)]
  have hx : (x.channels : ℝ) ≠ 0 := by positivity
  have hscores : ((List.range x.batch).map fun b => (∑ c ∈ range x.channels, combine outs last c b) / x.channels) =
      List.replicate x.batch 1 := by
    simp only [hcomb]
    simp [hx]
  have hbn : (x.batch : ℝ) ≠ 0 := by positivity
  refine ⟨?_, ?_, ?_⟩
  · rw [hred, hscores]
    simp [reduce, hbn]
  · rw [hred, hscores]
    simp [reduce]
  · rw [hred, hscores]
    simp [reduce]

/-- **C45 (rejection).** Images that are too small in some round raise `RuntimeError` and produce no value,
whatever the reduction; images that are large enough in all of them are accepted by each of the three
reductions. -/
theorem C45_rejects {p : Params} (h : p.Good) {factors : List ℝ} (hne : factors ≠ []) (x y : Batch)
    (hc : 0 < x.channels) :
    (¬ LargeEnough p factors.length x → ∀ reduction, msSsim p factors reduction x y = .error .runtime) ∧
    (LargeEnough p factors.length x → ∀ reduction, (reduction = "mean" ∨ reduction = "sum" ∨ reduction = "none") →
      ∃ out, msSsim p factors reduction x y = .ok out) := by
  constructor
  · intro hl reduction
    have := (scale_ok h (fun _ _ => True) (fun _ => True) (fun _ _ _ => trivial) factors
      (fun _ _ _ _ _ _ _ => trivial) 0 x y hc trivial).2 hl
    unfold msSsim
    rw [this]
    rfl
  · intro hl reduction hr
    obtain ⟨outs, last, -, -, hred⟩ := scores_of h (fun _ _ => True) (fun _ => True) (fun _ _ _ => trivial) hne
      (fun _ _ _ _ _ _ _ => trivial) x y hc trivial hl
    rw [hred]
    rcases hr with rfl | rfl | rfl
    · exact ⟨_, by simp [reduce]; rfl⟩
    · exact ⟨_, by simp [reduce]; rfl⟩
    · exact ⟨_, by simp [reduce]; rfl⟩

/-- **C45 (range).** For non-negative power factors, the index of any two batches is between zero and one for
every image. -/
theorem C45_range {p : Params} (h : p.Good) {factors : List ℝ} (hne : factors ≠ []) (hf : ∀ f ∈ factors, 0 ≤ f)
    (x y : Batch) (hc : 0 < x.channels) (hl : LargeEnough p factors.length x) :
    ∃ scores, msSsim p factors "none" x y = .ok (.perImage scores) ∧ scores.length = x.batch ∧
      ∀ s ∈ scores, 0 ≤ s ∧ s ≤ 1 := by
  obtain ⟨outs, last, hq, hmem, hred⟩ := scores_of h (fun _ _ => True)
    (fun q => (0 ≤ q.1 ∧ q.1 ≤ 1) ∧ 0 ≤ q.2 ∧ q.2 ≤ 1) (fun _ _ _ => trivial) hne (by
      intro f hfm x y _ c b
      have hle := ssimSingle_le h x.height x.width (x.pix b c) (y.pix b c)
      exact ⟨⟨rpow_nonneg (le_max_left _ _) _, rpow_le_one (le_max_left _ _) (max_le zero_le_one hle.1) (hf f hfm)⟩,
        rpow_nonneg (le_max_left _ _) _, rpow_le_one (le_max_left _ _) (max_le zero_le_one hle.2) (hf f hfm)⟩)
    x y hc trivial hl
  have hprod : ∀ (l : List (ℕ → ℕ → ℝ × ℝ)), (∀ o ∈ l, ∀ c b, 0 ≤ (o c b).2 ∧ (o c b).2 ≤ 1) → ∀ c b,
      0 ≤ (l.map fun o => (o c b).2).prod ∧ (l.map fun o => (o c b).2).prod ≤ 1 := by
    intro l hl c b
    induction l with
    | nil => simp
    | cons o l ih =>
      obtain ⟨i1, i2⟩ := ih fun o ho => hl o (by simp [ho])
      obtain ⟨o1, o2⟩ := hl o (by simp) c b
      rw [List.map_cons, List.prod_cons]
      exact ⟨mul_nonneg o1 i1, mul_le_one₀ o2 i1 i2⟩
  have hcomb : ∀ c b, 0 ≤ combine outs last c b ∧ combine outs last c b ≤ 1 := by
    intro c b
    obtain ⟨i1, i2⟩ := hprod outs.dropLast (fun o ho c b => (hq o (List.mem_of_mem_dropLast ho) c b).2) c b
    have hl := (hq last hmem c b).1
    exact ⟨mul_nonneg hl.1 i1, mul_le_one₀ hl.2 i1 i2⟩
  refine ⟨_, by rw [hred]; simp [reduce]; rfl, by simp, ?_⟩
  intro s hs
  obtain ⟨b, -, rfl⟩ := List.mem_map.1 hs
  have hx : (0 : ℝ) < x.channels := by positivity
  constructor
  · exact div_nonneg (sum_nonneg fun c _ => (hcomb c b).1) hx.le
  · rw [div_le_one hx]
    calc ∑ c ∈ range x.channels, combine outs last c b ≤ ∑ c ∈ range x.channels, (1 : ℝ) :=
          sum_le_sum fun c _ => (hcomb c b).2
      _ = _ := by simp

/-- Two batches have the same shape. -/
def SameShape (x y : Batch) : Prop :=
  x.batch = y.batch ∧ x.channels = y.channels ∧ x.height = y.height ∧ x.width = y.width

theorem scaleOutputs_symm (p : Params) (factors : List ℝ) (scale : ℕ) (x y : Batch) (hs : SameShape x y) :
    scaleOutputs p factors scale x y = scaleOutputs p factors scale y x := by
  induction factors generalizing scale x y with
  | nil => rfl
  | cons f fs ih =>
    have hcur : SameShape (if scale ≠ 0 then padAndDownsample x else x) (if scale ≠ 0 then padAndDownsample y else y) := by
      obtain ⟨h1, h2, h3, h4⟩ := hs
      split_ifs with h
      · exact ⟨h1, h2, by simp [padAndDownsample, h3], by simp [padAndDownsample, h4]⟩
      · exact ⟨h1, h2, h3, h4⟩
    have hmulti : ∀ a b : Batch, SameShape a b → ssimMultichannel p a b = ssimMultichannel p b a := by
      rintro a b ⟨h1, h2, h3, h4⟩
      unfold ssimMultichannel
      rw [h2, h3, h4]
      simp only [ssimSingle_symm p _ _ (a.pix _ _)]
    simp only [scaleOutputs]
    rw [ih _ _ _ hcur, hmulti _ _ hcur, hcur.2.2.1, hcur.2.2.2]

/-- **C45 (symmetry).** The index does not depend on the order of the two batches. -/
theorem C45_symm (p : Params) (factors : List ℝ) (reduction : String) (x y : Batch) (hs : SameShape x y) :
    msSsim p factors reduction x y = msSsim p factors reduction y x := by
  unfold msSsim
  rw [scaleOutputs_symm p factors 0 x y hs, hs.1, hs.2.1]

/-- **C45, window.** A window size that is not odd is rejected, whatever the images. -/
theorem C45_window (p : Params) (hp : p.windowSize % 2 = 0) {factors : List ℝ} (hne : factors ≠ [])
    (reduction : String) (x y : Batch) : ∃ e, msSsim p factors reduction x y = .error e := by
  obtain ⟨f, fs, rfl⟩ := List.exists_cons_of_ne_nil hne
  have hm : ∃ e, ssimMultichannel p x y = .error e := by
    unfold ssimMultichannel
    split_ifs with h1 h2 <;> first | exact ⟨_, rfl⟩ | omega
  obtain ⟨e, he⟩ := hm
  have hs : ∃ e, scaleOutputs p (f :: fs) 0 x y = .error e := by
    unfold scaleOutputs
    simp only [ne_eq, not_true_eq_false, if_false]
    split_ifs
    · exact ⟨_, rfl⟩
    · exact ⟨e, by rw [he]; rfl⟩
  obtain ⟨e', he'⟩ := hs
  exact ⟨e', by unfold msSsim; rw [he']; rfl⟩

/-- Non-vacuity: the default parameters are good, and for the five default scales 161 is the smallest size that
is large enough. -/
example : (⟨1, 11, 0.01, 0.03, 1.5⟩ : Params).Good ∧
    LargeEnough ⟨1, 11, 0.01, 0.03, 1.5⟩ defaultFactors.length ⟨2, 3, 161, 200, fun _ _ i j => i + j⟩ ∧
    ¬ LargeEnough ⟨1, 11, 0.01, 0.03, 1.5⟩ defaultFactors.length ⟨2, 3, 160, 200, fun _ _ i j => i + j⟩ := by
  refine ⟨⟨by norm_num, by norm_num, by norm_num, by norm_num⟩, ?_, ?_⟩
  · intro s hs
    simp only [defaultFactors, List.length_cons, List.length_nil] at hs
    have : s = 0 ∨ s = 1 ∨ s = 2 ∨ s = 3 ∨ s = 4 := by omega
    rcases this with rfl | rfl | rfl | rfl | rfl <;> simp [sizeAt]
  · intro h
    have := h 4 (by simp [defaultFactors])
    simp [sizeAt] at this

end Verif.Functional.MsSsim
