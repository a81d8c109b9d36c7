import Verif.Diffusion.Gaussian
import Verif.Script.PropsRespace
import Mathlib.Probability.Distributions.Gaussian.Real
import Mathlib.Data.List.GetD
import Mathlib.Tactic.FieldSimp
import Mathlib.Tactic.Ring
import Mathlib.Tactic.Linarith

/-!
Property C124: the latents of the diffusion codec are those of the noising process
(`/repo/projects/bits_back_diffusion/bits_back_diffusion/codec.py:93-192`, `script_util.py:337-379`).

The specification is the noising process itself, written with measures: in every step a value is scaled with `√(1 - β)` and
independent Gaussian noise of variance `β` is added.
-/

namespace Verif.Diffusion.Gauss

open MeasureTheory ProbabilityTheory
open Verif.Script.Respace (Counts spaceTimesteps)

/-! ### Specification -/

/-- The law of a value after one step of noising, from its law before. -/
noncomputable def noisedOnce (b : ℝ) (μ : Measure ℝ) : Measure ℝ :=
  (μ.map fun z => √(1 - b) * z) ∗ gaussianReal 0 b.toNNReal

/-- The law of a value after the steps `a, …, a + n - 1`, when it is `z` before. -/
noncomputable def noised (β : ℕ → ℝ) (a : ℕ) : ℕ → ℝ → Measure ℝ
  | 0, z => Measure.dirac z
  | n + 1, z => noisedOnce (β (a + n)) (noised β a n z)

/-- `f` is the continuous density of `μ`. -/
def HasDensity (μ : Measure ℝ) (f : ℝ → ℝ) : Prop :=
  Continuous f ∧ (∀ z, 0 < f z) ∧ μ = volume.withDensity fun z => ENNReal.ofReal (f z)

/-- The density of independent Gaussians. -/
noncomputable def density {ι : Type} [Fintype ι] (p : Params ι) (z : ι → ℝ) : ℝ :=
  ∏ i, gaussianPDFReal (p.mean i) (p.stdd i ^ 2).toNNReal (z i)

/-- The density of the latents `[z_step, …, z_T]` when each is drawn, from the last to the first, from the Gaussian of
`posterior_pop`. -/
noncomputable def drawn {M D I ι : Type} [Fintype ι] (S : Setup M D (ι → ℝ) (ι → ℝ) (Params ι) I) (x : ι → ℝ) :
    ℕ → List (DiscrLatent I (Params ι)) → ℝ
  | _, [] => 1
  | step, d :: ds => density (postParams S x step ds) (S.toLatent d) * drawn S x (step + 1) ds

/-! ### The noising process in closed form -/

/-- The factor that remains after some steps. -/
noncomputable def rest (β : ℕ → ℝ) (a n : ℕ) : ℝ := ∏ j ∈ Finset.range n, (1 - β (a + j))

theorem rest_mem (β : ℕ → ℝ) (a n : ℕ) (h : ∀ j < n, 0 < β (a + j) ∧ β (a + j) < 1) :
    0 < rest β a n ∧ rest β a n ≤ 1 := by
  induction n with
  | zero => simp [rest]
  | succ n ih =>
    obtain ⟨h1, h2⟩ := ih fun j hj => h j (by omega)
    have := h n (by omega)
    have e : rest β a (n + 1) = rest β a n * (1 - β (a + n)) := Finset.prod_range_succ _ _
    rw [e]
    constructor
    · exact mul_pos h1 (by linarith)
    · nlinarith

theorem rest_lt_one (β : ℕ → ℝ) (a n : ℕ) (hn : 0 < n) (h : ∀ j < n, 0 < β (a + j) ∧ β (a + j) < 1) :
    rest β a n < 1 := by
  obtain ⟨n, rfl⟩ : ∃ k, n = k + 1 := ⟨n - 1, by omega⟩
  obtain ⟨h1, h2⟩ := rest_mem β a n fun j hj => h j (by omega)
  have := h n (by omega)
  have e : rest β a (n + 1) = rest β a n * (1 - β (a + n)) := Finset.prod_range_succ _ _
  rw [e]
  nlinarith

theorem noised_eq (β : ℕ → ℝ) (a n : ℕ) (z : ℝ) (h : ∀ j < n, 0 < β (a + j) ∧ β (a + j) < 1) :
    noised β a n z = gaussianReal (√(rest β a n) * z) (1 - rest β a n).toNNReal := by
  induction n with
  | zero => simp [noised, rest]
  | succ n ih =>
    have hn := h n (by omega)
    obtain ⟨h1, h2⟩ := rest_mem β a n fun j hj => h j (by omega)
    rw [noised, ih fun j hj => h j (by omega), noisedOnce, gaussianReal_map_const_mul, gaussianReal_conv_gaussianReal]
    have e : rest β a (n + 1) = rest β a n * (1 - β (a + n)) := Finset.prod_range_succ _ _
    have hs : (√(1 - β (a + n))) ^ 2 = 1 - β (a + n) := Real.sq_sqrt (by linarith)
    congr 1
    · rw [e, Real.sqrt_mul h1.le]; ring
    · apply NNReal.eq
      rw [NNReal.coe_add, NNReal.coe_mul, Real.coe_toNNReal _ (by linarith), Real.coe_toNNReal _ (by linarith),
        Real.coe_toNNReal _ (by rw [e]; nlinarith)]
      change (√(1 - β (a + n))) ^ 2 * _ + _ = _
      rw [hs, e]; ring

theorem gaussian_density (m v : ℝ) (hv : 0 < v) :
    HasDensity (gaussianReal m v.toNNReal) (gaussianPDFReal m v.toNNReal) := by
  have hv' : v.toNNReal ≠ 0 := by
    intro h
    rw [Real.toNNReal_eq_zero] at h; linarith
  refine ⟨?_, fun z => gaussianPDFReal_pos _ _ _ hv', ?_⟩
  · rw [gaussianPDFReal_def]; fun_prop
  · rw [gaussianReal_of_var_ne_zero _ hv']; rfl

/-! ### Gaussian conditioning -/

theorem pdf_eq (m : ℝ) {v : ℝ} (hv : 0 < v) (z : ℝ) :
    gaussianPDFReal m v.toNNReal z = (√(2 * Real.pi * v))⁻¹ * Real.exp (-(z - m) ^ 2 / (2 * v)) := by
  rw [gaussianPDFReal_def, Real.coe_toNNReal _ hv.le]

/-- Bayes' rule: a Gaussian value that is scaled and gets Gaussian noise. -/
theorem bayes (m k : ℝ) {v b w : ℝ} (hv : 0 < v) (hb : 0 < b) (hw : w = k ^ 2 * v + b) (z z' : ℝ) :
    gaussianPDFReal ((b * m + k * v * z') / w) (b * v / w).toNNReal z * gaussianPDFReal (k * m) w.toNNReal z' =
      gaussianPDFReal m v.toNNReal z * gaussianPDFReal (k * z) b.toNNReal z' := by
  have hw0 : 0 < w := by rw [hw]; positivity
  have hs : 0 < b * v / w := by positivity
  rw [pdf_eq _ hs, pdf_eq _ hw0, pdf_eq _ hv, pdf_eq _ hb]
  have e1 : (√(2 * Real.pi * (b * v / w)))⁻¹ * (√(2 * Real.pi * w))⁻¹ =
      (√(2 * Real.pi * v))⁻¹ * (√(2 * Real.pi * b))⁻¹ := by
    rw [← mul_inv, ← mul_inv, ← Real.sqrt_mul (by positivity), ← Real.sqrt_mul (by positivity)]
    congr 2
    field_simp
  have e2 : Real.exp (-(z - (b * m + k * v * z') / w) ^ 2 / (2 * (b * v / w))) *
      Real.exp (-(z' - k * m) ^ 2 / (2 * w)) =
      Real.exp (-(z - m) ^ 2 / (2 * v)) * Real.exp (-(z' - k * z) ^ 2 / (2 * b)) := by
    rw [← Real.exp_add, ← Real.exp_add]
    congr 1
    field_simp
    rw [hw]
    ring
  calc _ = ((√(2 * Real.pi * (b * v / w)))⁻¹ * (√(2 * Real.pi * w))⁻¹) *
        (Real.exp (-(z - (b * m + k * v * z') / w) ^ 2 / (2 * (b * v / w))) *
          Real.exp (-(z' - k * m) ^ 2 / (2 * w))) := by ring
    _ = _ := by rw [e1, e2]; ring

/-! ### Betas and their products -/

theorem abar_eq (betas : List ℝ) (t : ℕ) : abar betas t = rest (beta betas) 0 (t + 1) := by
  induction betas generalizing t with
  | nil => simp [abar, rest, beta]
  | cons b l ih =>
    cases t with
    | zero => simp [abar, rest, beta]
    | succ t =>
      have e : abar (b :: l) (t + 1) = (1 - b) * abar l t := by simp [abar]
      rw [e, ih, rest, rest, Finset.prod_range_succ' _ (t + 1), mul_comm]
      simp [beta]

theorem beta_mem {betas : List ℝ} (h : ∀ b ∈ betas, 0 < b ∧ b < 1) {t : ℕ} (ht : t < betas.length) :
    0 < beta betas t ∧ beta betas t < 1 := by
  have : beta betas t = betas[t] := by simp [beta, ht]
  rw [this]
  exact h _ (List.getElem_mem ht)

theorem abar_mem {betas : List ℝ} (h : ∀ b ∈ betas, 0 < b ∧ b < 1) {t : ℕ} (ht : t < betas.length) :
    0 < abar betas t ∧ abar betas t < 1 := by
  rw [abar_eq]
  have : ∀ j < t + 1, 0 < beta betas (0 + j) ∧ beta betas (0 + j) < 1 := by
    intro j hj
    rw [Nat.zero_add]
    exact beta_mem h (by omega)
  exact ⟨(rest_mem _ _ _ this).1, rest_lt_one _ _ _ (by omega) this⟩

theorem abar_succ (betas : List ℝ) (t : ℕ) : abar betas (t + 1) = abar betas t * (1 - beta betas (t + 1)) := by
  rw [abar_eq, abar_eq, rest, rest, Finset.prod_range_succ _ (t + 1), Nat.zero_add]

theorem rest_append (β : ℕ → ℝ) (a n k : ℕ) : rest β a (n + k) = rest β a n * rest β (a + n) k := by
  rw [rest, Finset.prod_range_add]
  congr 1
  unfold rest
  refine Finset.prod_congr rfl fun j _ => ?_
  rw [Nat.add_assoc]

/-! ### One step of the codec -/

theorem postVar_pos {betas : List ℝ} (h : ∀ b ∈ betas, 0 < b ∧ b < 1) {t : ℕ} (h1 : 1 ≤ t) (ht : t < betas.length) :
    0 < postVar betas t := by
  obtain ⟨t, rfl⟩ : ∃ k, t = k + 1 := ⟨t - 1, by omega⟩
  have a1 := abar_mem h ht
  have a0 := abar_mem h (show t < betas.length by omega)
  have b := beta_mem h ht
  have e : abarPrev betas (t + 1) = abar betas t := by simp [abarPrev]
  rw [postVar, e]
  exact div_pos (mul_pos b.1 (by linarith)) (by linarith)

/-- The reverse step and the value it starts from have the density of the value before and of the noising step. -/
theorem step_eq {betas : List ℝ} (h : ∀ b ∈ betas, 0 < b ∧ b < 1) {t : ℕ} (ht : t + 1 < betas.length) (x z z' : ℝ) :
    gaussianPDFReal (postMean betas (t + 1) x z') (postVar betas (t + 1)).toNNReal z *
        gaussianPDFReal (√(abar betas (t + 1)) * x) (1 - abar betas (t + 1)).toNNReal z' =
      gaussianPDFReal (√(abar betas t) * x) (1 - abar betas t).toNNReal z *
        gaussianPDFReal (√(1 - beta betas (t + 1)) * z) (beta betas (t + 1)).toNNReal z' := by
  have a0 := abar_mem h (show t < betas.length by omega)
  have b := beta_mem h ht
  have e : abarPrev betas (t + 1) = abar betas t := by simp [abarPrev]
  have hs : (√(1 - beta betas (t + 1))) ^ 2 = 1 - beta betas (t + 1) := Real.sq_sqrt (by linarith)
  have key := bayes (√(abar betas t) * x) (√(1 - beta betas (t + 1))) (v := 1 - abar betas t)
    (b := beta betas (t + 1)) (w := 1 - abar betas (t + 1)) (by linarith) b.1
    (by rw [hs, abar_succ]; ring) z z'
  rw [← key]
  congr 1
  · congr 1
    rw [postMean, e]
    ring
  · congr 1
    rw [abar_succ, Real.sqrt_mul a0.1.le]
    ring

/-- The betas of a created diffusion, from the kept steps. -/
noncomputable def gaps (betas : List ℝ) : ℝ → List ℕ → List ℝ
  | _, [] => []
  | last, k :: ks => (1 - abar betas k / last) :: gaps betas (abar betas k) ks

theorem gaps_length (betas : List ℝ) (last : ℝ) (ks : List ℕ) : (gaps betas last ks).length = ks.length := by
  induction ks generalizing last with
  | nil => rfl
  | cons k ks ih => simp [gaps, ih]

theorem spacedLoop_eq (betas : List ℝ) (use : Finset ℕ) : ∀ (is : List ℕ) (last : ℝ) (new : List ℝ) (tmap : List ℕ),
    spacedLoop betas use is last new tmap =
      (new ++ gaps betas last (is.filter (· ∈ use)), tmap ++ is.filter (· ∈ use)) := by
  intro is
  induction is with
  | nil => intro last new tmap; simp [spacedLoop, gaps]
  | cons i is ih =>
    intro last new tmap
    rw [spacedLoop]
    by_cases hi : i ∈ use
    · rw [if_pos hi, ih]
      simp [hi, gaps]
    · rw [if_neg hi, ih]
      simp [hi]

/-- The products of the new betas are those of the old ones at the kept steps. -/
theorem gaps_prod {betas : List ℝ} (h : ∀ b ∈ betas, 0 < b ∧ b < 1) : ∀ (ks : List ℕ) (last : ℝ), last ≠ 0 →
    (∀ k ∈ ks, k < betas.length) → ∀ (t : ℕ) (ht : t < ks.length),
      abar (gaps betas last ks) t = abar betas ks[t] / last := by
  intro ks
  induction ks with
  | nil => intro last hl hk t ht; simp at ht
  | cons k ks ih =>
    intro last hl hk t ht
    have ha := (abar_mem h (hk k List.mem_cons_self)).1
    cases t with
    | zero => simp [abar, gaps]
    | succ t =>
      have e : abar (gaps betas last (k :: ks)) (t + 1) =
          abar betas k / last * abar (gaps betas (abar betas k) ks) t := by simp [abar, gaps]
      rw [e, ih (abar betas k) ha.ne' (fun j hj => hk j (List.mem_cons_of_mem _ hj)) t (by simpa using ht)]
      simp only [List.getElem_cons_succ]
      field_simp

theorem abar_ratio (betas : List ℝ) {a b : ℕ} (hab : a < b) :
    abar betas b = abar betas a * rest (beta betas) (a + 1) (b - a) := by
  rw [abar_eq, abar_eq]
  have : b + 1 = (a + 1) + (b - a) := by omega
  rw [this, rest_append, Nat.zero_add]

theorem gaps_mem {betas : List ℝ} (h : ∀ b ∈ betas, 0 < b ∧ b < 1) : ∀ (ks : List ℕ) (last : ℝ),
    (∀ k ∈ ks, k < betas.length ∧ abar betas k < last) → ks.Pairwise (· < ·) →
      ∀ b ∈ gaps betas last ks, 0 < b ∧ b < 1 := by
  intro ks
  induction ks with
  | nil => intro last _ _ b hb; simp [gaps] at hb
  | cons k ks ih =>
    intro last hk hp b hb
    have hk0 := hk k List.mem_cons_self
    have ha := abar_mem h hk0.1
    rw [List.pairwise_cons] at hp
    rw [gaps, List.mem_cons] at hb
    rcases hb with rfl | hb
    · have hl : 0 < last := ha.1.trans hk0.2
      constructor
      · have := (div_lt_one hl).2 hk0.2
        linarith
      · have := div_pos ha.1 hl
        linarith
    · refine ih (abar betas k) (fun j hj => ⟨(hk j (List.mem_cons_of_mem _ hj)).1, ?_⟩) hp.2 b hb
      have hkj := hp.1 j hj
      have hj' := (hk j (List.mem_cons_of_mem _ hj)).1
      rw [abar_ratio betas hkj]
      have : rest (beta betas) (k + 1) (j - k) < 1 := by
        apply rest_lt_one _ _ _ (by omega)
        intro i hi
        exact beta_mem h (by omega)
      nlinarith [ha.1]

/-! ### Creating the diffusion -/

theorem checkBetas_ok {betas : List ℝ} (u : Unit) (h : checkBetas betas = .ok u) : 2 ≤ betas.length := by
  unfold checkBetas at h
  split_ifs at h with h1 h2
  omega

/-- What `create_gaussian_diffusion` returns. -/
theorem create_ok {err : ℕ → ℕ → ℝ} {a : Args} {d : Diff} (h : create err a = .ok d) :
    ∃ betas use, namedBetas a.schedule a.steps = .ok betas ∧
      spaceTimesteps err a.steps (a.respacing.getD (.list [a.steps])) = .ok use ∧
      d.tmap = (List.range betas.length).filter (· ∈ use) ∧ d.betas = gaps betas 1 d.tmap ∧ d.original = betas.length ∧
      d.meanType = a.mean ∧ d.varType = a.var ∧ d.lossType = a.loss ∧ d.rescale = a.rescaleTimesteps ∧
      2 ≤ d.betas.length := by
  unfold create at h
  cases hb : namedBetas a.schedule a.steps with
  | error e => rw [hb] at h; cases h
  | ok betas =>
    rw [hb] at h
    simp only at h
    cases hu : spaceTimesteps err a.steps (a.respacing.getD (.list [a.steps])) with
    | error e => rw [hu] at h; cases h
    | ok use =>
      rw [hu] at h
      simp only at h
      cases h1 : checkBetas betas with
      | error e => rw [h1] at h; cases h
      | ok u =>
        rw [h1] at h
        simp only at h
        rw [spacedLoop_eq] at h
        simp only [List.nil_append] at h
        cases h2 : checkBetas (gaps betas 1 ((List.range betas.length).filter (· ∈ use))) with
        | error e => rw [h2] at h; cases h
        | ok u' =>
          rw [h2] at h
          simp only [Except.ok.injEq] at h
          subst h
          exact ⟨betas, use, rfl, rfl, rfl, rfl, rfl, rfl, rfl, rfl, rfl, checkBetas_ok u' h2⟩

theorem kept_facts (n : ℕ) (use : Finset ℕ) :
    ((List.range n).filter (· ∈ use)).Pairwise (· < ·) ∧
      ∀ i, i ∈ (List.range n).filter (· ∈ use) ↔ i ∈ use ∧ i < n := by
  refine ⟨(List.pairwise_lt_range (n := n)).filter _, fun i => ?_⟩
  rw [List.mem_filter, List.mem_range]
  simp [and_comm]

theorem namedBetas_length {s : Schedule} {n : ℕ} {betas : List ℝ} (h : namedBetas s n = .ok betas) :
    betas.length = n := by
  cases s with
  | linear => simp only [namedBetas, Except.ok.injEq] at h; simp [← h]
  | cosine => simp only [namedBetas, Except.ok.injEq] at h; simp [← h]
  | other => simp [namedBetas] at h

/-- **C124, the created diffusion.** It has one step for each of the steps that `space_timesteps` chooses, in increasing
order, and is of the types that were asked for. -/
theorem C124_create {err : ℕ → ℕ → ℝ} {a : Args} {d : Diff} (h : create err a = .ok d) :
    (∃ use, spaceTimesteps err a.steps (a.respacing.getD (.list [a.steps])) = .ok use ∧
      ∀ i, i ∈ d.tmap ↔ i ∈ use ∧ i < a.steps) ∧
    d.tmap.Pairwise (· < ·) ∧ d.betas.length = d.tmap.length ∧ 2 ≤ d.tmap.length ∧
    (d.meanType = .startX ↔ a.predictXstart = true) ∧
    (d.varType = .learnedRange ↔ a.learnSigma = true) ∧
    (d.varType = .fixedSmall ↔ a.learnSigma = false ∧ a.sigmaSmall = true) ∧
    (d.lossType = .rescaledKl ↔ a.useKl = true) ∧
    (d.lossType = .rescaledMse ↔ a.useKl = false ∧ a.rescaleLearnedSigmas = true) := by
  obtain ⟨betas, use, h1, h2, h3, h4, h5, h6, h7, h8, h9, h10⟩ := create_ok h
  have hl := namedBetas_length h1
  obtain ⟨k1, k2⟩ := kept_facts betas.length use
  have hlen : d.betas.length = d.tmap.length := by rw [h4, gaps_length]
  refine ⟨⟨use, h2, fun i => ?_⟩, by rw [h3]; exact k1, hlen, by omega, ?_, ?_, ?_, ?_, ?_⟩
  · rw [h3, k2, hl]
  · rw [h6, Args.mean]; cases a.predictXstart <;> simp
  · rw [h7, Args.var]; cases a.learnSigma <;> cases a.sigmaSmall <;> simp
  · rw [h7, Args.var]; cases a.learnSigma <;> cases a.sigmaSmall <;> simp
  · rw [h8, Args.loss]; cases a.useKl <;> cases a.rescaleLearnedSigmas <;> simp
  · rw [h8, Args.loss]; cases a.useKl <;> cases a.rescaleLearnedSigmas <;> simp

/-- **C124, schedules.** The betas of the cosine schedule are in `(0, 1)` for any number of steps; those of the linear
schedule for more than 20 steps. -/
theorem C124_schedule {s : Schedule} {n : ℕ} {betas : List ℝ} (h : namedBetas s n = .ok betas)
    (hs : s = .cosine ∨ 20 < n) : ∀ b ∈ betas, 0 < b ∧ b < 1 := by
  cases s with
  | other => simp [namedBetas] at h
  | linear =>
    have hn : 20 < n := by rcases hs with h | h; · cases h
                           · exact h
    simp only [namedBetas, Except.ok.injEq] at h
    subst h
    intro b hb
    rw [List.mem_map] at hb
    obtain ⟨i, hi, rfl⟩ := hb
    rw [List.mem_range] at hi
    have hn' : (20 : ℝ) < n := by exact_mod_cast hn
    have hi' : (i : ℝ) ≤ n - 1 := by
      have : i + 1 ≤ n := hi
      have : (i : ℝ) + 1 ≤ n := by exact_mod_cast this
      linarith
    have hi0 : (0 : ℝ) ≤ i := Nat.cast_nonneg i
    have hn1 : (0 : ℝ) < n - 1 := by linarith
    set q : ℝ := i / (n - 1) with hq
    have hq0 : 0 ≤ q := div_nonneg hi0 hn1.le
    have hq1 : q ≤ 1 := (div_le_one hn1).2 hi'
    set c : ℝ := 1000 / n with hc
    have hc0 : 0 < c := by positivity
    have hc1 : c < 50 := by rw [hc, div_lt_iff₀ (by linarith)]; linarith
    have e : c * 0.0001 + i * ((c * 0.02 - c * 0.0001) / (n - 1)) = c * (0.0001 + q * 0.0199) := by
      rw [hq]; field_simp; ring
    rw [e]
    constructor
    · positivity
    · nlinarith
  | cosine =>
    simp only [namedBetas, Except.ok.injEq] at h
    subst h
    intro b hb
    rw [List.mem_map] at hb
    obtain ⟨i, hi, rfl⟩ := hb
    rw [List.mem_range] at hi
    have hn0 : (0 : ℝ) < n := by exact_mod_cast (by omega : 0 < n)
    have hi' : ((i : ℝ) + 1) / n ≤ 1 := by
      rw [div_le_one hn0]
      exact_mod_cast hi
    have hi0 : (0 : ℝ) ≤ i / n := by positivity
    have hlt : (i : ℝ) / n < (i + 1) / n := by
      apply div_lt_div_of_pos_right _ hn0
      linarith
    have hpi := Real.pi_pos
    have c1 : 0 < Real.cos (((i : ℝ) / n + 0.008) / 1.008 * Real.pi / 2) := by
      apply Real.cos_pos_of_mem_Ioo
      constructor
      · have : 0 ≤ ((i : ℝ) / n + 0.008) / 1.008 * Real.pi / 2 := by positivity
        linarith
      · have : ((i : ℝ) / n + 0.008) / 1.008 < 1 := by
          rw [div_lt_one (by norm_num)]; linarith
        nlinarith
    have c2 : Real.cos ((((i : ℝ) + 1) / n + 0.008) / 1.008 * Real.pi / 2) <
        Real.cos (((i : ℝ) / n + 0.008) / 1.008 * Real.pi / 2) := by
      apply Real.cos_lt_cos_of_nonneg_of_le_pi
      · positivity
      · have : (((i : ℝ) + 1) / n + 0.008) / 1.008 ≤ 1 := by
          rw [div_le_one (by norm_num)]; linarith
        nlinarith
      · have : ((i : ℝ) / n + 0.008) / 1.008 < (((i : ℝ) + 1) / n + 0.008) / 1.008 := by
          apply div_lt_div_of_pos_right _ (by norm_num)
          linarith
        nlinarith
    have c3 : 0 ≤ Real.cos ((((i : ℝ) + 1) / n + 0.008) / 1.008 * Real.pi / 2) := by
      apply Real.cos_nonneg_of_mem_Icc
      constructor
      · have : 0 ≤ (((i : ℝ) + 1) / n + 0.008) / 1.008 * Real.pi / 2 := by positivity
        linarith
      · have : (((i : ℝ) + 1) / n + 0.008) / 1.008 ≤ 1 := by
          rw [div_le_one (by norm_num)]; linarith
        nlinarith
    have r1 : cosBar ((i + 1) / n) / cosBar (i / n) < 1 := by
      unfold cosBar
      rw [div_lt_one (by positivity)]
      nlinarith
    have r0 : 0 ≤ cosBar ((i + 1) / n) / cosBar (i / n) := by
      unfold cosBar
      positivity
    constructor
    · apply lt_min
      · linarith
      · norm_num
    · exact lt_of_le_of_lt (min_le_right _ _) (by norm_num)

/-! ### The latents -/

variable {ι : Type}

/-- The standard deviation of `_gaussian_params` does not depend on `use_log_variance` if the two variances agree. -/
theorem stdd_eq (m : DiffModel ι) (mean variance logVariance : ι → ℝ) (i : ι) (hv : 0 < variance i)
    (hl : logVariance i = Real.log (variance i)) : (m.gaussianParams mean variance logVariance).stdd i = √(variance i) := by
  unfold DiffModel.gaussianParams
  cases m.useLogVariance with
  | false => simp
  | true =>
    simp only [if_true, hl]
    rw [Real.sqrt_eq_rpow, Real.rpow_def_of_pos hv]
    congr 1
    ring

theorem postLogVar_eq (betas : List ℝ) {t : ℕ} (h1 : 1 ≤ t) : postLogVar betas t = Real.log (postVar betas t) := by
  rw [postLogVar, if_neg (by omega)]

theorem density_infer [Fintype ι] (m : DiffModel ι) (h : ∀ b ∈ m.diff.betas, 0 < b ∧ b < 1)
    (hT : 0 < m.diff.betas.length) (x z : ι → ℝ) :
    density (m.infer x) z = ∏ i, gaussianPDFReal (√(abar m.diff.betas (m.diff.betas.length - 1)) * x i)
      (1 - abar m.diff.betas (m.diff.betas.length - 1)).toNNReal (z i) := by
  have ha := abar_mem h (show m.diff.betas.length - 1 < m.diff.betas.length by omega)
  unfold density
  refine Finset.prod_congr rfl fun i _ => ?_
  have hpos : 0 < 1 - abar m.diff.betas (m.diff.betas.length - 1) := by linarith
  have hs : (m.infer x).stdd i = √(1 - abar m.diff.betas (m.diff.betas.length - 1)) := by
    unfold DiffModel.infer DiffModel.steps
    exact stdd_eq m _ _ _ i hpos rfl
  rw [hs, Real.sq_sqrt hpos.le]
  rfl

theorem density_generate [Fintype ι] (m : DiffModel ι) (h : ∀ b ∈ m.diff.betas, 0 < b ∧ b < 1) {t : ℕ} (h1 : 1 ≤ t)
    (ht : t < m.diff.betas.length) (x z z' : ι → ℝ) :
    density (m.generate z' t (some x)) z = ∏ i, gaussianPDFReal (postMean m.diff.betas t (x i) (z' i))
      (postVar m.diff.betas t).toNNReal (z i) := by
  have hv := postVar_pos h h1 ht
  unfold density
  refine Finset.prod_congr rfl fun i _ => ?_
  have hs : (m.generate z' t (some x)).stdd i = √(postVar m.diff.betas t) := by
    unfold DiffModel.generate
    exact stdd_eq m _ _ _ i hv (postLogVar_eq _ h1)
  rw [hs, Real.sq_sqrt hv.le]
  rfl

/-- The latents from `step` on: the density of the first one after all its noise, and of the noise of the others. -/
theorem drawn_eq [Fintype ι] {M D I : Type} (m : DiffModel ι) (S : Setup M D (ι → ℝ) (ι → ℝ) (Params ι) I)
    (hsi : S.infer = m.infer) (hsg : S.generate = m.generate) (h : ∀ b ∈ m.diff.betas, 0 < b ∧ b < 1) (x : ι → ℝ) :
    ∀ (ds : List (DiscrLatent I (Params ι))) (d : DiscrLatent I (Params ι)) (t : ℕ),
      t + 1 + ds.length = m.diff.betas.length →
      drawn S x (t + 1) (d :: ds) =
        (∏ i, gaussianPDFReal (√(abar m.diff.betas t) * x i) (1 - abar m.diff.betas t).toNNReal (S.toLatent d i)) *
        ∏ k ∈ Finset.range ds.length, ∏ i, gaussianPDFReal
          (√(1 - beta m.diff.betas (t + 1 + k)) * S.toLatent ((d :: ds).getD k d) i)
          (beta m.diff.betas (t + 1 + k)).toNNReal (S.toLatent (ds.getD k d) i) := by
  intro ds
  induction ds with
  | nil =>
    intro d t hl
    have ht : t = m.diff.betas.length - 1 := by simp only [List.length_nil] at hl; omega
    simp only [drawn, postParams, List.length_nil, Finset.range_zero, Finset.prod_empty, mul_one, hsi]
    rw [density_infer m h (by simp only [List.length_nil] at hl; omega), ← ht]
  | cons d' ds ih =>
    intro d t hl
    simp only [List.length_cons] at hl
    have ih' := ih d' (t + 1) (by omega)
    rw [drawn, ih', List.length_cons, Finset.prod_range_succ']
    have e1 : postParams S x (t + 1) (d' :: ds) = m.generate (S.toLatent d') (t + 1) (some x) := by
      simp only [postParams, hsg]
    rw [e1, density_generate m h (by omega) (by omega)]
    have e2 : ∀ k ∈ Finset.range ds.length,
        (∏ i, gaussianPDFReal (√(1 - beta m.diff.betas (t + 1 + 1 + k)) * S.toLatent ((d' :: ds).getD k d') i)
          (beta m.diff.betas (t + 1 + 1 + k)).toNNReal (S.toLatent (ds.getD k d') i)) =
        ∏ i, gaussianPDFReal (√(1 - beta m.diff.betas (t + 1 + (k + 1))) * S.toLatent ((d :: d' :: ds).getD (k + 1) d) i)
          (beta m.diff.betas (t + 1 + (k + 1))).toNNReal (S.toLatent ((d' :: ds).getD (k + 1) d) i) := by
      intro k hk
      rw [Finset.mem_range] at hk
      have g1 : (d' :: ds).getD k d' = (d :: d' :: ds).getD (k + 1) d := by
        rw [List.getD_cons_succ]
        rw [List.getD_eq_getElem _ _ (by simp; omega), List.getD_eq_getElem _ _ (by simp; omega)]
      have g2 : ds.getD k d' = (d' :: ds).getD (k + 1) d := by
        rw [List.getD_cons_succ]
        rw [List.getD_eq_getElem _ _ hk, List.getD_eq_getElem _ _ hk]
      have g3 : t + 1 + 1 + k = t + 1 + (k + 1) := by omega
      rw [g1, g2, g3]
    rw [Finset.prod_congr rfl e2]
    have e3 : ((d :: d' :: ds).getD 0 d) = d := rfl
    have e4 : ((d' :: ds).getD 0 d) = d' := rfl
    rw [e3, e4]
    have step : (∏ i, gaussianPDFReal (postMean m.diff.betas (t + 1) (x i) (S.toLatent d' i))
          (postVar m.diff.betas (t + 1)).toNNReal (S.toLatent d i)) *
        (∏ i, gaussianPDFReal (√(abar m.diff.betas (t + 1)) * x i) (1 - abar m.diff.betas (t + 1)).toNNReal
          (S.toLatent d' i)) =
        (∏ i, gaussianPDFReal (√(abar m.diff.betas t) * x i) (1 - abar m.diff.betas t).toNNReal (S.toLatent d i)) *
        ∏ i, gaussianPDFReal (√(1 - beta m.diff.betas (t + 1)) * S.toLatent d i)
          (beta m.diff.betas (t + 1)).toNNReal (S.toLatent d' i) := by
      rw [← Finset.prod_mul_distrib, ← Finset.prod_mul_distrib]
      exact Finset.prod_congr rfl fun i _ => step_eq h (by omega) _ _ _
    rw [← mul_assoc, step, Nat.add_zero]
    ring

theorem created_betas {err : ℕ → ℕ → ℝ} {a : Args} {d : Diff} (hc : create err a = .ok d)
    (hs : a.schedule = .cosine ∨ 20 < a.steps) :
    ∃ betas, namedBetas a.schedule a.steps = .ok betas ∧ (∀ b ∈ betas, 0 < b ∧ b < 1) ∧
      d.betas = gaps betas 1 d.tmap ∧ (∀ k ∈ d.tmap, k < betas.length) ∧ d.tmap.Pairwise (· < ·) ∧
      (∀ b ∈ d.betas, 0 < b ∧ b < 1) ∧ d.betas.length = d.tmap.length ∧ 2 ≤ d.betas.length := by
  obtain ⟨betas, use, h1, h2, h3, h4, h5, h6, h7, h8, h9, h10⟩ := create_ok hc
  have h01 := C124_schedule h1 hs
  obtain ⟨k1, k2⟩ := kept_facts betas.length use
  rw [← h3] at k1
  have k3 : ∀ k ∈ d.tmap, k < betas.length := fun k hk => by rw [h3, k2] at hk; exact hk.2
  refine ⟨betas, h1, h01, h4, k3, k1, ?_, by rw [h4, gaps_length], h10⟩
  rw [h4]
  exact gaps_mem h01 _ 1 (fun k hk => ⟨k3 k hk, (abar_mem h01 (k3 k hk)).2⟩) k1

/-- **C124, the latents.** For every schedule, choice of steps, network, data and list of latents: the density with which
`encode` draws the latents, the last one first, is the density of the noising process at the kept steps, which starts with
the data and adds noise step by step.  (Here `kept k` is the number of the `k`-th kept step.) -/
theorem C124_process [Fintype ι] {M D : Type} {err : ℕ → ℕ → ℝ} {a : Args} (m : DiffModel ι)
    (hc : create err a = .ok m.diff) (hs : a.schedule = .cosine ∨ 20 < a.steps) (toData : D → ι → ℝ) (centres : ℕ → ℝ)
    (prior : PCodec M (ι → ℕ)) (post : Params ι → Params ι → PCodec M (ι → ℕ)) (obs : Params ι → PCodec M D)
    (clipStdd : ℝ) (nbytes : M → ℕ) (track : Bool) :
    let S := m.setup toData centres prior post obs clipStdd nbytes track
    ∃ (betas : List ℝ) (kept : ℕ → ℕ) (first : ℝ → ℝ → ℝ) (next : ℕ → ℝ → ℝ → ℝ),
      namedBetas a.schedule a.steps = .ok betas ∧ (List.range S.steps).map kept = m.diff.tmap ∧
      (∀ x, HasDensity (noised (fun t => betas.getD t 0) 0 (kept 0 + 1) x) (first x)) ∧
      (∀ k, k + 1 < S.steps → ∀ z,
        HasDensity (noised (fun t => betas.getD t 0) (kept k + 1) (kept (k + 1) - kept k) z) (next k z)) ∧
      ∀ (x : ι → ℝ) (ds : List (DiscrLatent (ι → ℕ) (Params ι))) (z : ℕ → ι → ℝ), ds.length = S.steps →
        (∀ k (hk : k < ds.length), z k = S.toLatent ds[k]) →
        drawn S x 1 ds = ∏ i, (first (x i) (z 0 i) * ∏ k ∈ Finset.range (S.steps - 1), next k (z k i) (z (k + 1) i)) := by
  intro S
  obtain ⟨betas, hb, h01, hg, hkl, hpw, hd, hlen, h2⟩ := created_betas hc hs
  have hsteps : S.steps = m.diff.betas.length := rfl
  have hβ : (fun t => betas.getD t 0) = beta betas := rfl
  set kept : ℕ → ℕ := fun k => m.diff.tmap.getD k 0 with hkept
  have keq : ∀ k (hk : k < m.diff.tmap.length), kept k = m.diff.tmap[k] := fun k hk => List.getD_eq_getElem _ _ hk
  have kmem : ∀ k, k < m.diff.tmap.length → kept k < betas.length := fun k hk => by
    rw [keq k hk]; exact hkl _ (List.getElem_mem hk)
  have kinc : ∀ k, k + 1 < m.diff.tmap.length → kept k < kept (k + 1) := fun k hk => by
    rw [keq k (by omega), keq (k + 1) hk]
    exact List.pairwise_iff_getElem.1 hpw k (k + 1) (by omega) hk (by omega)
  have hab : ∀ t, t < m.diff.tmap.length → abar m.diff.betas t = abar betas (kept t) := fun t ht => by
    rw [hg, gaps_prod h01 _ 1 one_ne_zero hkl t ht, div_one, keq t ht]
  -- the noise between two kept steps
  have hbeta : ∀ k, k + 1 < m.diff.tmap.length →
      1 - beta m.diff.betas (k + 1) = rest (beta betas) (kept k + 1) (kept (k + 1) - kept k) := fun k hk => by
    have e1 := abar_succ m.diff.betas k
    rw [hab (k + 1) hk, hab k (by omega), abar_ratio betas (kinc k hk)] at e1
    exact (mul_left_cancel₀ (abar_mem h01 (kmem k (by omega))).1.ne' e1).symm
  have hrange : ∀ k, k + 1 < m.diff.tmap.length → ∀ j < kept (k + 1) - kept k,
      0 < beta betas (kept k + 1 + j) ∧ beta betas (kept k + 1 + j) < 1 := fun k hk j hj => by
    have := kmem (k + 1) hk
    exact beta_mem h01 (by omega)
  refine ⟨betas, kept, fun x => gaussianPDFReal (√(abar m.diff.betas 0) * x) (1 - abar m.diff.betas 0).toNNReal,
    fun k z => gaussianPDFReal (√(1 - beta m.diff.betas (k + 1)) * z) (beta m.diff.betas (k + 1)).toNNReal, hb, ?_, ?_, ?_, ?_⟩
  · apply List.ext_getElem
    · rw [List.length_map, List.length_range, hsteps, hlen]
    · intro i h1 h2
      rw [List.getElem_map, List.getElem_range, keq i h2]
  · intro x
    have hlt : 0 < m.diff.tmap.length := by omega
    have hr : ∀ j < kept 0 + 1, 0 < beta betas (0 + j) ∧ beta betas (0 + j) < 1 := fun j hj => by
      rw [Nat.zero_add]
      have := kmem 0 hlt
      exact beta_mem h01 (by omega)
    rw [hβ, noised_eq _ _ _ _ hr, ← abar_eq, ← hab 0 hlt]
    exact gaussian_density _ _ (by have := abar_mem hd (show 0 < m.diff.betas.length by omega); linarith)
  · intro k hk z
    have hk' : k + 1 < m.diff.tmap.length := by omega
    rw [hβ, noised_eq _ _ _ _ (hrange k hk'), ← hbeta k hk', sub_sub_cancel]
    exact gaussian_density _ _ (beta_mem hd (by omega)).1
  · intro x ds z hl hz
    cases ds with
    | nil => simp only [List.length_nil] at hl; omega
    | cons d ds =>
      have hl' : ds.length = S.steps - 1 := by rw [← hl]; simp
      have key := drawn_eq m S rfl rfl hd x ds d 0 (by rw [hl', hsteps]; omega)
      rw [Nat.zero_add] at key
      rw [key, hl', Finset.prod_comm, ← Finset.prod_mul_distrib]
      refine Finset.prod_congr rfl fun i _ => ?_
      congr 1
      · rw [hz 0 (by simp)]; rfl
      · refine Finset.prod_congr rfl fun k hk => ?_
        rw [Finset.mem_range] at hk
        have hk1 : k < (d :: ds).length := by simp only [List.length_cons]; omega
        have hk2 : k < ds.length := by omega
        rw [hz k hk1, hz (k + 1) (by simp only [List.length_cons]; omega), List.getD_eq_getElem _ _ hk1,
          List.getD_eq_getElem _ _ hk2, List.getElem_cons_succ, Nat.add_comm 1 k]

/-! ### Standard deviations -/

theorem modelVar_pos {d : Diff} (h : ∀ b ∈ d.betas, 0 < b ∧ b < 1) (h2 : 2 ≤ d.betas.length) {t : ℕ}
    (ht : t < d.betas.length) (hsmall : ¬(d.varType = .fixedSmall ∧ t = 0)) (v : ℝ) :
    0 < (modelVar d t v).1 ∧ (modelVar d t v).2 = Real.log (modelVar d t v).1 := by
  unfold modelVar
  cases hv : d.varType with
  | fixedLarge =>
    simp only [and_true]
    split_ifs
    · exact postVar_pos h le_rfl (by omega)
    · exact (beta_mem h ht).1
  | fixedSmall =>
    have h1 : 1 ≤ t := by
      by_contra h0
      exact hsmall ⟨hv, by omega⟩
    exact ⟨postVar_pos h h1 ht, postLogVar_eq _ h1⟩
  | learnedRange =>
    simp only
    exact ⟨Real.exp_pos _, (Real.log_exp _).symm⟩

/-- **C124, standard deviations.** All standard deviations that the codec uses for latents are positive: those of the
posteriors, and those of the priors for all outputs of the network; and those of the data, unless the variance is the fixed
small one. -/
theorem C124_positive {err : ℕ → ℕ → ℝ} {a : Args} (m : DiffModel ι) (hc : create err a = .ok m.diff)
    (hs : a.schedule = .cosine ∨ 20 < a.steps) (i : ι) :
    (∀ x, 0 < (m.infer x).stdd i) ∧
    (∀ z x step, 1 ≤ step → step < m.steps → 0 < (m.generate z step (some x)).stdd i) ∧
    (∀ z step, step < m.steps → ¬(a.learnSigma = false ∧ a.sigmaSmall = true ∧ step = 0) →
      0 < (m.generate z step none).stdd i) := by
  obtain ⟨betas, hb, h01, hg, hkl, hpw, hd, hlen, h2⟩ := created_betas hc hs
  refine ⟨fun x => ?_, fun z x step h1 ht => ?_, fun z step ht hsm => ?_⟩
  · have ha := abar_mem hd (show m.steps - 1 < m.diff.betas.length by unfold DiffModel.steps; omega)
    have hpos : 0 < 1 - abar m.diff.betas (m.steps - 1) := by linarith
    have e : (m.infer x).stdd i = √(1 - abar m.diff.betas (m.steps - 1)) := stdd_eq m _ _ _ i hpos rfl
    rw [e]
    exact Real.sqrt_pos.2 hpos
  · have hv := postVar_pos hd h1 ht
    have e : (m.generate z step (some x)).stdd i = √(postVar m.diff.betas step) :=
      stdd_eq m _ _ _ i hv (postLogVar_eq _ h1)
    rw [e]
    exact Real.sqrt_pos.2 hv
  · have hsm' : ¬(m.diff.varType = .fixedSmall ∧ step = 0) := by
      rintro ⟨g1, g2⟩
      obtain ⟨_, _, _, _, _, _, g3, _⟩ := C124_create hc
      exact hsm ⟨(g3.1 g1).1, (g3.1 g1).2, g2⟩
    obtain ⟨hv, hl⟩ := modelVar_pos hd h2 ht hsm' ((m.net z (m.time step)).2 i)
    have e : (m.generate z step none).stdd i = √(modelVar m.diff step ((m.net z (m.time step)).2 i)).1 :=
      stdd_eq m _ _ _ i hv hl
    rw [e]
    exact Real.sqrt_pos.2 hv

/-- **C124, `use_log_variance` (the part that holds).** It makes no difference to the latents, and none to the data unless the
variance is the fixed small one. -/
theorem C124_log_partial {err : ℕ → ℕ → ℝ} {a : Args} (m m' : DiffModel ι) (hc : create err a = .ok m.diff)
    (hs : a.schedule = .cosine ∨ 20 < a.steps) (hn : m'.net = m.net) (hd' : m'.diff = m.diff)
    (hcl : m'.clipDenoised = m.clipDenoised) :
    (∀ x, m'.infer x = m.infer x) ∧
    (∀ z x step, 1 ≤ step → step < m.steps → m'.generate z step (some x) = m.generate z step (some x)) ∧
    (∀ z step, step < m.steps → ¬(a.learnSigma = false ∧ a.sigmaSmall = true ∧ step = 0) →
      m'.generate z step none = m.generate z step none) := by
  obtain ⟨betas, hb, h01, hg, hkl, hpw, hd, hlen, h2⟩ := created_betas hc hs
  have key : ∀ mean variance logVariance : ι → ℝ, (∀ i, 0 < variance i ∧ logVariance i = Real.log (variance i)) →
      m'.gaussianParams mean variance logVariance = m.gaussianParams mean variance logVariance := by
    intro mean variance logVariance h
    have e : (m'.gaussianParams mean variance logVariance).stdd = (m.gaussianParams mean variance logVariance).stdd :=
      funext fun i => by rw [stdd_eq m' _ _ _ i (h i).1 (h i).2, stdd_eq m _ _ _ i (h i).1 (h i).2]
    calc m'.gaussianParams mean variance logVariance
        = ⟨mean, (m'.gaussianParams mean variance logVariance).stdd⟩ := rfl
      _ = ⟨mean, (m.gaussianParams mean variance logVariance).stdd⟩ := by rw [e]
      _ = _ := rfl
  refine ⟨fun x => ?_, fun z x step h1 ht => ?_, fun z step ht hsm => ?_⟩
  · have ha := abar_mem hd (show m.steps - 1 < m.diff.betas.length by unfold DiffModel.steps; omega)
    unfold DiffModel.infer DiffModel.steps
    rw [hd']
    exact key _ _ _ fun i => ⟨by have := ha.2; unfold DiffModel.steps at this; linarith, rfl⟩
  · unfold DiffModel.generate
    rw [hd']
    exact key _ _ _ fun i => ⟨postVar_pos hd h1 ht, postLogVar_eq _ h1⟩
  · have hsm' : ¬(m.diff.varType = .fixedSmall ∧ step = 0) := by
      rintro ⟨g1, g2⟩
      obtain ⟨_, _, _, _, _, _, g3, _⟩ := C124_create hc
      exact hsm ⟨(g3.1 g1).1, (g3.1 g1).2, g2⟩
    have et : m'.time step = m.time step := by unfold DiffModel.time; rw [hd']
    unfold DiffModel.generate
    simp only
    rw [hn, hd', hcl, et]
    exact key _ _ _ fun i => modelVar_pos hd h2 ht hsm' _

/-- **C124 is violated for the fixed small variance:** without `use_log_variance` (the default) the data is always coded with a
standard deviation of zero before clipping, whatever the network; with `use_log_variance` the standard deviation is
positive. -/
theorem C124_violated_small {err : ℕ → ℕ → ℝ} {a : Args} (m : DiffModel ι) (hc : create err a = .ok m.diff)
    (hs : a.schedule = .cosine ∨ 20 < a.steps) (hl : a.learnSigma = false) (hsm : a.sigmaSmall = true) (z : ι → ℝ) (i : ι) :
    (m.useLogVariance = false → (m.generate z 0 none).stdd i = 0) ∧
    (m.useLogVariance = true → 0 < (m.generate z 0 none).stdd i) := by
  obtain ⟨_, _, _, _, _, _, g3, _⟩ := C124_create hc
  have hv := g3.2 ⟨hl, hsm⟩
  constructor
  · intro hu
    simp [DiffModel.generate, DiffModel.gaussianParams, hu, modelVar, hv, postVar, abarPrev]
  · intro hu
    simp only [DiffModel.generate, DiffModel.gaussianParams, hu, if_true]
    exact Real.exp_pos _

/-! ### The network -/

/-- What the network should say about a latent `z` of the data `x`: the data, or the noise. -/
noncomputable def Exact (d : Diff) (step : ℕ) (x z out : ℝ) : Prop :=
  match d.meanType with
  | .startX => out = x
  | .epsilon => z = √(abar d.betas step) * x + √(1 - abar d.betas step) * out

/-- **C124, a network that is right.** If the network predicts the data (or the noise) of a latent, and the data is in
`[-1, 1]` in case predictions are clipped, the mean of the prior is that of the posterior; with the fixed small variance, or
when the network asks for the smallest variance, prior and posterior are the same Gaussian, so that the codec gets back all the
bits that it pays for the latent. -/
theorem C124_exact {err : ℕ → ℕ → ℝ} {a : Args} (m : DiffModel ι) (hc : create err a = .ok m.diff)
    (hs : a.schedule = .cosine ∨ 20 < a.steps) (x z : ι → ℝ) (step : ℕ) (ht : step < m.steps)
    (hx : m.clipDenoised = true → ∀ i, -1 ≤ x i ∧ x i ≤ 1)
    (he : ∀ i, Exact m.diff step (x i) (z i) ((m.net z (m.time step)).1 i)) :
    (m.generate z step none).mean = (m.generate z step (some x)).mean ∧
    (m.diff.varType = .fixedSmall → m.generate z step none = m.generate z step (some x)) ∧
    (m.diff.varType = .learnedRange → 1 ≤ step → (∀ i, (m.net z (m.time step)).2 i = -1) →
      m.generate z step none = m.generate z step (some x)) := by
  obtain ⟨betas, hb, h01, hg, hkl, hpw, hd, hlen, h2⟩ := created_betas hc hs
  have ha := abar_mem hd ht
  have hclip : ∀ i, processXstart m.clipDenoised (x i) = x i := by
    intro i
    unfold processXstart
    split_ifs with hcl
    · rw [min_eq_right (hx hcl i).2, max_eq_right (hx hcl i).1]
    · rfl
  have hpred : ∀ i, predXstart m.diff m.clipDenoised step (z i) ((m.net z (m.time step)).1 i) = x i := by
    intro i
    have h := he i
    unfold Exact at h
    unfold predXstart
    cases hm : m.diff.meanType with
    | startX => rw [hm] at h; simp only at h ⊢; rw [h]; exact hclip i
    | epsilon =>
      rw [hm] at h
      simp only at h ⊢
      have e1 : √(1 / abar m.diff.betas step) * √(abar m.diff.betas step) = 1 := by
        rw [← Real.sqrt_mul (by have := ha.1; positivity), one_div, inv_mul_cancel₀ ha.1.ne', Real.sqrt_one]
      have e2 : √(1 / abar m.diff.betas step) * √(1 - abar m.diff.betas step) = √(1 / abar m.diff.betas step - 1) := by
        rw [← Real.sqrt_mul (by have := ha.1; positivity)]
        congr 1
        field_simp [ha.1.ne']
      rw [h, mul_add, ← mul_assoc, ← mul_assoc, e1, e2]
      rw [one_mul, add_sub_cancel_right]
      exact hclip i
  have hmean : (fun i => postMean m.diff.betas step
      (predXstart m.diff m.clipDenoised step (z i) ((m.net z (m.time step)).1 i)) (z i)) =
      fun i => postMean m.diff.betas step (x i) (z i) := funext fun i => by rw [hpred i]
  refine ⟨hmean, fun hv => ?_, fun hv h1 hn => ?_⟩
  · unfold DiffModel.generate
    simp only
    rw [hmean]
    simp only [modelVar, hv]
  · unfold DiffModel.generate
    simp only
    rw [hmean]
    have hpv := postVar_pos hd h1 ht
    have e : ∀ i, modelVar m.diff step ((m.net z (m.time step)).2 i) =
        (postVar m.diff.betas step, postLogVar m.diff.betas step) := by
      intro i
      simp only [modelVar, hv, hn i, postLogVar_eq _ h1]
      norm_num
      exact Real.exp_log hpv
    simp only [e]

/-- **C124, clipping.** In any case the mean of a prior is that of the posterior for some data, which is in `[-1, 1]` when
predictions are clipped. -/
theorem C124_prior (m : DiffModel ι) (z : ι → ℝ) (step : ℕ) :
    ∃ x : ι → ℝ, (m.clipDenoised = true → ∀ i, -1 ≤ x i ∧ x i ≤ 1) ∧
      (m.generate z step none).mean = (m.generate z step (some x)).mean := by
  refine ⟨fun i => predXstart m.diff m.clipDenoised step (z i) ((m.net z (m.time step)).1 i), fun hcl i => ?_, rfl⟩
  unfold predXstart processXstart
  rw [hcl]
  cases m.diff.meanType <;> simp

/-- **C124, the time.** For a step the network is asked about the kept step, in the time of the schedule (with
`rescale_timesteps` of a schedule of 1000 steps): networks that agree there give the same prior. -/
theorem C124_time {err : ℕ → ℕ → ℝ} {a : Args} (m m' : DiffModel ι) (hc : create err a = .ok m.diff)
    (hd' : m'.diff = m.diff) (hu : m'.useLogVariance = m.useLogVariance) (hcl : m'.clipDenoised = m.clipDenoised)
    (z : ι → ℝ) (step : ℕ) (ht : step < m.diff.tmap.length)
    (hn : m'.net z (if a.rescaleTimesteps then m.diff.tmap[step] * (1000 / a.steps) else m.diff.tmap[step]) =
      m.net z (if a.rescaleTimesteps then m.diff.tmap[step] * (1000 / a.steps) else m.diff.tmap[step])) :
    m'.generate z step none = m.generate z step none := by
  obtain ⟨betas, use, h1, h2, h3, h4, h5, h6, h7, h8, h9, h10⟩ := create_ok hc
  have ho : m.diff.original = a.steps := by rw [h5, namedBetas_length h1]
  have e : m.time step = if a.rescaleTimesteps then (m.diff.tmap[step] : ℝ) * (1000 / a.steps) else m.diff.tmap[step] := by
    unfold DiffModel.time
    rw [h9, ho, List.getD_eq_getElem _ _ ht]
  have e' : m'.time step = m.time step := by unfold DiffModel.time; rw [hd']
  unfold DiffModel.generate DiffModel.gaussianParams
  simp only
  rw [hd', hcl, hu, e', e, hn]

/-! ### The configurations can be created -/

/-- **C124, creating.** With the cosine schedule, or the linear one with more than 20 steps, the diffusion can be created if at
least two steps are chosen; if one step is chosen, an `IndexError` is raised. -/
theorem C124_creates (err : ℕ → ℕ → ℝ) (a : Args) (use : Finset ℕ) (hne : a.schedule ≠ .other)
    (hs : a.schedule = .cosine ∨ 20 < a.steps) (hn : 2 ≤ a.steps)
    (hu : spaceTimesteps err a.steps (a.respacing.getD (.list [a.steps])) = .ok use) (hlt : ∀ x ∈ use, x < a.steps) :
    (2 ≤ use.card → ∃ d, create err a = .ok d ∧ d.tmap.length = use.card) ∧
    (use.card = 1 → create err a = .error .index) := by
  obtain ⟨betas, hb⟩ : ∃ betas, namedBetas a.schedule a.steps = .ok betas := by
    cases h : a.schedule with
    | linear => exact ⟨_, rfl⟩
    | cosine => exact ⟨_, rfl⟩
    | other => exact absurd h hne
  have hl := namedBetas_length hb
  have h01 := C124_schedule hb hs
  have check : ∀ l : List ℝ, (∀ b ∈ l, 0 < b ∧ b < 1) → checkBetas l = if l.length < 2 then .error .index else .ok () := by
    intro l h
    unfold checkBetas
    rw [if_neg]
    rintro ⟨b, hb, h'⟩
    exact h' ⟨(h b hb).1, (h b hb).2.le⟩
  obtain ⟨k1, k2⟩ := kept_facts betas.length use
  set ks := (List.range betas.length).filter (· ∈ use) with hks
  have hcard : ks.length = use.card := by
    rw [← List.toFinset_card_of_nodup (k1.imp fun h => h.ne)]
    congr 1
    ext i
    rw [List.mem_toFinset, k2, hl]
    exact ⟨fun h => h.1, fun h => ⟨h, hlt i h⟩⟩
  have hg := gaps_mem h01 ks 1 (fun k hk => ⟨((k2 k).1 hk).2, (abar_mem h01 ((k2 k).1 hk).2).2⟩) k1
  have hc1 : checkBetas betas = .ok () := by rw [check _ h01, if_neg (by omega)]
  have hc2 := check _ hg
  rw [gaps_length, hcard] at hc2
  constructor
  · intro h2
    rw [if_neg (by omega)] at hc2
    refine ⟨⟨gaps betas 1 ks, ks, betas.length, a.mean, a.var, a.loss, a.rescaleTimesteps⟩, ?_, hcard⟩
    unfold create
    rw [hb, hu]
    simp only
    rw [hc1]
    simp only
    rw [spacedLoop_eq]
    simp only [List.nil_append, ← hks]
    rw [hc2]
  · intro h1
    rw [if_pos (by omega)] at hc2
    unfold create
    rw [hb, hu]
    simp only
    rw [hc1]
    simp only
    rw [spacedLoop_eq]
    simp only [List.nil_append, ← hks]
    rw [hc2]

/-- **C124, the betas of a schedule.** The linear schedule has evenly spaced betas from `0.1 / n` to `20 / n`; the cosine
schedule has the betas with which the squared signal after `i` of `n` steps is proportional to
`cos ((i / n + 0.008) / 1.008 · π / 2) ^ 2`, at most 0.999. -/
theorem C124_betas (n : ℕ) :
    (∃ l : List ℝ, namedBetas .linear n = .ok l ∧ l.length = n ∧ (2 ≤ n → l[0]? = some (0.1 / (n : ℝ)) ∧ l[n - 1]? = some (20 / (n : ℝ))) ∧
      ∀ i b b' c c', l[i]? = some b → l[i + 1]? = some b' → l[i + 2]? = some c → c' = c - b' → b' - b = c') ∧
    (∃ l : List ℝ, namedBetas .cosine n = .ok l ∧ l.length = n ∧ ∀ i, i < n → l[i]? = some (min 0.999
      (1 - Real.cos ((((i + 1 : ℕ) : ℝ) / n + 0.008) / 1.008 * (Real.pi / 2)) ^ 2 /
        Real.cos (((i : ℝ) / n + 0.008) / 1.008 * (Real.pi / 2)) ^ 2))) ∧
    namedBetas .other n = .error .notImplemented := by
  refine ⟨⟨_, rfl, by simp, ?_, ?_⟩, ⟨_, rfl, by simp, ?_⟩, rfl⟩
  · intro hn
    have hn0 : (n : ℝ) ≠ 0 := by
      have : n ≠ 0 := by omega
      exact_mod_cast this
    have hn1 : (n : ℝ) - 1 ≠ 0 := by
      have : (2 : ℝ) ≤ n := by exact_mod_cast hn
      intro h
      linarith
    constructor
    · rw [List.getElem?_map, List.getElem?_range (by omega)]
      simp only [Option.map_some, Option.some.injEq]
      push_cast
      field_simp
      ring
    · rw [List.getElem?_map, List.getElem?_range (by omega)]
      simp only [Option.map_some, Option.some.injEq]
      rw [Nat.cast_sub (by omega)]
      push_cast
      field_simp
      ring
  · intro i b b' c c' h1 h2 h3 h4
    simp only [List.getElem?_map, Option.map_eq_some_iff, List.getElem?_eq_some_iff, List.getElem_range] at h1 h2 h3
    obtain ⟨_, ⟨_, rfl⟩, rfl⟩ := h1
    obtain ⟨_, ⟨_, rfl⟩, rfl⟩ := h2
    obtain ⟨_, ⟨_, rfl⟩, rfl⟩ := h3
    rw [h4]
    push_cast
    ring
  · intro i hi
    rw [List.getElem?_map, List.getElem?_range hi]
    simp only [Option.map_some, Option.some.injEq, cosBar]
    rw [min_comm]
    push_cast
    simp only [mul_div_assoc]

/-- **C124, the variances.** Let `b` be the beta of a step and `q` the standard deviation of the posterior of the step
(of step 1 for the data).  The prior has the standard deviation `√b` with the fixed large variance (`q` for the data), `q`
with the fixed small one (for the data with `use_log_variance`), and with a learned variance the mean of the two that
the network asks for with a value of −1 (`q`) to 1 (`√b`), on a logarithmic scale. -/
theorem C124_variances {err : ℕ → ℕ → ℝ} {a : Args} (m : DiffModel ι) (hc : create err a = .ok m.diff)
    (hs : a.schedule = .cosine ∨ 20 < a.steps) (x z z' : ι → ℝ) (step : ℕ) (ht : step < m.steps) (i : ι) (b q s v : ℝ)
    (hb : m.diff.betas[step]? = some b) (hq : q = (m.generate z' (max step 1) (some x)).stdd i)
    (hs' : s = (m.generate z step none).stdd i) (hv : v = (m.net z (m.time step)).2 i) :
    (a.learnSigma = false → a.sigmaSmall = false → s = if step = 0 then q else √b) ∧
    (a.learnSigma = false → a.sigmaSmall = true → 1 ≤ step ∨ m.useLogVariance = true → s = q) ∧
    (a.learnSigma = true → s = √b ^ ((1 + v) / 2) * q ^ ((1 - v) / 2)) := by
  obtain ⟨betas, -, h01, hg, hkl, hpw, hd, hlen, h2⟩ := created_betas hc hs
  obtain ⟨-, -, -, -, -, g1, g2, -, -⟩ := C124_create hc
  have hT : m.steps = m.diff.betas.length := rfl
  have hbb : beta m.diff.betas step = b := by
    unfold beta
    rw [List.getD_eq_getElem?_getD, hb, Option.getD_some]
  have hb0 : 0 < b := by
    rw [← hbb]
    exact (beta_mem hd ht).1
  have hpv : 0 < postVar m.diff.betas (max step 1) := postVar_pos hd (le_max_right _ _) (by omega)
  have hq' : q = √(postVar m.diff.betas (max step 1)) := by
    rw [hq]
    exact stdd_eq m _ _ _ i hpv (postLogVar_eq _ (le_max_right _ _))
  have hpl : postLogVar m.diff.betas step = Real.log (postVar m.diff.betas (max step 1)) := by
    unfold postLogVar
    by_cases h0 : step = 0
    · subst h0; simp
    · rw [if_neg h0, max_eq_left (by omega)]
  refine ⟨fun hl hsm => ?_, fun hl hsm h1 => ?_, fun hl => ?_⟩
  · have ht' : m.diff.varType = .fixedLarge := by
      cases h : m.diff.varType with
      | fixedLarge => rfl
      | fixedSmall => exact absurd (g2.1 h).2 (by simp [hsm])
      | learnedRange => exact absurd (g1.1 h) (by simp [hl])
    have hmv : ∀ v, modelVar m.diff step v = (if step = 0 then postVar m.diff.betas 1 else b,
        Real.log (if step = 0 then postVar m.diff.betas 1 else b)) := by
      intro v
      unfold modelVar
      rw [ht', hbb]
    have e : s = √(if step = 0 then postVar m.diff.betas 1 else b) := by
      rw [hs']
      unfold DiffModel.generate
      simp only [hmv]
      refine stdd_eq m _ _ _ i ?_ rfl
      split_ifs with h0
      · rw [h0] at hpv
        simpa using hpv
      · exact hb0
    rw [e, hq']
    split_ifs with h0
    · rw [h0]
      simp
    · rfl
  · have ht' : m.diff.varType = .fixedSmall := g2.2 ⟨hl, hsm⟩
    have hmv : ∀ v, modelVar m.diff step v = (postVar m.diff.betas step, postLogVar m.diff.betas step) := by
      intro v
      unfold modelVar
      rw [ht']
    rw [hs', hq']
    unfold DiffModel.generate
    simp only [hmv]
    by_cases h0 : 1 ≤ step
    · rw [max_eq_left h0] at hpv ⊢
      exact stdd_eq m _ _ _ i hpv (postLogVar_eq _ h0)
    · have hu : m.useLogVariance = true := h1.resolve_left h0
      unfold DiffModel.gaussianParams
      simp only [hu, if_true]
      rw [hpl, Real.sqrt_eq_rpow, Real.rpow_def_of_pos hpv]
      congr 1
      ring
  · have ht' : m.diff.varType = .learnedRange := g1.2 hl
    have hmv : ∀ v, modelVar m.diff step v =
        (Real.exp ((v + 1) / 2 * Real.log b + (1 - (v + 1) / 2) * Real.log (postVar m.diff.betas (max step 1))),
          (v + 1) / 2 * Real.log b + (1 - (v + 1) / 2) * Real.log (postVar m.diff.betas (max step 1))) := by
      intro v
      unfold modelVar
      rw [ht', hbb, hpl]
    have e : s = √(Real.exp ((v + 1) / 2 * Real.log b +
        (1 - (v + 1) / 2) * Real.log (postVar m.diff.betas (max step 1)))) := by
      rw [hs', hv]
      unfold DiffModel.generate
      simp only [hmv]
      exact stdd_eq m _ _ _ i (Real.exp_pos _) (Real.log_exp _).symm
    rw [e, hq', Real.rpow_def_of_pos (Real.sqrt_pos.2 hb0), Real.rpow_def_of_pos (Real.sqrt_pos.2 hpv),
      Real.log_sqrt hb0.le, Real.log_sqrt hpv.le, ← Real.exp_add, Real.sqrt_eq_rpow, Real.rpow_def_of_pos (Real.exp_pos _),
      Real.log_exp]
    congr 1
    ring

/-- **C124, indices and latents.** A latent is the point whose standardised value is the centre of the bin that was
drawn; the last latent is coded with the standard normal distribution; the data with the standard deviation of the prior,
but at least `clip_stdd`. -/
theorem C124_indices {M D : Type} (m : DiffModel ι) (toData : D → ι → ℝ) (centres : ℕ → ℝ)
    (prior : PCodec M (ι → ℕ)) (post : Params ι → Params ι → PCodec M (ι → ℕ)) (obs : Params ι → PCodec M D)
    (clipStdd : ℝ) (nbytes : M → ℕ) (track : Bool) :
    let S := m.setup toData centres prior post obs clipStdd nbytes track
    (∀ d i, 0 < d.params.stdd i → (S.toLatent d i - d.params.mean i) / d.params.stdd i = centres (d.inds i)) ∧
    (∀ i, S.std.mean i = 0 ∧ S.std.stdd i = 1) ∧
    (∀ p, (∀ i, clipStdd ≤ p.stdd i) → S.obs p = obs p) ∧
    ∀ p, (∀ i, p.stdd i ≤ clipStdd) → S.obs p = obs ⟨p.mean, fun _ => clipStdd⟩ := by
  intro S
  refine ⟨?_, fun i => ⟨rfl, rfl⟩, ?_, ?_⟩
  · intro d i h
    show (d.params.mean i + centres (d.inds i) * d.params.stdd i - d.params.mean i) / d.params.stdd i = _
    rw [add_sub_cancel_left, mul_div_assoc, div_self h.ne', mul_one]
  · intro p h
    show obs ⟨p.mean, fun i => max (p.stdd i) clipStdd⟩ = obs p
    congr 1
    have : (fun i => max (p.stdd i) clipStdd) = p.stdd := funext fun i => max_eq_left (h i)
    rw [this]
  · intro p h
    show obs ⟨p.mean, fun i => max (p.stdd i) clipStdd⟩ = _
    congr 2
    exact funext fun i => max_eq_right (h i)

/-- The configuration `config/diffusion/respaced.yaml` can be created, and has 100 steps. -/
example : ∃ d, create (fun _ _ => 0) ⟨4000, true, false, .cosine, true, false, true, true, some (.vlb 100)⟩ = .ok d ∧
    d.tmap.length = 100 := by
  obtain ⟨use, h1, h2, h3, _⟩ := Verif.Script.Respace.C88_vlb (fun _ _ => 0) 4000 100 (by simp) (by norm_num) (by norm_num)
  have := (C124_creates (fun _ _ => 0) ⟨4000, true, false, .cosine, true, false, true, true, some (.vlb 100)⟩ use
    (by simp) (Or.inl rfl) (by norm_num) h1 h3).1 (by omega)
  rwa [h2] at this

/-- So can the configuration of `C124_violated_small`. -/
example : ∃ d, create (fun _ _ => 0) ⟨1000, false, true, .linear, false, false, false, false, none⟩ = .ok d := by
  obtain ⟨use, h1, h2, h3, _⟩ := Verif.Script.Respace.C88_list (fun _ _ => 0) 1000 (by simp) [1000] (by simp) (by
    intro i h
    simp only [List.length_singleton, Nat.lt_one_iff] at h
    subst h
    simp [Verif.Script.Respace.sectionSize, Verif.Script.Respace.sectionStart])
  obtain ⟨d, hd, _⟩ := (C124_creates (fun _ _ => 0) ⟨1000, false, true, .linear, false, false, false, false, none⟩ use
    (by simp) (Or.inr (by norm_num)) (by norm_num) h1 h3).1 (by rw [h2]; simp)
  exact ⟨d, hd⟩

end Verif.Diffusion.Gauss
