import Verif.Diffusion.Props
import Verif.Diffusion.Statistics
import Mathlib.Analysis.SpecialFunctions.Log.Base
import Mathlib.Tactic.LinearCombination
import Mathlib.Tactic.NormNum

/-!
Property C122: what the diffusion codec pays for a data point
(`/repo/projects/bits_back_diffusion/bits_back_diffusion/codec.py:358-523`, `572-614`).

The specification is the hierarchical latent variable model written down directly, for the bins `[z₁, …, z_T]`: the network
gives `p(x | z₁)`, `p(z_t | z_{t+1})`, `q(z_T | x)` and `q(z_t | z_{t+1}, x)`.  The entropy coder is outside of the
repository: `Ideal` says that it spends `-log₂` of the mass of a symbol.
-/

namespace Verif.Diffusion

variable {M D R Λ P I : Type}

/-! ### Specification -/

/-- The bins `[z_t, …, z_T]` with the parameters of their priors: the standard normal distribution for the last one, otherwise
what the network says about step `t` given the latent of step `t + 1`. -/
def levels (S : Setup M D R Λ P I) : List I → List (DiscrLatent I P)
  | [] => []
  | i :: up =>
    ⟨i, match levels S up with
      | [] => S.std
      | d :: _ => S.generate (S.toLatent d) (S.steps - up.length) none⟩ :: levels S up

/-- `q(z_t | z_{t+1}, x) ⋯ q(z_{T-1} | z_T, x) q(z_T | x)`; `q p p' i` is the mass of the distribution with parameters `p` in
the bin `i` of the distribution with parameters `p'`. -/
noncomputable def approx (S : Setup M D R Λ P I) (q : P → P → I → ℝ) (x : R) : List I → ℝ
  | [] => 1
  | i :: up =>
    (match levels S up with
      | [] => q (S.infer x) S.std i
      | d :: _ => q (S.generate (S.toLatent d) (S.steps - up.length) (some x))
          (S.generate (S.toLatent d) (S.steps - up.length) none) i) * approx S q x up

/-- `p(x | z₁) p(z₁ | z₂) ⋯ p(z_T)`: all the bins of a prior have the same mass function `pz`, as they are made from it. -/
noncomputable def joint (S : Setup M D R Λ P I) (pz : I → ℝ) (px : P → D → ℝ) (d : D) (zs : List I) : ℝ :=
  (match levels S zs with
    | [] => px S.std d
    | z :: _ => px (S.generate (S.toLatent z) 0 none) d) * (zs.map pz).prod

/-- A coder that spends `-log₂` of the mass of each symbol. -/
structure Ideal (S : Setup M D R Λ P I) (VI : I → Prop) (VD : D → Prop) (bits : M → ℝ) (pz : I → ℝ)
    (q : P → P → I → ℝ) (px : P → D → ℝ) : Prop where
  prior : ∀ m i, VI i → bits (S.prior.push m i) = bits m - Real.logb 2 (pz i)
  post : ∀ p p' m i, VI i → bits ((S.post p p').push m i) = bits m - Real.logb 2 (q p p' i)
  obs : ∀ p m d, VD d → bits ((S.obs p).push m d) = bits m - Real.logb 2 (px p d)
  prior_pos : ∀ i, VI i → 0 < pz i
  post_pos : ∀ p p' i, VI i → 0 < q p p' i
  obs_pos : ∀ p d, VD d → 0 < px p d

/-- Sum over all `[z₁, …, z_n]` with bins of `bins`. -/
def sumOver (bins : Finset I) : Nat → (List I → ℝ) → ℝ
  | 0, f => f []
  | n + 1, f => sumOver bins n fun up => ∑ i ∈ bins, f (i :: up)

/-! ### Lemmas -/

theorem approx_pos {S : Setup M D R Λ P I} {VI : I → Prop} {VD : D → Prop} {bits : M → ℝ} {pz : I → ℝ}
    {q : P → P → I → ℝ} {px : P → D → ℝ} (hI : Ideal S VI VD bits pz q px) (x : R) :
    ∀ zs : List I, (∀ i ∈ zs, VI i) → 0 < approx S q x zs := by
  intro zs
  induction zs with
  | nil => intro _; simp [approx]
  | cons i up ih =>
    intro h
    simp only [approx]
    refine mul_pos ?_ (ih fun j hj => h j (List.mem_cons_of_mem _ hj))
    split <;> exact hI.post_pos _ _ _ (h i List.mem_cons_self)

theorem prod_pos' {VI : I → Prop} {pz : I → ℝ} (hp : ∀ i, VI i → 0 < pz i) :
    ∀ zs : List I, (∀ i ∈ zs, VI i) → 0 < (zs.map pz).prod := by
  intro zs
  induction zs with
  | nil => intro _; simp
  | cons i up ih =>
    intro h
    rw [List.map_cons, List.prod_cons]
    exact mul_pos (hp i (h i List.mem_cons_self)) (ih fun j hj => h j (List.mem_cons_of_mem _ hj))

theorem joint_pos {S : Setup M D R Λ P I} {VI : I → Prop} {VD : D → Prop} {bits : M → ℝ} {pz : I → ℝ}
    {q : P → P → I → ℝ} {px : P → D → ℝ} (hI : Ideal S VI VD bits pz q px) {d : D} (hd : VD d) (zs : List I)
    (h : ∀ i ∈ zs, VI i) : 0 < joint S pz px d zs := by
  unfold joint
  refine mul_pos ?_ (prod_pos' hI.prior_pos zs h)
  split <;> exact hI.obs_pos _ _ hd

theorem levels_inds (S : Setup M D R Λ P I) (zs : List I) : (levels S zs).map DiscrLatent.inds = zs := by
  induction zs with
  | nil => rfl
  | cons i up ih => simp only [levels, List.map_cons, ih]

/-- What `posterior_pop` returns is the levels of some bins, and costs their mass. -/
theorem posteriorPop_bits {S : Setup M D R Λ P I} {VI : I → Prop} {VD : D → Prop} (hS : CoderOk S VI VD)
    {bits : M → ℝ} {pz : I → ℝ} {q : P → P → I → ℝ} {px : P → D → ℝ} (hI : Ideal S VI VD bits pz q px) (x : R) :
    ∀ (step : Nat) (up : List I) (k : Counters) (m m' : M) (ls : List (DiscrLatent I P)),
      step + up.length = S.steps → (∀ i ∈ up, VI i) →
      (posteriorPop S x step (levels S up) k m).2 = some (m', ls) →
      ∃ zs, zs.length = S.steps ∧ (∀ i ∈ zs, VI i) ∧ ls = levels S zs ∧
        bits m + Real.logb 2 (approx S q x zs) = bits m' + Real.logb 2 (approx S q x up) := by
  intro step
  induction step with
  | zero =>
    intro up k m m' ls hl hv h
    simp only [posteriorPop, Option.some.injEq, Prod.mk.injEq] at h
    obtain ⟨rfl, rfl⟩ := h
    exact ⟨up, by omega, hv, rfl, rfl⟩
  | succ step ih =>
    intro up k m m' ls hl hv h
    obtain ⟨k1, h1⟩ := posteriorPop_succ S x step (levels S up) k m
    rw [h1] at h
    cases hp : (S.post (postParams S x (step + 1) (levels S up)) (priorParams S (step + 1) (levels S up))).pop m with
    | none => simp [hp] at h
    | some r =>
      obtain ⟨m1, i⟩ := r
      rw [hp] at h
      obtain ⟨hvi, hpush⟩ := (hS.post _ _).push_pop _ _ _ hp
      have hst : S.steps - up.length = step + 1 := by omega
      have hlev : levels S (i :: up) = ⟨i, priorParams S (step + 1) (levels S up)⟩ :: levels S up := by
        simp only [levels, hst]
        cases levels S up <;> rfl
      simp only at h
      rw [← hlev] at h
      have hv' : ∀ j ∈ i :: up, VI j := by
        intro j hj
        rcases List.mem_cons.1 hj with rfl | hj
        · exact hvi
        · exact hv j hj
      obtain ⟨zs, z1, z2, z3, z4⟩ := ih (i :: up) k1 m1 m' ls (by rw [List.length_cons]; omega) hv' h
      refine ⟨zs, z1, z2, z3, ?_⟩
      have hb := hI.post (postParams S x (step + 1) (levels S up)) (priorParams S (step + 1) (levels S up)) m1 i hvi
      rw [hpush] at hb
      have ha : approx S q x (i :: up) =
          q (postParams S x (step + 1) (levels S up)) (priorParams S (step + 1) (levels S up)) i * approx S q x up := by
        simp only [approx, hst]
        cases levels S up <;> rfl
      rw [ha, Real.logb_mul (hI.post_pos _ _ _ hvi).ne' (approx_pos hI x up hv).ne'] at z4
      linarith

theorem priorPush_bits {S : Setup M D R Λ P I} {VI : I → Prop} {VD : D → Prop} {bits : M → ℝ} {pz : I → ℝ}
    {q : P → P → I → ℝ} {px : P → D → ℝ} (hI : Ideal S VI VD bits pz q px) :
    ∀ (ls : List (DiscrLatent I P)) (step : Nat) (k : Counters) (m : M), (∀ d ∈ ls, VI d.inds) →
      bits (priorPush S step ls k m).2 = bits m - Real.logb 2 ((ls.map DiscrLatent.inds).map pz).prod := by
  intro ls
  induction ls with
  | nil => intro step k m _; simp [priorPush]
  | cons d ds ih =>
    intro step k m h
    have hd := h d List.mem_cons_self
    have hds := fun e he => h e (List.mem_cons_of_mem d he)
    simp only [priorPush, trackPush_snd, List.map_cons, List.prod_cons]
    have hp : 0 < ((ds.map DiscrLatent.inds).map pz).prod := by
      refine prod_pos' (VI := VI) hI.prior_pos _ ?_
      intro i hi
      obtain ⟨e, he, rfl⟩ := List.mem_map.1 hi
      exact hds e he
    rw [ih _ _ _ hds, hI.prior _ _ hd, Real.logb_mul (hI.prior_pos _ hd).ne' hp.ne']
    ring

/-! ### The rate of a data point -/

/-- **C122, rate.** `encode` takes bins `[z₁, …, z_T]` out of the message, which makes it shorter by `-log₂ q(z | x)`, and in
total the message gets longer by `-log₂ (p(x, z) / q(z | x))`: the sample of the variational bound at these bins. -/
theorem C122_rate {S : Setup M D R Λ P I} {VI : I → Prop} {VD : D → Prop} (hS : CoderOk S VI VD) {bits : M → ℝ}
    {pz : I → ℝ} {q : P → P → I → ℝ} {px : P → D → ℝ} (hI : Ideal S VI VD bits pz q px) {inRange shapeOk : D → Bool}
    (hV : ∀ d, inRange d = true → shapeOk d = true → VD d) {s s' : State M} {d : D} {m : M}
    (h : encode S inRange shapeOk s d = (s', .ok m)) :
    ∃ (zs : List I) (rest : M), zs.length = S.steps ∧ (∀ i ∈ zs, VI i) ∧
      (posteriorPop S (S.toData d) S.steps [] s.counters s.message).2 = some (rest, levels S zs) ∧
      bits rest = bits s.message + Real.logb 2 (approx S q (S.toData d) zs) ∧
      bits m = bits s.message - Real.logb 2 (joint S pz px d zs / approx S q (S.toData d) zs) := by
  obtain ⟨h1, h2, h⟩ := encode_ok h
  have hd := hV d h1 h2
  obtain ⟨k, m1, ls, hp, -, -, hmm, -⟩ := encodeCore_ok h
  have hp2 : (posteriorPop S (S.toData d) S.steps (levels S []) s.counters s.message).2 = some (m1, ls) := by
    show (posteriorPop S (S.toData d) S.steps [] s.counters s.message).2 = _
    rw [hp]
  obtain ⟨zs, z1, z2, rfl, z4⟩ := posteriorPop_bits hS hI (S.toData d) S.steps [] s.counters s.message m1 ls
    (by simp) (by simp) hp2
  refine ⟨zs, m1, z1, z2, by rw [hp], ?_, ?_⟩
  · have e : approx S q (S.toData d) [] = 1 := rfl
    rw [e, Real.logb_one] at z4
    linarith
  · have e : approx S q (S.toData d) [] = 1 := rfl
    rw [e, Real.logb_one] at z4
    have hv : ∀ e ∈ levels S zs, VI e.inds := by
      intro e he
      refine z2 _ ?_
      rw [← levels_inds S zs]
      exact List.mem_map_of_mem he
    rw [hmm, priorPush_bits hI _ _ _ _ hv, levels_inds,
      Real.logb_div (joint_pos hI hd zs z2).ne' (approx_pos hI _ zs z2).ne']
    have hl : bits ((likelihood S (levels S zs)).push m1 d) + Real.logb 2 (zs.map pz).prod
        = bits m1 - Real.logb 2 (joint S pz px d zs) + 2 * Real.logb 2 (zs.map pz).prod := by
      unfold joint
      have hpp := prod_pos' hI.prior_pos zs z2
      cases levels S zs with
      | nil =>
        simp only [likelihood]
        rw [hI.obs _ _ _ hd, Real.logb_mul (hI.obs_pos _ _ hd).ne' hpp.ne']
        ring
      | cons z up =>
        simp only [likelihood]
        rw [hI.obs _ _ _ hd, Real.logb_mul (hI.obs_pos _ _ hd).ne' hpp.ne']
        ring
    linarith

/-- **C122, exact posterior.** If the network knows the posterior of its own model, every data point costs exactly `-log₂ p(x)`,
whatever bins come out of the message. -/
theorem C122_exact {S : Setup M D R Λ P I} {VI : I → Prop} {VD : D → Prop} (hS : CoderOk S VI VD) {bits : M → ℝ}
    {pz : I → ℝ} {q : P → P → I → ℝ} {px : P → D → ℝ} (hI : Ideal S VI VD bits pz q px) {inRange shapeOk : D → Bool}
    (hV : ∀ d, inRange d = true → shapeOk d = true → VD d) {evidence : D → ℝ}
    (hq : ∀ d zs, VD d → zs.length = S.steps → (∀ i ∈ zs, VI i) →
      joint S pz px d zs = approx S q (S.toData d) zs * evidence d)
    {s s' : State M} {d : D} {m : M} (h : encode S inRange shapeOk s d = (s', .ok m)) :
    bits m = bits s.message - Real.logb 2 (evidence d) := by
  obtain ⟨zs, rest, z1, z2, -, -, z5⟩ := C122_rate hS hI hV h
  obtain ⟨h1, h2, -⟩ := encode_ok h
  rw [z5, hq d zs (hV d h1 h2) z1 z2, mul_div_cancel_left₀ _ (approx_pos hI _ zs z2).ne']

/-- **C122, decoding gives the bits back.** Decoding a data point changes the length by as much as encoding it did. -/
theorem C122_back {S : Setup M D R Λ P I} {VI : I → Prop} {VD : D → Prop} (hS : CoderOk S VI VD) {bits : M → ℝ}
    {pz : I → ℝ} {q : P → P → I → ℝ} {px : P → D → ℝ} (hI : Ideal S VI VD bits pz q px) {inRange shapeOk : D → Bool}
    (hV : ∀ d, inRange d = true → shapeOk d = true → VD d) (hV' : ∀ d, VD d → inRange d = true ∧ shapeOk d = true)
    {s s' : State M} {d : D} {m : M} (h : decode S s = (s', .ok (m, d))) :
    ∃ zs : List I, zs.length = S.steps ∧ (∀ i ∈ zs, VI i) ∧
      bits m = bits s.message + Real.logb 2 (joint S pz px d zs / approx S q (S.toData d) zs) := by
  obtain ⟨s'', e1, -⟩ := C19_decode_encode hS hV' h
  obtain ⟨zs, rest, z1, z2, -, -, z5⟩ := C122_rate hS hI hV e1
  obtain ⟨-, -, -, -, -, -, -, hm, -⟩ := decode_ok h
  refine ⟨zs, z1, z2, ?_⟩
  rw [← hm]
  linarith

/-! ### The mean rate -/

theorem sumOver_add (bins : Finset I) : ∀ (n : Nat) (f g : List I → ℝ),
    sumOver bins n (fun zs => f zs + g zs) = sumOver bins n f + sumOver bins n g := by
  intro n
  induction n with
  | zero => intro f g; rfl
  | succ n ih => intro f g; simp only [sumOver, Finset.sum_add_distrib]; exact ih _ _

theorem sumOver_mul (bins : Finset I) (c : ℝ) : ∀ (n : Nat) (f : List I → ℝ),
    sumOver bins n (fun zs => c * f zs) = c * sumOver bins n f := by
  intro n
  induction n with
  | zero => intro f; rfl
  | succ n ih => intro f; simp only [sumOver, ← Finset.mul_sum]; exact ih _

theorem sumOver_mono (bins : Finset I) : ∀ (n : Nat) (f g : List I → ℝ),
    (∀ zs : List I, zs.length = n → (∀ i ∈ zs, i ∈ bins) → f zs ≤ g zs) → sumOver bins n f ≤ sumOver bins n g := by
  intro n
  induction n with
  | zero => intro f g h; exact h [] rfl (by simp)
  | succ n ih =>
    intro f g h
    refine ih _ _ fun up hup hb => Finset.sum_le_sum fun i hi => h _ (by simp [hup]) ?_
    intro j hj
    rcases List.mem_cons.1 hj with rfl | hj
    · exact hi
    · exact hb j hj

theorem sumOver_pos (bins : Finset I) (hb : bins.Nonempty) : ∀ (n : Nat) (f : List I → ℝ),
    (∀ zs : List I, zs.length = n → (∀ i ∈ zs, i ∈ bins) → 0 < f zs) → 0 < sumOver bins n f := by
  intro n
  induction n with
  | zero => intro f h; exact h [] rfl (by simp)
  | succ n ih =>
    intro f h
    refine ih _ fun up hup hu => Finset.sum_pos (fun i hi => h _ (by simp [hup]) ?_) hb
    intro j hj
    rcases List.mem_cons.1 hj with rfl | hj
    · exact hi
    · exact hu j hj

/-- The approximation is a distribution over the bins of all steps. -/
theorem approx_sum (S : Setup M D R Λ P I) (q : P → P → I → ℝ) (x : R) (bins : Finset I)
    (hq : ∀ p p', ∑ i ∈ bins, q p p' i = 1) : ∀ n, sumOver bins n (approx S q x) = 1 := by
  intro n
  induction n with
  | zero => rfl
  | succ n ih =>
    have e : (fun up => ∑ i ∈ bins, approx S q x (i :: up)) = approx S q x := by
      funext up
      simp only [approx, ← Finset.sum_mul]
      cases levels S up <;> simp only [hq, one_mul]
    simp only [sumOver, e, ih]

/-- **C122, mean.** Over bins with the distribution `q(z | x)`, which are the bins that a random message gives, the mean rate is
at least `-log₂ p(x)`, where `p(x)` is the sum of `p(x, z)` over all bins: nothing is gained on average by a wrong posterior. -/
theorem C122_mean {S : Setup M D R Λ P I} {bins : Finset I} {VD : D → Prop} {bits : M → ℝ} {pz : I → ℝ}
    {q : P → P → I → ℝ} {px : P → D → ℝ} (hI : Ideal S (· ∈ bins) VD bits pz q px)
    (hq : ∀ p p', ∑ i ∈ bins, q p p' i = 1) {d : D} (hd : VD d) :
    sumOver bins S.steps (approx S q (S.toData d)) = 1 ∧
    -Real.logb 2 (sumOver bins S.steps (joint S pz px d)) ≤
      sumOver bins S.steps fun zs =>
        approx S q (S.toData d) zs * -Real.logb 2 (joint S pz px d zs / approx S q (S.toData d) zs) := by
  have hne : bins.Nonempty := by
    by_contra hcon
    have := hq S.std S.std
    rw [Finset.not_nonempty_iff_eq_empty.1 hcon] at this
    simp at this
  have hsum := approx_sum S q (S.toData d) bins hq S.steps
  refine ⟨hsum, ?_⟩
  set J := sumOver bins S.steps (joint S pz px d) with hJ
  have hJpos : 0 < J := sumOver_pos bins hne _ _ fun zs _ h => joint_pos hI hd zs h
  have hl2 : 0 < Real.log 2 := Real.log_pos (by norm_num)
  have key : sumOver bins S.steps (fun zs => -Real.logb 2 J * approx S q (S.toData d) zs +
      ((1 / Real.log 2) * approx S q (S.toData d) zs + (-(1 / (Real.log 2 * J))) * joint S pz px d zs)) ≤
      sumOver bins S.steps fun zs =>
        approx S q (S.toData d) zs * -Real.logb 2 (joint S pz px d zs / approx S q (S.toData d) zs) := by
    refine sumOver_mono bins _ _ _ fun zs _ hz => ?_
    have ha := approx_pos hI (S.toData d) zs hz
    have hj := joint_pos hI hd zs hz
    set a := approx S q (S.toData d) zs
    set j := joint S pz px d zs
    have hlog : Real.log (j / (a * J)) ≤ j / (a * J) - 1 := Real.log_le_sub_one_of_pos (by positivity)
    have e1 : Real.log (j / (a * J)) = Real.log (j / a) - Real.log J := by
      rw [← div_div, Real.log_div (by positivity) hJpos.ne']
    simp only [Real.logb]
    rw [e1] at hlog
    have e2 : a * -(Real.log (j / a) / Real.log 2) - (-(Real.log J / Real.log 2) * a +
        (1 / Real.log 2 * a + -(1 / (Real.log 2 * J)) * j)) =
        a / Real.log 2 * (j / (a * J) - 1 - (Real.log (j / a) - Real.log J)) := by
      field_simp
      ring
    have e3 : 0 ≤ a / Real.log 2 * (j / (a * J) - 1 - (Real.log (j / a) - Real.log J)) :=
      mul_nonneg (by positivity) (by linarith)
    linarith
  refine le_trans (le_of_eq ?_) key
  rw [sumOver_add, sumOver_add, sumOver_mul, sumOver_mul, sumOver_mul, hsum, ← hJ]
  field_simp
  ring

/-! ### A whole dataset -/

/-- **C122, dataset.** After encoding a list of data points the message is longer by the sum of the rates, one per data point. -/
theorem C122_dataset {S : Setup M D R Λ P I} {VI : I → Prop} {VD : D → Prop} (hS : CoderOk S VI VD) {bits : M → ℝ}
    {pz : I → ℝ} {q : P → P → I → ℝ} {px : P → D → ℝ} (hI : Ideal S VI VD bits pz q px) {inRange shapeOk : D → Bool}
    (hV : ∀ d, inRange d = true → shapeOk d = true → VD d) :
    ∀ (ds : List D) (s s' : State M), encodeAll S inRange shapeOk ds s = (s', .ok ()) →
      ∃ zss : List (List I), zss.length = ds.length ∧ (∀ zs ∈ zss, zs.length = S.steps ∧ ∀ i ∈ zs, VI i) ∧
        bits s'.message = bits s.message +
          (List.zipWith (fun d zs => -Real.logb 2 (joint S pz px d zs / approx S q (S.toData d) zs)) ds zss).sum := by
  intro ds
  induction ds with
  | nil =>
    intro s s' h
    simp only [encodeAll, Prod.mk.injEq] at h
    obtain ⟨rfl, -⟩ := h
    exact ⟨[], rfl, by simp, by simp⟩
  | cons d ds ih =>
    intro s s' h
    simp only [encodeAll] at h
    rcases he : encode S inRange shapeOk s d with ⟨s1, e | m⟩
    · rw [he] at h; simp at h
    · rw [he] at h
      obtain ⟨zs, rest, z1, z2, -, -, z5⟩ := C122_rate hS hI hV he
      obtain ⟨-, -, he'⟩ := encode_ok he
      obtain ⟨-, -, -, -, hm, -⟩ := encodeCore_ok he'
      obtain ⟨zss, y1, y2, y3⟩ := ih s1 s' h
      refine ⟨zs :: zss, by simp [y1], ?_, ?_⟩
      · intro w hw
        rcases List.mem_cons.1 hw with rfl | hw
        · exact ⟨z1, z2⟩
        · exact y2 w hw
      · rw [y3, hm, z5, List.zipWith_cons_cons, List.sum_cons]
        ring

/-- **C122, reported rate.** If the message takes up its length up to `c` bits, then the effective rate that `statistics` reports
after encoding a dataset is the sum of the rates per dimension of the data, up to `2 c` bits for all the data together. -/
theorem C122_reported {S : Setup M D R Λ P I} {VI : I → Prop} {VD : D → Prop} (hS : CoderOk S VI VD) {bits : M → ℝ}
    {pz : I → ℝ} {q : P → P → I → ℝ} {px : P → D → ℝ} (hI : Ideal S VI VD bits pz q px) {inRange shapeOk : D → Bool}
    (hV : ∀ d, inRange d = true → shapeOk d = true → VD d) {c : ℝ} (hc : ∀ m, |8 * (S.nbytes m : ℝ) - bits m| ≤ c)
    {b ch hh w : Nat} (hsize : 0 < b * ch * hh * w) (m₀ : M) (ds : List D) (hds : ds ≠ []) {s' : State M}
    (h : encodeAll S inRange shapeOk ds (fresh S m₀) = (s', .ok ())) :
    ∃ (r : Stats) (zss : List (List I)), stats S b ch hh w s' = some r ∧ r.samples = ds.length * b ∧
      zss.length = ds.length ∧ (∀ zs ∈ zss, zs.length = S.steps ∧ ∀ i ∈ zs, VI i) ∧
      |(r.effective : ℝ) * (ds.length * (b * ch * hh * w : Nat)) -
        (List.zipWith (fun d zs => -Real.logb 2 (joint S pz px d zs / approx S q (S.toData d) zs)) ds zss).sum| ≤ 2 * c := by
  have count : ∀ (ds : List D) (s s' : State M), encodeAll S inRange shapeOk ds s = (s', .ok ()) →
      s'.dataCount = s.dataCount + ds.length ∧ s'.initialBytes = s.initialBytes := by
    intro ds
    induction ds with
    | nil =>
      intro s s' h
      simp only [encodeAll, Prod.mk.injEq] at h
      obtain ⟨rfl, -⟩ := h
      simp
    | cons d ds ih =>
      intro s s' h
      simp only [encodeAll] at h
      rcases he : encode S inRange shapeOk s d with ⟨s1, e | m⟩
      · rw [he] at h; simp at h
      · rw [he] at h
        obtain ⟨-, -, he'⟩ := encode_ok he
        obtain ⟨-, -, -, -, -, hn, -, -, hi, -⟩ := encodeCore_ok he'
        obtain ⟨h1, h2⟩ := ih s1 s' h
        refine ⟨?_, h2.trans hi⟩
        rw [h1, hn, List.length_cons]
        push_cast
        ring
  obtain ⟨zss, y1, y2, y3⟩ := C122_dataset hS hI hV ds (fresh S m₀) s' h
  obtain ⟨hn, hi⟩ := count ds _ _ h
  have hlen : 0 < ds.length := List.length_pos_iff.2 hds
  have hn' : s'.dataCount = ds.length := by rw [hn]; simp [fresh]
  have hi' : s'.initialBytes = S.nbytes m₀ := hi
  have hprod : s'.dataCount * ((b : Int) * ch * hh * w) = ((ds.length * (b * ch * hh * w) : Nat) : Int) := by
    rw [hn']; push_cast; ring
  have hpos : 0 < ds.length * (b * ch * hh * w) := Nat.mul_pos hlen hsize
  have hnz : ¬ s'.dataCount * ((b : Int) * ch * hh * w) = 0 := by
    rw [hprod]; exact_mod_cast hpos.ne'
  refine ⟨_, zss, by simp only [stats, bytesToBpd, if_neg hnz, statistics]; rfl, by rw [hn'], y1, y2, ?_⟩
  simp only
  have hm₀ : (fresh S m₀).message = m₀ := rfl
  rw [hm₀] at y3
  rw [hprod, hi']
  have hr : ((ds.length * (b * ch * hh * w) : Nat) : ℝ) ≠ 0 := by exact_mod_cast hpos.ne'
  have e : ((((8 * ((S.nbytes s'.message : Int) - S.nbytes m₀) : Int) : ℚ) /
      (((ds.length * (b * ch * hh * w) : Nat) : Int) : ℚ) : ℚ) : ℝ) * (ds.length * (b * ch * hh * w : Nat)) =
      8 * (S.nbytes s'.message : ℝ) - 8 * (S.nbytes m₀ : ℝ) := by
    rw [show (ds.length : ℝ) * ((b * ch * hh * w : Nat) : ℝ) = ((ds.length * (b * ch * hh * w) : Nat) : ℝ) by push_cast; ring]
    rw [Rat.cast_div, Rat.cast_intCast, Rat.cast_intCast, Int.cast_natCast, div_mul_cancel₀ _ hr]
    push_cast
    ring
  rw [e]
  have h1 := abs_le.1 (hc s'.message)
  have h2 := abs_le.1 (hc m₀)
  rw [abs_le]
  constructor <;> linarith

/-! ### A coder and a network that meet the hypotheses -/

namespace RateExample

/-- Bits of a word of the prefix code for four symbols with masses 1/2, 1/4, 1/8, 1/8. -/
def word : Nat → List Bool
  | 0 => [false]
  | 1 => [true, false]
  | 2 => [true, true, false]
  | _ => [true, true, true]

/-- The prefix code on a stack of bits, where `r` says which symbol has the short word. -/
def prefixCode (r : Nat) : PCodec (List Bool) Nat where
  push m x := word ((x + r) % 4) ++ m
  pop
    | false :: m => some (m, (4 - r % 4) % 4)
    | true :: false :: m => some (m, (5 - r % 4) % 4)
    | true :: true :: false :: m => some (m, (6 - r % 4) % 4)
    | true :: true :: true :: m => some (m, (7 - r % 4) % 4)
    | _ => none

/-- Two bits for each of four symbols. -/
def flat : PCodec (List Bool) Nat where
  push m x := match x % 4 with
    | 0 => false :: false :: m
    | 1 => false :: true :: m
    | 2 => true :: false :: m
    | _ => true :: true :: m
  pop
    | false :: false :: m => some (m, 0)
    | false :: true :: m => some (m, 1)
    | true :: false :: m => some (m, 2)
    | true :: true :: m => some (m, 3)
    | _ => none

theorem flat_lawful : Lawful flat (· ∈ Finset.range 4) where
  pop_push m x hx := by
    have hx : x < 4 := Finset.mem_range.1 hx
    obtain rfl | rfl | rfl | rfl : x = 0 ∨ x = 1 ∨ x = 2 ∨ x = 3 := by omega
    all_goals rfl
  push_pop m m' x h := by
    simp only [flat] at h
    split at h <;> simp only [Option.some.injEq, Prod.mk.injEq, reduceCtorEq] at h <;> obtain ⟨rfl, rfl⟩ := h <;>
      exact ⟨by decide, rfl⟩

theorem prefix_lawful (r : Nat) : Lawful (prefixCode r) (· ∈ Finset.range 4) where
  pop_push m x hx := by
    have hx : x < 4 := Finset.mem_range.1 hx
    have : (x + r) % 4 = 0 ∨ (x + r) % 4 = 1 ∨ (x + r) % 4 = 2 ∨ (x + r) % 4 = 3 := by omega
    rcases this with h | h | h | h <;> simp only [prefixCode, h, word, List.cons_append, List.nil_append] <;>
      simp only [Option.some.injEq, Prod.mk.injEq, true_and] <;> omega
  push_pop m m' x h := by
    simp only [prefixCode] at h
    split at h <;> simp only [Option.some.injEq, Prod.mk.injEq, reduceCtorEq] at h <;> obtain ⟨rfl, rfl⟩ := h
    · refine ⟨Finset.mem_range.2 (by omega), ?_⟩
      simp only [prefixCode, show ((4 - r % 4) % 4 + r) % 4 = 0 by omega]; rfl
    · refine ⟨Finset.mem_range.2 (by omega), ?_⟩
      simp only [prefixCode, show ((5 - r % 4) % 4 + r) % 4 = 1 by omega]; rfl
    · refine ⟨Finset.mem_range.2 (by omega), ?_⟩
      simp only [prefixCode, show ((6 - r % 4) % 4 + r) % 4 = 2 by omega]; rfl
    · refine ⟨Finset.mem_range.2 (by omega), ?_⟩
      simp only [prefixCode, show ((7 - r % 4) % 4 + r) % 4 = 3 by omega]; rfl

/-- Three steps; the network depends on everything. -/
def S : Setup (List Bool) Nat Nat Nat Nat Nat where
  steps := 3
  infer x := x + 1
  generate z step x := match x with
    | none => z + step
    | some x => z + x + 2 * step
  toData d := d
  std := 0
  toLatent d := d.inds * 5 + d.params
  prior := flat
  post p p' := prefixCode (p + p')
  obs p := prefixCode p
  nbytes m := m.length / 8
  track := true

/-- The mass of a symbol: one half to the power of the length of its word. -/
noncomputable def mass (r x : Nat) : ℝ := (1 / 2) ^ (word ((x + r) % 4)).length

theorem logb_half (n : Nat) : Real.logb 2 ((1 / 2 : ℝ) ^ n) = -n := by
  rw [one_div, Real.logb_pow, Real.logb_inv, Real.logb_self_eq_one (by norm_num)]
  ring

theorem S_ok : CoderOk S (· ∈ Finset.range 4) (· ∈ Finset.range 4) where
  prior := flat_lawful
  post _ _ := prefix_lawful _
  obs _ := prefix_lawful _

theorem S_ideal : Ideal S (· ∈ Finset.range 4) (· ∈ Finset.range 4) (fun m => (m.length : ℝ)) (fun _ => (1 / 2) ^ 2)
    (fun p p' i => mass (p + p') i) mass where
  prior m i hi := by
    have hi : i < 4 := Finset.mem_range.1 hi
    rw [logb_half]
    obtain rfl | rfl | rfl | rfl : i = 0 ∨ i = 1 ∨ i = 2 ∨ i = 3 := by omega
    all_goals simp [S, flat]; ring
  post p p' m i _ := by
    simp only [mass, logb_half, S, prefixCode, List.length_append, Nat.cast_add]
    ring
  obs p m d _ := by
    simp only [mass, logb_half, S, prefixCode, List.length_append, Nat.cast_add]
    ring
  prior_pos _ _ := by positivity
  post_pos _ _ _ _ := by unfold mass; positivity
  obs_pos _ _ _ := by unfold mass; positivity

theorem mass_sum (r : Nat) : ∑ i ∈ Finset.range 4, mass r i = 1 := by
  have h : ∀ a b c d : Nat, (0 + r) % 4 = a → (1 + r) % 4 = b → (2 + r) % 4 = c → (3 + r) % 4 = d →
      ∑ i ∈ Finset.range 4, mass r i = (1 / 2) ^ (word a).length + (1 / 2) ^ (word b).length + (1 / 2) ^ (word c).length +
        (1 / 2) ^ (word d).length := by
    rintro _ _ _ _ rfl rfl rfl rfl
    simp only [Finset.sum_range_succ, Finset.sum_range_zero, mass, zero_add]
  have : r % 4 = 0 ∨ r % 4 = 1 ∨ r % 4 = 2 ∨ r % 4 = 3 := by omega
  rcases this with hr | hr | hr | hr
  · rw [h 0 1 2 3 (by omega) (by omega) (by omega) (by omega)]; norm_num [word]
  · rw [h 1 2 3 0 (by omega) (by omega) (by omega) (by omega)]; norm_num [word]
  · rw [h 2 3 0 1 (by omega) (by omega) (by omega) (by omega)]; norm_num [word]
  · rw [h 3 0 1 2 (by omega) (by omega) (by omega) (by omega)]; norm_num [word]

def zero : Counters := ⟨fun _ => 0, fun _ => 0⟩

def start : State (List Bool) := ⟨[true, true, false, false, true, false, true, true, false, true], 0, 0, zero, 1⟩

/-- `encode` succeeds, the bins are not all the same, and the rate is one bit: six bits for the priors, one bit for the data, and
six bits come back. -/
example : (encode S (fun d => decide (d < 4)) (fun _ => true) start 2).2.toOption =
      some [true, true, true, false, true, false, false, true, true, false, true] ∧
    (posteriorPop S 2 3 [] zero start.message).2 = some ([true, true, false, true], levels S [2, 2, 3]) := by
  decide +kernel

/-- The bound on the mean rate, for this coder. -/
example : -Real.logb 2 (sumOver (Finset.range 4) 3 (joint S (fun _ => (1 / 2) ^ 2) mass 2)) ≤
    sumOver (Finset.range 4) 3 fun zs => approx S (fun p p' i => mass (p + p') i) 2 zs *
      -Real.logb 2 (joint S (fun _ => (1 / 2) ^ 2) mass 2 zs / approx S (fun p p' i => mass (p + p') i) 2 zs) :=
  (C122_mean S_ideal (fun _ _ => mass_sum _) (Finset.mem_range.2 (by norm_num))).2

/-- A network that knows the posterior: nothing depends on the latents, and the posterior is the prior. -/
def exact : Setup (List Bool) Nat Nat Nat Nat Nat :=
  { S with
    generate := fun _ _ _ => 1
    post := fun _ _ => flat
    obs := fun _ => prefixCode 1 }

example : ∀ d zs, joint exact (fun _ => (1 / 2) ^ 2) (fun _ => mass 1) d zs =
    approx exact (fun _ _ _ => (1 / 2) ^ 2) d zs * mass 1 d := by
  intro d zs
  have h : ∀ zs, approx exact (fun _ _ _ => (1 / 2) ^ 2) d zs = (zs.map fun _ => (1 / 2 : ℝ) ^ 2).prod := by
    intro zs
    induction zs with
    | nil => rfl
    | cons i up ih =>
      simp only [approx, List.map_cons, List.prod_cons, ih]
      cases levels exact up <;> rfl
  rw [h]
  unfold joint
  cases levels exact zs <;> simp only <;> ring

/-- Two data points in a row. -/
example : ∃ s', encodeAll S (fun d => decide (d < 4)) (fun _ => true) [2, 1] (fresh S (start.message ++ start.message)) =
    (s', .ok ()) := by
  have h : (encodeAll S (fun d => decide (d < 4)) (fun _ => true) [2, 1] (fresh S (start.message ++ start.message))).2.toBool =
    true := by decide +kernel
  generalize encodeAll S (fun d => decide (d < 4)) (fun _ => true) [2, 1] (fresh S (start.message ++ start.message)) = r at h
  rcases r with ⟨s', e | u⟩
  · simp [Except.toBool] at h
  · exact ⟨s', rfl⟩

/-- The number of bytes is the number of bits up to 8. -/
example (m : List Bool) : |8 * (S.nbytes m : ℝ) - m.length| ≤ 8 := by
  have h1 : 8 * (m.length / 8) ≤ m.length := by omega
  have h2 : m.length ≤ 8 * (m.length / 8) + 8 := by omega
  have h1' : (8 : ℝ) * ((m.length / 8 : Nat) : ℝ) ≤ m.length := by exact_mod_cast h1
  have h2' : (m.length : ℝ) ≤ 8 * ((m.length / 8 : Nat) : ℝ) + 8 := by exact_mod_cast h2
  show |8 * ((m.length / 8 : Nat) : ℝ) - m.length| ≤ 8
  rw [abs_le]
  constructor <;> linarith

end RateExample

end Verif.Diffusion
