import Verif.Layers.UniformNoise
import Verif.Functional.PropsNormalCdf
import Mathlib.Algebra.BigOperators.Intervals
import Mathlib.Algebra.Order.BigOperators.Group.Finset
import Mathlib.Tactic.Linarith
import Mathlib.Order.Interval.Finset.Nat

/-!
C46 and C71: distributions with uniform noise.
-/

namespace Verif.Layers

open Real Verif.Functional

/-! ### C46 -/

/-- **C46, probability.** On both branches `prob` is the difference of the distribution function of the base
distribution half a unit above and below. -/
theorem C46_prob (base : Dist) (v : ℝ) : prob base v = base.cdf (v + 1 / 2) - base.cdf (v - 1 / 2) := by
  unfold prob
  simp only [C37_survival]
  norm_num

/-- What a cumulative distribution function satisfies. -/
structure IsCdf (c : ℝ → ℝ) : Prop where
  mono : Monotone c
  nonneg : ∀ x, 0 ≤ c x
  le_one : ∀ x, c x ≤ 1

/-- The distribution functions of torch satisfy it. -/
theorem normal_isCdf (loc scale : ℝ) (h : 0 < scale) : IsCdf (Dist.normal loc scale).cdf where
  mono := fun x y hxy => by
    rw [normal_cdf, normal_cdf]
    exact Phi_mono (div_le_div_of_nonneg_right (by linarith) h.le)
  nonneg := fun x => by rw [normal_cdf]; exact Phi_nonneg _
  le_one := fun x => by rw [normal_cdf]; exact Phi_le_one _

theorem uniform_isCdf (low high : ℝ) (h : low < high) : IsCdf (Dist.uniform low high).cdf where
  mono := fun x y hxy => by
    have : (x - low) / (high - low) ≤ (y - low) / (high - low) :=
      div_le_div_of_nonneg_right (by linarith) (by linarith)
    exact max_le_max le_rfl (min_le_min le_rfl this)
  nonneg := fun x => le_max_left _ _
  le_one := fun x => max_le (by norm_num) (min_le_left _ _)

/-- **C46, non-negative.** -/
theorem C46_nonneg (base : Dist) (h : IsCdf base.cdf) (v : ℝ) : 0 ≤ prob base v ∧ prob base v ≤ 1 := by
  rw [C46_prob]
  have := h.mono (show v - 1 / 2 ≤ v + 1 / 2 by linarith)
  have := h.nonneg (v - 1 / 2)
  have := h.le_one (v + 1 / 2)
  constructor <;> linarith

theorem sum_range (base : Dist) (t : ℝ) (n : ℕ) :
    ∑ k ∈ Finset.range n, prob base (t + k) = base.cdf (t + n - 1 / 2) - base.cdf (t - 1 / 2) := by
  induction n with
  | zero => simp
  | succ n ih =>
    rw [Finset.sum_range_succ, ih, C46_prob]
    push_cast
    rw [show t + (n : ℝ) + 1 / 2 = t + (n + 1) - 1 / 2 by ring]
    ring

/-- **C46, sub-probability.** The probabilities of any finite set of values that differ by integers sum to at
most one, for every offset. -/
theorem C46_sum (base : Dist) (h : IsCdf base.cdf) (t : ℝ) (S : Finset ℤ) :
    ∑ k ∈ S, prob base (t + k) ≤ 1 := by
  obtain ⟨a, ha⟩ : ∃ a : ℤ, ∀ k ∈ S, a ≤ k := by
    rcases S.eq_empty_or_nonempty with rfl | hS
    · exact ⟨0, by simp⟩
    · exact ⟨S.min' hS, fun k hk => S.min'_le k hk⟩
  obtain ⟨b, hb⟩ : ∃ b : ℤ, ∀ k ∈ S, k ≤ b := by
    rcases S.eq_empty_or_nonempty with rfl | hS
    · exact ⟨0, by simp⟩
    · exact ⟨S.max' hS, fun k hk => S.le_max' k hk⟩
  have hsub : S ⊆ (Finset.range (b - a + 1).toNat).map
      ⟨fun n : ℕ => a + (n : ℤ), fun x y hxy => by simpa using hxy⟩ := by
    intro k hk
    have h1 := ha k hk
    have h2 := hb k hk
    rw [Finset.mem_map]
    refine ⟨(k - a).toNat, ?_, ?_⟩
    · rw [Finset.mem_range]; omega
    · show a + ((k - a).toNat : ℤ) = k
      omega
  calc ∑ k ∈ S, prob base (t + k) ≤ _ :=
        Finset.sum_le_sum_of_subset_of_nonneg hsub fun k _ _ => (C46_nonneg base h _).1
    _ = ∑ n ∈ Finset.range (b - a + 1).toNat, prob base (t + a + n) := by
        rw [Finset.sum_map]
        refine Finset.sum_congr rfl fun n _ => ?_
        show prob base (t + ((a + (n : ℤ) : ℤ) : ℝ)) = _
        push_cast
        rw [add_assoc]
    _ = _ := sum_range base (t + a) _
    _ ≤ 1 := by
        have := h.nonneg (t + a - 1 / 2)
        have := h.le_one (t + a + ((b - a + 1).toNat : ℝ) - 1 / 2)
        linarith

theorem F.log_sub_aux {p q : ℝ} (hp : 0 < p) (hq : 0 ≤ q) (hqp : q ≤ p) :
    ((F.log1mexp ((F.log q).sub (F.log p))).add (F.log p)) = F.log (p - q) := by
  have e : F.log p = .val (Real.log p) := if_pos hp
  rcases hq.eq_or_lt with h0 | h0
  · have e0 : F.log q = .negInf := by unfold F.log; rw [← h0]; simp
    rw [e, e0, ← h0, sub_zero, e]
    show F.val (0 + Real.log p) = _
    rw [zero_add]
  · have e0 : F.log q = .val (Real.log q) := if_pos h0
    have hdiv : exp (Real.log q - Real.log p) = q / p := by
      rw [Real.exp_sub, Real.exp_log h0, Real.exp_log hp]
    rw [e, e0]
    show (F.log (1 - exp (Real.log q - Real.log p))).add (.val (Real.log p)) = _
    rw [hdiv]
    rcases hqp.eq_or_lt with h1 | h1
    · rw [h1, div_self hp.ne', sub_self, sub_self]
      have : F.log 0 = .negInf := by simp [F.log]
      rw [this]
      rfl
    · have h2 : 0 < 1 - q / p := by
        rw [sub_pos, div_lt_one hp]; exact h1
      have h3 : 0 < p - q := by linarith
      rw [show F.log (1 - q / p) = .val (Real.log (1 - q / p)) from if_pos h2,
        show F.log (p - q) = .val (Real.log (p - q)) from if_pos h3]
      show F.val (Real.log (1 - q / p) + Real.log p) = _
      rw [← Real.log_mul h2.ne' hp.ne']
      congr 2
      field_simp

theorem logProb_ok {dt : Dtype} {base : Dist} {v : ℝ} {sp sn cp cn : F}
    (h1 : logSfF dt (v + 1 / 2) base = .ok sp) (h2 : logSfF dt (v - 1 / 2) base = .ok sn)
    (h3 : logCdfF dt (v + 1 / 2) base = .ok cp) (h4 : logCdfF dt (v - 1 / 2) base = .ok cn) :
    (sp.Lt cp → logProb dt base v = .ok ((F.log1mexp (sp.sub sn)).add sn)) ∧
      (¬ sp.Lt cp → logProb dt base v = .ok ((F.log1mexp (cn.sub cp)).add cp)) := by
  have hv : (0.5 : ℝ) = 1 / 2 := by norm_num
  unfold logProb
  rw [hv, h1, h2, h3, h4]
  constructor
  · intro h
    simp only [bind, Except.bind, pure, Except.pure, if_pos h]
  · intro h
    simp only [bind, Except.bind, pure, Except.pure, if_neg h]

/-- **C46, logarithm, general distributions.** For every class other than `Normal` and `Uniform`, `log_prob` is
the logarithm of `prob` (minus infinity where `prob` is zero), wherever the distribution function at the upper
end is positive; elsewhere it is not-a-number. -/
theorem C46_log_other_partial (dt : Dtype) (cdf : ℝ → ℝ) (h : IsCdf cdf) (v : ℝ) :
    (0 < cdf (v + 1 / 2) → logProb dt (.other cdf) v = .ok (F.log (prob (.other cdf) v))) ∧
      (cdf (v + 1 / 2) = 0 → logProb dt (.other cdf) v = .ok .nan) := by
  have hnot : ¬ (F.log (1 + cdf (-(v + 1 / 2)))).Lt (F.log (cdf (v + 1 / 2))) := by
    have h0 := h.nonneg (-(v + 1 / 2))
    rw [show F.log (1 + cdf (-(v + 1 / 2))) = .val (Real.log (1 + cdf (-(v + 1 / 2)))) from if_pos (by linarith)]
    have h1 : 0 ≤ Real.log (1 + cdf (-(v + 1 / 2))) := Real.log_nonneg (by linarith)
    unfold F.log
    split_ifs with h2 h3
    · show ¬ _ < _
      have := Real.log_nonpos h2.le (h.le_one _)
      linarith
    · exact id
    · exact id
  have e : logProb dt (.other cdf) v =
      .ok ((F.log1mexp ((F.log (cdf (v - 1 / 2))).sub (F.log (cdf (v + 1 / 2))))).add
        (F.log (cdf (v + 1 / 2)))) :=
    (logProb_ok (dt := dt) (base := .other cdf) rfl rfl rfl rfl).2 hnot
  constructor
  · intro hp
    rw [e, F.log_sub_aux hp (h.nonneg _) (h.mono (by linarith)), C46_prob]
    rfl
  · intro hz
    have hz' : cdf (v - 1 / 2) = 0 :=
      le_antisymm (hz ▸ h.mono (show v - 1 / 2 ≤ v + 1 / 2 by linarith)) (h.nonneg _)
    have h0 : F.log 0 = .negInf := by simp [F.log]
    rw [e, hz, hz', h0]
    rfl

/-- **C46, logarithm, normal distributions.** `log_prob` is the logarithm of `prob` for values within 10 (single
precision) or 20 (double precision) standard deviations of the mean, in exact arithmetic. In double precision the
cast of `ndtr` to single precision breaks it from 15 standard deviations on (`C46_violated_double`). -/
theorem C46_log_normal_partial {dt : Dtype} (hd : dt ≠ .other) (loc scale v : ℝ) (hs : 0 < scale)
    (h1 : |v + 1 / 2 - loc| ≤ -cutoff dt * scale) (h2 : |v - 1 / 2 - loc| ≤ -cutoff dt * scale) :
    logProb dt (.normal loc scale) v = .ok (F.val (Real.log (prob (.normal loc scale) v))) ∧
      0 < prob (.normal loc scale) v := by
  have hv : (0.5 : ℝ) = 1 / 2 := by norm_num
  have hc := cutoff_le hd
  have b : ∀ x, |x - loc| ≤ -cutoff dt * scale → cutoff dt ≤ (x - loc) / scale ∧ (x - loc) / scale ≤ -cutoff dt := by
    intro x hx
    rw [abs_le] at hx
    rw [le_div_iff₀ hs, div_le_iff₀ hs]
    constructor <;> linarith [hx.1, hx.2]
  obtain ⟨p1, p2⟩ := b _ h1
  obtain ⟨n1, n2⟩ := b _ h2
  have c1 := ((C37_logs_partial hd (v + 1 / 2)).1 loc scale).1 p1
  have c2 := ((C37_logs_partial hd (v - 1 / 2)).1 loc scale).1 n1
  have s1 := ((C37_logs_partial hd (v + 1 / 2)).1 loc scale).2.1 p2
  have s2 := ((C37_logs_partial hd (v - 1 / 2)).1 loc scale).2.1 n2
  have hlt : (Dist.normal loc scale).cdf (v - 1 / 2) < (Dist.normal loc scale).cdf (v + 1 / 2) := by
    rw [normal_cdf, normal_cdf]
    exact Phi_strictMono (div_lt_div_of_pos_right (by linarith) hs)
  have pos : ∀ x, 0 < (Dist.normal loc scale).cdf x := fun x => by rw [normal_cdf]; exact Phi_pos _
  have spos : ∀ x, 0 < survivalFunction x (.normal loc scale) := fun x => by
    rw [C37_survival, normal_cdf]
    have := Phi_lt_one ((x - loc) / scale)
    linarith
  have hprob : 0 < prob (.normal loc scale) v := by rw [C46_prob]; linarith
  have fl : ∀ {p : ℝ}, 0 < p → F.log p = .val (Real.log p) := fun hp => if_pos hp
  refine ⟨?_, hprob⟩
  rw [← fl hprob]
  have key := logProb_ok (dt := dt) (base := .normal loc scale) (v := v)
    (sp := F.log (survivalFunction (v + 1 / 2) (.normal loc scale)))
    (sn := F.log (survivalFunction (v - 1 / 2) (.normal loc scale)))
    (cp := F.log ((Dist.normal loc scale).cdf (v + 1 / 2)))
    (cn := F.log ((Dist.normal loc scale).cdf (v - 1 / 2)))
    (by change (logSurvivalFunction dt (v + 1 / 2) (.normal loc scale)).map F.val = _; rw [s1, fl (spos _)]; rfl) (by change (logSurvivalFunction dt (v - 1 / 2) (.normal loc scale)).map F.val = _; rw [s2, fl (spos _)]; rfl)
    (by change (logCdf dt (v + 1 / 2) (.normal loc scale)).map F.val = _; rw [c1, fl (pos _)]; rfl) (by change (logCdf dt (v - 1 / 2) (.normal loc scale)).map F.val = _; rw [c2, fl (pos _)]; rfl)
  by_cases hcond : (F.log (survivalFunction (v + 1 / 2) (.normal loc scale))).Lt
      (F.log ((Dist.normal loc scale).cdf (v + 1 / 2)))
  · rw [key.1 hcond, F.log_sub_aux (spos _) (spos _).le, C46_prob, C37_survival, C37_survival]
    · congr 2; ring
    · rw [C37_survival, C37_survival]; linarith
  · rw [key.2 hcond, F.log_sub_aux (pos _) (pos _).le hlt.le, C46_prob]

/-- C46 is not vacuous: the standard normal at zero. -/
example : logProb .float32 (.normal 0 1) 0 = .ok (F.val (Real.log (prob (.normal 0 1) 0))) :=
  (C46_log_normal_partial (by decide) 0 1 0 one_pos (by norm_num [cutoff, abs_of_pos])
    (by norm_num [cutoff, abs_of_pos])).1

/-- **C46 is violated** for a uniform base distribution: the probability of the value 5 under `Uniform(0, 10)`
with noise is a tenth, but `log_prob` returns minus infinity. -/
theorem C46_violated (dt : Dtype) :
    prob (.uniform 0 10) 5 = 1 / 10 ∧ logProb dt (.uniform 0 10) 5 = .ok .negInf := by
  have cdf : ∀ x, (Dist.uniform 0 10).cdf x = max 0 (min 1 ((x - 0) / (10 - 0))) := fun _ => rfl
  constructor
  · rw [C46_prob, cdf, cdf]; norm_num
  · have e1 : F.log (1 + (Dist.uniform 0 10).cdf (-(5 + 1 / 2))) = .val 0 := by
      rw [cdf]; norm_num [F.log]
    have e2 : F.log (1 + (Dist.uniform 0 10).cdf (-(5 - 1 / 2))) = .val 0 := by
      rw [cdf]; norm_num [F.log]
    have e3 : F.log (5 + 1 / 2) = .val (Real.log (5 + 1 / 2)) := if_pos (by norm_num)
    have hlt : (F.val 0).Lt (.val (Real.log (5 + 1 / 2))) := by
      show 0 < Real.log (5 + 1 / 2)
      exact Real.log_pos (by norm_num)
    rw [(logProb_ok (dt := dt) (base := .uniform 0 10) (v := 5) (congrArg Except.ok e1)
      (congrArg Except.ok e2) (congrArg Except.ok e3) rfl).1 hlt]
    have : F.log1mexp ((F.val 0).sub (.val 0)) = .negInf := by
      show F.log (1 - exp (0 - 0)) = _
      norm_num [F.log]
    rw [this]
    rfl

/-! ### C71 -/

theorem sourceRev_self (shape idx : List ℕ) (h : List.Forall₂ (fun i n => i < n) idx shape) :
    sourceRev shape idx = idx := by
  induction h with
  | nil => rfl
  | @cons i n l1 l2 hin _ ih =>
    rw [sourceRev, ih]
    split_ifs with h1
    · subst h1
      rw [Nat.lt_one_iff.1 hin]
    · rfl

theorem source_self (shape idx : List ℕ) (h : List.Forall₂ (fun i n => i < n) idx shape) :
    source shape idx = idx := by
  unfold source
  rw [sourceRev_self _ _ (List.rel_reverse h), List.reverse_reverse]

theorem broadcastRev_self (a : List ℕ) : broadcastRev a a = some a := by
  induction a with
  | nil => rfl
  | cons x a ih => simp [broadcastRev, ih]

theorem broadcastRev_append (a b : List ℕ) : broadcastRev (a ++ b) a = some (a ++ b) := by
  induction a with
  | nil => cases b <;> rfl
  | cons x a ih => simp [broadcastRev, ih]

/-- The elements of the result of `rsample` have their own noise: two different elements never get the same
draw. -/
def OwnNoise (batch sampleShape : List ℕ) : Prop :=
  ∀ base noise, ∃ out, rsample batch sampleShape base noise = some (sampleShape ++ batch, out) ∧
    ∃ draw : List ℕ → List ℕ,
      (∀ idx, List.Forall₂ (fun i n => i < n) idx (sampleShape ++ batch) →
        out idx = base idx + noise (draw idx)) ∧
      (∀ idx idx', List.Forall₂ (fun i n => i < n) idx (sampleShape ++ batch) →
        List.Forall₂ (fun i n => i < n) idx' (sampleShape ++ batch) → draw idx = draw idx' → idx = idx')

/-- **C71, scalar distributions.** For a single distribution, samples of any shape have noise of their own. -/
theorem C71_partial (sampleShape : List ℕ) : OwnNoise [] sampleShape := by
  intro base noise
  have hb : broadcast (sampleShape ++ []) sampleShape = some (sampleShape ++ []) := by
    unfold broadcast
    rw [List.append_nil, broadcastRev_self]
    simp
  refine ⟨fun idx => base (source (sampleShape ++ []) idx) + noise (source sampleShape idx), ?_, id, ?_, ?_⟩
  · unfold rsample; rw [hb]; rfl
  · intro idx h
    show base (source (sampleShape ++ []) idx) + noise (source sampleShape idx) = _
    rw [source_self _ _ h]
    rw [List.append_nil] at h
    rw [source_self _ _ h]
    rfl
  · intro idx idx' _ _ h
    exact h

/-- C71_partial is about something: a 2 × 3 sample. -/
example : (rsample [] [2, 3] (fun _ => 0) (fun _ => 1)).map (·.1) = some [2, 3] := rfl

/-- **C71 is violated** for batches of distributions: the wrapped distribution loses its batch shape, one draw of
noise is shared by the whole batch, and most sample shapes raise. -/
theorem C71_violated :
    (∀ base : Shapes, base.batch ≠ base.event → (uniformNoiseShapes base).batch ≠ base.batch) ∧
      (∀ n, 2 ≤ n → ¬ OwnNoise [n] []) ∧
      (∀ n base noise, ∃ out, rsample [n] [] base noise = some ([n], out) ∧
        ∀ i, out [i] = base (source [n] [i]) + noise []) ∧
      (∀ n k base noise, n ≠ 1 → k ≠ 1 → k ≠ n → rsample [n] [k] base noise = none) := by
  have h3 : ∀ n (base noise : List ℕ → ℝ), ∃ out, rsample [n] [] base noise = some ([n], out) ∧
      ∀ i, out [i] = base (source [n] [i]) + noise [] := fun n base noise => ⟨_, rfl, fun i => rfl⟩
  refine ⟨fun base h => Ne.symm h, fun n hn h => ?_, h3, fun n k base noise hn hk hkn => ?_⟩
  · -- with base zero and noise injective-looking, element 0 and 1 would differ
    obtain ⟨out, e, draw, h1, h2⟩ := h (fun _ => 0) (fun l => if l = [] then 0 else 1)
    obtain ⟨out', e', h'⟩ := h3 n (fun _ => 0) (fun l => if l = [] then 0 else 1)
    have e'' : rsample [n] [] (fun _ => 0) (fun l => if l = [] then 0 else 1) = some ([n], out) := e
    have : out = out' := by
      have := e''.symm.trans e'
      injection this with this
      exact (Prod.mk.inj this).2
    subst this
    have f0 : List.Forall₂ (fun i n => i < n) [0] ([] ++ [n]) := .cons (by omega) .nil
    have f1 : List.Forall₂ (fun i n => i < n) [1] ([] ++ [n]) := .cons (by omega) .nil
    have a0 := h1 [0] f0
    have a1 := h1 [1] f1
    rw [h' 0] at a0
    rw [h' 1] at a1
    simp only [if_true, zero_add] at a0 a1
    have d0 : draw [0] = [] := by
      by_contra hne
      rw [if_neg hne] at a0
      norm_num at a0
    have d1 : draw [1] = [] := by
      by_contra hne
      rw [if_neg hne] at a1
      norm_num at a1
    have := h2 [0] [1] f0 f1 (d0.trans d1.symm)
    simp at this
  · unfold rsample broadcast
    have : broadcastRev ([k] ++ [n]).reverse [k].reverse = none := by
      simp [broadcastRev, hn, hk, Ne.symm hkn]
    rw [this]
    rfl

end Verif.Layers
