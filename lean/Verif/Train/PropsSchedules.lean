import Verif.Train.Schedules
import Mathlib.Tactic.Linarith
import Mathlib.Tactic.Positivity
import Mathlib.Tactic.FieldSimp

/-!
# C34: learning-rate schedules stay within bounds
-/

namespace Verif.Train

open Real

/-! ### The video model's schedules -/

/-- The cosine part away from the division by zero. -/
noncomputable def cosVal (T r e : ℕ) (eta base : ℝ) : ℝ :=
  eta + (base - eta) * (1 + cos (π * ((e : ℝ) - r) / ((T : ℤ) - r - 1 : ℤ))) / 2

theorem cosinePart_eq {T r : ℕ} (h : T ≠ r + 1) (e : ℕ) (eta base : ℝ) :
    cosinePart T r e eta base = some (cosVal T r e eta base) := by
  unfold cosinePart cosVal
  simp only
  rw [if_neg (by omega)]

theorem linearPart_eq {r : ℕ} (h : r ≠ 0) (e : ℕ) (base : ℝ) :
    linearPart r e base = some (base * (1 + e) / r) := by
  unfold linearPart; rw [if_neg h]

theorem cosVal_bounds (T r e : ℕ) {eta base : ℝ} (h : eta ≤ base) :
    eta ≤ cosVal T r e eta base ∧ cosVal T r e eta base ≤ base := by
  unfold cosVal
  have h1 := neg_one_le_cos (π * ((e : ℝ) - r) / ((T : ℤ) - r - 1 : ℤ))
  have h2 := cos_le_one (π * ((e : ℝ) - r) / ((T : ℤ) - r - 1 : ℤ))
  constructor <;> nlinarith

/-- C34 (bounds, video model): whenever a schedule returns, the rate is between zero (the minimum rate for the
warm-up schedule) and the base rate, at every epoch, for every horizon and ramp; and the schedules return
except when they divide by zero (`ramp_len = 0`, or `T_max = ramp_len + 1` with a cosine). -/
theorem C34_bounds (T r e : ℕ) {eta base : ℝ} (h0 : 0 ≤ eta) (h : eta ≤ base) :
    (r ≠ 0 → T ≠ r + 1 → ∃ x, linearRampCosine T r e eta base = some x ∧ 0 ≤ x ∧ x ≤ base) ∧
    (r ≠ 0 → ∃ x, linearRampLinear r e base = some x ∧ 0 ≤ x ∧ x ≤ base) ∧
    (T ≠ r + 1 → ∃ x, linearWarmUpCosine T r e eta base = some x ∧ eta ≤ x ∧ x ≤ base) := by
  have hb : 0 ≤ base := h0.trans h
  obtain ⟨c1, c2⟩ := cosVal_bounds T r e h
  have hl : 0 ≤ base * (1 + e) / r := by positivity
  refine ⟨fun hr hT => ?_, fun hr => ?_, fun hT => ?_⟩
  · refine ⟨min (cosVal T r e eta base) (base * (1 + e) / r), ?_, ?_, ?_⟩
    · simp [linearRampCosine, cosinePart_eq hT, linearPart_eq hr]
    · exact le_min (h0.trans c1) hl
    · exact (min_le_left _ _).trans c2
  · refine ⟨if e < r then base * (1 + e) / r else base, by simp [linearRampLinear, linearPart_eq hr], ?_⟩
    split
    · rename_i he
      refine ⟨hl, ?_⟩
      have hrpos : (0 : ℝ) < r := by exact_mod_cast Nat.pos_of_ne_zero hr
      rw [div_le_iff₀ hrpos]
      have : (1 + e : ℝ) ≤ r := by exact_mod_cast (by omega : 1 + e ≤ r)
      nlinarith
    · exact ⟨hb, le_rfl⟩
  · refine ⟨if e < r then base else cosVal T r e eta base, by simp [linearWarmUpCosine, cosinePart_eq hT], ?_⟩
    split
    · exact ⟨h, le_rfl⟩
    · exact ⟨c1, c2⟩

/-- In the decay phase the cosine part is the rate. -/
theorem linearRampCosine_decay {T r e : ℕ} {eta base : ℝ} (hr : r ≠ 0) (hT : T ≠ r + 1) (hre : r ≤ e)
    (h0 : 0 ≤ eta) (h : eta ≤ base) :
    linearRampCosine T r e eta base = some (cosVal T r e eta base) := by
  have hrpos : (0 : ℝ) < r := by exact_mod_cast Nat.pos_of_ne_zero hr
  have hle : cosVal T r e eta base ≤ base * (1 + e) / r := by
    refine (cosVal_bounds T r e h).2.trans ?_
    rw [le_div_iff₀ hrpos]
    have : (r : ℝ) ≤ 1 + e := by exact_mod_cast (by omega : r ≤ 1 + e)
    have := h0.trans h
    nlinarith
  simp [linearRampCosine, cosinePart_eq hT, linearPart_eq hr, min_eq_left hle]

theorem cosVal_anti {T r e e' : ℕ} {eta base : ℝ} (hT : r + 1 < T) (hre : r ≤ e) (hee : e ≤ e')
    (heT : e' + 1 ≤ T) (h : eta ≤ base) : cosVal T r e' eta base ≤ cosVal T r e eta base := by
  unfold cosVal
  have hden : (0 : ℝ) < (((T : ℤ) - r - 1 : ℤ) : ℝ) := by exact_mod_cast (by omega : (0 : ℤ) < (T : ℤ) - r - 1)
  have h1 : (0 : ℝ) ≤ (e : ℝ) - r := by
    have : (r : ℝ) ≤ e := by exact_mod_cast hre
    linarith
  have h2 : (e : ℝ) - r ≤ (e' : ℝ) - r := by
    have : (e : ℝ) ≤ e' := by exact_mod_cast hee
    linarith
  have h3 : (e' : ℝ) - r ≤ (((T : ℤ) - r - 1 : ℤ) : ℝ) := by
    have : ((e' : ℤ) : ℝ) - (r : ℤ) ≤ (((T : ℤ) - r - 1 : ℤ) : ℝ) := by
      exact_mod_cast (by omega : (e' : ℤ) - r ≤ (T : ℤ) - r - 1)
    simpa using this
  set d := (((T : ℤ) - r - 1 : ℤ) : ℝ)
  have hcos : cos (π * ((e' : ℝ) - r) / d) ≤ cos (π * ((e : ℝ) - r) / d) := by
    refine cos_le_cos_of_nonneg_of_le_pi ?_ ?_ ?_
    · have := pi_pos.le; positivity
    · rw [div_le_iff₀ hden]; nlinarith [pi_pos]
    · gcongr
  nlinarith

/-- C34 (decay, video model): from the end of the ramp to the last configured epoch `T_max - 1` the cosine
schedules never increase, and the last rate is exactly the minimum. -/
theorem C34_decay {T r : ℕ} {eta base : ℝ} (hT : r + 1 < T) (h0 : 0 ≤ eta) (h : eta ≤ base) :
    (∀ e e', r ≤ e → e ≤ e' → e' + 1 ≤ T → ∀ x y, linearWarmUpCosine T r e eta base = some x →
        linearWarmUpCosine T r e' eta base = some y → y ≤ x) ∧
      linearWarmUpCosine T r (T - 1) eta base = some eta ∧
      (r ≠ 0 → (∀ e e', r ≤ e → e ≤ e' → e' + 1 ≤ T → ∀ x y, linearRampCosine T r e eta base = some x →
          linearRampCosine T r e' eta base = some y → y ≤ x) ∧
        linearRampCosine T r (T - 1) eta base = some eta) := by
  have hlast : cosVal T r (T - 1) eta base = eta := by
    unfold cosVal
    have hc : (((T - 1 : ℕ) : ℝ) - r) = (((T : ℤ) - r - 1 : ℤ) : ℝ) := by
      rw [Nat.cast_sub (by omega)]; push_cast; ring
    have hden : (((T : ℤ) - r - 1 : ℤ) : ℝ) ≠ 0 := by
      exact_mod_cast (by omega : (T : ℤ) - r - 1 ≠ 0)
    rw [hc, mul_div_cancel_right₀ _ hden, cos_pi]
    ring
  have hw : ∀ e, r ≤ e → linearWarmUpCosine T r e eta base = some (cosVal T r e eta base) := by
    intro e he
    simp [linearWarmUpCosine, cosinePart_eq (show T ≠ r + 1 by omega), Nat.not_lt.2 he]
  refine ⟨fun e e' h1 h2 h3 x y hx hy => ?_, ?_, fun hr => ⟨fun e e' h1 h2 h3 x y hx hy => ?_, ?_⟩⟩
  · rw [hw e h1] at hx; rw [hw e' (h1.trans h2)] at hy
    cases hx; cases hy
    exact cosVal_anti hT h1 h2 h3 h
  · rw [hw _ (by omega), hlast]
  · rw [linearRampCosine_decay hr (by omega) h1 h0 h] at hx
    rw [linearRampCosine_decay hr (by omega) (h1.trans h2) h0 h] at hy
    cases hx; cases hy
    exact cosVal_anti hT h1 h2 h3 h
  · rw [linearRampCosine_decay hr (by omega) (by omega) h0 h, hlast]

/-- C34 (ramp, video model; part that holds): if the ramp takes at most the first half of the horizon
(`2 * ramp_len + 1 ≤ T_max`) the rate of the ramp-cosine schedule never decreases up to the end of the ramp;
the ramp-linear schedule never decreases at all. -/
theorem C34_ramp_partial {T r : ℕ} {eta base : ℝ} (hr : r ≠ 0) (h0 : 0 ≤ eta) (h : eta ≤ base) :
    (2 * r + 1 ≤ T → T ≠ r + 1 → ∀ e e', e ≤ e' → e' ≤ r → ∀ x y, linearRampCosine T r e eta base = some x →
        linearRampCosine T r e' eta base = some y → x ≤ y) ∧
      ∀ e e', e ≤ e' → ∀ x y, linearRampLinear r e base = some x → linearRampLinear r e' base = some y →
        x ≤ y := by
  have hb : 0 ≤ base := h0.trans h
  have hrpos : (0 : ℝ) < r := by exact_mod_cast Nat.pos_of_ne_zero hr
  have hlin : ∀ e e' : ℕ, e ≤ e' → base * (1 + e) / r ≤ base * (1 + e') / r := by
    intro e e' hee
    have : (e : ℝ) ≤ e' := by exact_mod_cast hee
    gcongr
  refine ⟨fun h2 hT e e' hee her x y hx hy => ?_, fun e e' hee x y hx hy => ?_⟩
  · simp only [linearRampCosine, cosinePart_eq hT, linearPart_eq hr, Option.bind_eq_bind,
      Option.bind_some, Option.pure_def, Option.some.injEq] at hx hy
    subst hx hy
    refine min_le_min ?_ (hlin e e' hee)
    unfold cosVal
    have hden : (r : ℝ) ≤ (((T : ℤ) - r - 1 : ℤ) : ℝ) := by
      have : ((r : ℤ) : ℝ) ≤ (((T : ℤ) - r - 1 : ℤ) : ℝ) := by
        exact_mod_cast (by omega : (r : ℤ) ≤ (T : ℤ) - r - 1)
      simpa using this
    set d := (((T : ℤ) - r - 1 : ℤ) : ℝ)
    have hd : 0 < d := lt_of_lt_of_le hrpos hden
    have he' : (e' : ℝ) ≤ r := by exact_mod_cast her
    have he : (e : ℝ) ≤ e' := by exact_mod_cast hee
    have hen : (0 : ℝ) ≤ e := by positivity
    have hcos : cos (π * ((e : ℝ) - r) / d) ≤ cos (π * ((e' : ℝ) - r) / d) := by
      rw [← cos_neg (π * ((e : ℝ) - r) / d), ← cos_neg (π * ((e' : ℝ) - r) / d)]
      have e1 : -(π * ((e : ℝ) - r) / d) = π * ((r : ℝ) - e) / d := by ring
      have e2 : -(π * ((e' : ℝ) - r) / d) = π * ((r : ℝ) - e') / d := by ring
      rw [e1, e2]
      refine cos_le_cos_of_nonneg_of_le_pi ?_ ?_ ?_
      · have h5 := pi_pos.le
        have h6 : (0 : ℝ) ≤ r - e' := by linarith
        positivity
      · rw [div_le_iff₀ hd]; nlinarith [pi_pos]
      · gcongr
    nlinarith
  · simp only [linearRampLinear, linearPart_eq hr, Option.bind_eq_bind,
      Option.bind_some, Option.pure_def, Option.some.injEq] at hx hy
    subst hx hy
    by_cases h1 : e' < r
    · rw [if_pos h1, if_pos (by omega)]; exact hlin e e' hee
    · rw [if_neg h1]
      split
      · rename_i he
        rw [div_le_iff₀ hrpos]
        have : (1 + e : ℝ) ≤ r := by exact_mod_cast (by omega : 1 + e ≤ r)
        nlinarith
      · exact le_rfl

/-! ### The schedules of the library -/

/-- C34 (library schedules): for every horizon, ramp and decay length and every step of the horizon the factor
is between the configured minimum and 1; it never decreases during the ramp, is 1 between ramp and decay,
never increases after the ramp, and the ramp-constant-cosine schedule ends exactly at the minimum. -/
theorem C34_rampConstCosine {M r k : ℕ} {v : ℝ} (hv0 : 0 ≤ v) (hv1 : v ≤ 1) :
    (∀ s, s ≤ M → ∃ x, rampConstCosine M r k v s = some x ∧ v ≤ x ∧ x ≤ 1) ∧
    (∀ s s', s ≤ s' → s' < r → ∀ x y, rampConstCosine M r k v s = some x →
      rampConstCosine M r k v s' = some y → x ≤ y) ∧
    (∀ s, r ≤ s → s + k ≤ M → rampConstCosine M r k v s = some 1) ∧
    (∀ s s', r ≤ s → s ≤ s' → s' ≤ M → ∀ x y, rampConstCosine M r k v s = some x →
      rampConstCosine M r k v s' = some y → y ≤ x) ∧
    (r ≤ M → 0 < k → rampConstCosine M r k v M = some v) := by
  have hramp : ∀ s, s < r → rampConstCosine M r k v s = some (max (min ((s : ℝ) / r) 1) v) := by
    intro s hs; unfold rampConstCosine; simp only; rw [if_pos hs]
  have hcst : ∀ s, r ≤ s → s + k ≤ M → rampConstCosine M r k v s = some 1 := by
    intro s hs hk; unfold rampConstCosine; simp only
    rw [if_neg (by omega), if_neg (by omega)]
  have hcos : ∀ s, r ≤ s → s ≤ M → ¬(s + k ≤ M) → rampConstCosine M r k v s =
      some (max (cos (((((s : ℤ) - ((M : ℤ) - k)) : ℤ) : ℝ) / k * π / 2)) v) := by
    intro s hs hsM hk; unfold rampConstCosine; simp only
    rw [if_neg (by omega), if_pos (by omega), if_neg (by omega)]
  have hang : ∀ s, s ≤ M → ¬(s + k ≤ M) → 0 ≤ ((((s : ℤ) - ((M : ℤ) - k)) : ℤ) : ℝ) / k ∧
      ((((s : ℤ) - ((M : ℤ) - k)) : ℤ) : ℝ) / k ≤ 1 := by
    intro s hs hk
    have hkpos : (0 : ℝ) < k := by exact_mod_cast (by omega : 0 < k)
    refine ⟨div_nonneg (by exact_mod_cast (by omega : (0 : ℤ) ≤ (s : ℤ) - ((M : ℤ) - k))) hkpos.le, ?_⟩
    rw [div_le_one hkpos]
    exact_mod_cast (by omega : (s : ℤ) - ((M : ℤ) - k) ≤ k)
  refine ⟨fun s hs => ?_, fun s s' hss hs' x y hx hy => ?_, hcst, fun s s' hr hss hM x y hx hy => ?_,
    fun hrM hk => ?_⟩
  · by_cases h1 : s < r
    · exact ⟨_, hramp s h1, le_max_right _ _, max_le (min_le_right _ _) hv1⟩
    · by_cases h2 : s + k ≤ M
      · exact ⟨1, hcst s (by omega) h2, hv1, le_rfl⟩
      · exact ⟨_, hcos s (by omega) hs h2, le_max_right _ _, max_le (cos_le_one _) hv1⟩
  · rw [hramp s (by omega)] at hx; rw [hramp s' hs'] at hy
    cases hx; cases hy
    have : (s : ℝ) ≤ s' := by exact_mod_cast hss
    gcongr
  · by_cases h2 : s' + k ≤ M
    · rw [hcst s hr (by omega)] at hx; rw [hcst s' (by omega) h2] at hy
      cases hx; cases hy; exact le_rfl
    · rw [hcos s' (by omega) hM h2] at hy
      cases hy
      by_cases h3 : s + k ≤ M
      · rw [hcst s hr h3] at hx
        cases hx
        exact max_le (cos_le_one _) hv1
      · rw [hcos s hr (by omega) h3] at hx
        cases hx
        refine max_le_max ?_ le_rfl
        have hle : ((((s : ℤ) - ((M : ℤ) - k)) : ℤ) : ℝ) / k ≤ ((((s' : ℤ) - ((M : ℤ) - k)) : ℤ) : ℝ) / k := by
          gcongr
        obtain ⟨a1, a2⟩ := hang s (by omega) h3
        obtain ⟨b1, b2⟩ := hang s' hM h2
        refine cos_le_cos_of_nonneg_of_le_pi ?_ ?_ ?_
        · have := pi_pos.le; positivity
        · nlinarith [pi_pos]
        · nlinarith [pi_pos]
  · rw [hcos M hrM le_rfl (by omega)]
    have hkne : (k : ℝ) ≠ 0 := by exact_mod_cast (by omega : k ≠ 0)
    have : ((((M : ℤ) - ((M : ℤ) - k)) : ℤ) : ℝ) / k = 1 := by
      push_cast; rw [sub_sub_cancel, div_self hkne]
    rw [this, one_mul, cos_pi_div_two, max_eq_right hv0]

/-- C34 (library schedules): the same for the ramp-cosine schedule, except that its decay divides by the whole
horizon instead of the part after the ramp, so at the end it is at `sin (ramp / max * π / 2)`. -/
theorem C34_rampCosine_partial {M r : ℕ} {v : ℝ} (hM : 0 < M) (hv1 : v ≤ 1) :
    (∀ s, ∃ x, rampCosine M r v s = some x ∧ v ≤ x ∧ x ≤ 1) ∧
    (∀ s s', s ≤ s' → s' < r → ∀ x y, rampCosine M r v s = some x → rampCosine M r v s' = some y → x ≤ y) ∧
    (∀ s s', r ≤ s → s ≤ s' → s' ≤ M → ∀ x y, rampCosine M r v s = some x → rampCosine M r v s' = some y →
      y ≤ x) ∧
    (r ≤ M → rampCosine M r v M = some (max (sin ((r : ℝ) / M * π / 2)) v)) := by
  have hMpos : (0 : ℝ) < M := by exact_mod_cast hM
  have hramp : ∀ s, s < r → rampCosine M r v s = some (max (min ((s : ℝ) / r) 1) v) := by
    intro s hs; unfold rampCosine; rw [if_pos hs]
  have hcos : ∀ s, r ≤ s → rampCosine M r v s = some (max (cos (((s : ℝ) - r) / M * π / 2)) v) := by
    intro s hs; unfold rampCosine; rw [if_neg (by omega), if_neg (by omega)]
  refine ⟨fun s => ?_, fun s s' hss hs' x y hx hy => ?_, fun s s' hr hss hsM x y hx hy => ?_, fun hrM => ?_⟩
  · by_cases h1 : s < r
    · exact ⟨_, hramp s h1, le_max_right _ _, max_le (min_le_right _ _) hv1⟩
    · exact ⟨_, hcos s (by omega), le_max_right _ _, max_le (cos_le_one _) hv1⟩
  · rw [hramp s (by omega)] at hx; rw [hramp s' hs'] at hy
    cases hx; cases hy
    have : (s : ℝ) ≤ s' := by exact_mod_cast hss
    gcongr
  · rw [hcos s hr] at hx; rw [hcos s' (by omega)] at hy
    cases hx; cases hy
    have h1 : (r : ℝ) ≤ s := by exact_mod_cast hr
    have h2 : (s : ℝ) ≤ s' := by exact_mod_cast hss
    have h3 : (s' : ℝ) ≤ M := by exact_mod_cast hsM
    have hrn : (0 : ℝ) ≤ r := by positivity
    refine max_le_max ?_ le_rfl
    have ha : 0 ≤ ((s : ℝ) - r) / M := div_nonneg (by linarith) hMpos.le
    have hb : ((s' : ℝ) - r) / M ≤ 1 := by rw [div_le_one hMpos]; linarith
    have hab : ((s : ℝ) - r) / M ≤ ((s' : ℝ) - r) / M := by gcongr
    refine cos_le_cos_of_nonneg_of_le_pi ?_ ?_ ?_
    · have := pi_pos.le; positivity
    · nlinarith [pi_pos]
    · nlinarith [pi_pos]
  · rw [hcos M hrM]
    congr 2
    rw [← cos_pi_div_two_sub]
    congr 1
    field_simp

/-- C34 is false in three ways.  (1) With a ramp longer than half the horizon the "linear ramp" of the
ramp-cosine schedule goes down: `T_max = 12`, `ramp_len = 10`, epochs 0 and 1.  (2) `T_max = ramp_len + 1`
raises `ZeroDivisionError` at every epoch.  (3) The library's ramp-cosine schedule does not come down to the
minimum at the end of the horizon whenever it has a ramp (any minimum below 1, say at most a half for a ramp
of a third of the horizon). -/
theorem C34_violated :
    (linearRampCosine 12 10 0 0 1 = some (1 / 10) ∧ linearRampCosine 12 10 1 0 1 = some 0) ∧
    (∀ (r e : ℕ) (eta base : ℝ), linearRampCosine (r + 1) r e eta base = none ∧
      linearWarmUpCosine (r + 1) r e eta base = none) ∧
    (∀ v : ℝ, v < 1 / 2 → rampCosine 300 100 v 300 = some (1 / 2)) := by
  refine ⟨⟨?_, ?_⟩, fun r e eta base => ?_, fun v hv => ?_⟩
  · have : cosVal 12 10 0 0 1 = 1 := by
      unfold cosVal
      norm_num
      rw [show π * 10 = ((5 : ℕ) : ℝ) * (2 * π) by push_cast; ring, cos_nat_mul_two_pi]
      norm_num
    simp [linearRampCosine, cosinePart_eq (show 12 ≠ 10 + 1 by norm_num), linearPart_eq, this]
    norm_num
  · have : cosVal 12 10 1 0 1 = 0 := by
      unfold cosVal
      norm_num
      rw [show π * 9 = π + ((4 : ℕ) : ℝ) * (2 * π) by push_cast; ring, cos_add_nat_mul_two_pi, cos_pi]
      norm_num
    simp [linearRampCosine, cosinePart_eq (show 12 ≠ 10 + 1 by norm_num), linearPart_eq, this]
    norm_num
  · have : cosinePart (r + 1) r e eta base = none := by
      unfold cosinePart; simp
    simp [linearRampCosine, linearWarmUpCosine, this]
  · rw [(C34_rampCosine_partial (M := 300) (r := 100) (by norm_num) (by linarith)).2.2.2 (by norm_num)]
    have : ((100 : ℕ) : ℝ) / ((300 : ℕ) : ℝ) * π / 2 = π / 6 := by push_cast; ring
    rw [this, sin_pi_div_six, max_eq_left (by linarith)]

/-- Non-vacuity: the defaults of the VCT configuration (ramp 10, minimum 0, base 1e-4, horizon 200). -/
example : (10 : ℕ) + 1 < 200 ∧ (2 * 10 + 1 ≤ 200) ∧ (0 : ℝ) ≤ 0 ∧ (0 : ℝ) ≤ 1e-4 ∧
    linearRampLinear 10 4 1 = some (1 / 2) := by
  refine ⟨by norm_num, by norm_num, le_rfl, by norm_num, ?_⟩
  simp [linearRampLinear, linearPart_eq]
  norm_num

/-- **C34, exceptions of the ramps.** The schedule with a constant part raises exactly in a step after the ramp and after the last one,
if there are no cosine steps; the one without raises in every step after the ramp if there are no steps, and in no other. -/
theorem C34_raises (maxSteps ramp cosSteps step : ℕ) (minVal : ℝ) :
    (rampConstCosine maxSteps ramp cosSteps minVal step = none ↔ ramp ≤ step ∧ maxSteps < step ∧ cosSteps = 0) ∧
    (rampCosine maxSteps ramp minVal step = none ↔ ramp ≤ step ∧ maxSteps = 0) := by
  unfold rampConstCosine rampCosine
  dsimp only
  constructor
  · split_ifs with h1 h2 h3
    · simp; omega
    · simp; omega
    · simp [h3]
    · simp; omega
  · split_ifs with h1 h2
    · simp; omega
    · simp [h2]; omega
    · simp [h2]

/-- Both happen: no cosine steps and one step too many, and no steps at all. -/
example : rampConstCosine 2 1 0 0 3 = none ∧ rampCosine 0 0 0 5 = none :=
  ⟨(C34_raises 2 1 0 3 0).1.2 (by omega), (C34_raises 0 0 0 5 0).2.2 (by omega)⟩

end Verif.Train
