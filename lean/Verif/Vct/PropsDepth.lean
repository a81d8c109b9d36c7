import Verif.Vct.Depth
import Mathlib.MeasureTheory.Integral.IntervalIntegral.Basic
import Mathlib.Analysis.SpecialFunctions.Integrals.Basic

/-!
# C111: stochastic depth
-/

namespace Verif.Vct.Depth

open MeasureTheory

variable {S P : Type}

/-- **C111, evaluation.**  In evaluation mode, and with rate zero, nothing is changed, wherever the input lives. -/
theorem C111_evaluation (rate : ℝ) (training : Bool) (h : training = false ∨ rate = 0) (dev : Device) (u : S → ℝ)
    (x : S → P → ℝ) : depth training rate dev u x = .ok (fun s p => some (x s p)) := by
  simp [depth, h]

theorem floor_keep {rate u : ℝ} (h0 : 0 < rate) (h1 : rate < 1) (hu0 : 0 ≤ u) (hu1 : u < 1) :
    ⌊1 - rate + u⌋ = if rate ≤ u then 1 else 0 := by
  split_ifs with h
  · rw [Int.floor_eq_iff]; push_cast; constructor <;> linarith
  · push Not at h
    rw [Int.floor_eq_iff]; push_cast; constructor <;> linarith

/-- **C111, training.**  On the CPU, with a rate strictly between zero and one and draws from `[0, 1)`: a sample whose draw
is below the rate becomes zero everywhere, every other sample is scaled by one over the keep probability; each sample
depends on its own draw only. -/
theorem C111_sample (rate : ℝ) (h0 : 0 < rate) (h1 : rate < 1) (u : S → ℝ) (hu : ∀ s, 0 ≤ u s ∧ u s < 1)
    (x : S → P → ℝ) :
    ∃ y, depth true rate .cpu u x = .ok y ∧
      ∀ s, (u s < rate → ∀ p, y s p = some 0) ∧ (rate ≤ u s → ∀ p, y s p = some (x s p / (1 - rate))) := by
  refine ⟨_, by simp only [depth, Bool.true_eq_false, false_or, h0.ne', if_false, reduceCtorEq]; rfl, fun s => ?_⟩
  have hk : (1 - rate : ℝ) ≠ 0 := by linarith
  have hf := floor_keep h0 h1 (hu s).1 (hu s).2
  constructor
  · intro h p
    rw [if_neg (by linarith)] at hf
    simp [element, hk, hf]
  · intro h p
    rw [if_pos h] at hf
    simp [element, hk, hf]

/-- The value of one element as a number. -/
noncomputable def number (rate u x : ℝ) : ℝ := (element rate u x).getD 0

/-- **C111, the share of kept samples**: the draws for which a sample is kept have probability one minus the rate. -/
theorem C111_kept (rate x : ℝ) (h0 : 0 < rate) (h1 : rate < 1) (hx : x ≠ 0) :
    volume {u : ℝ | u ∈ Set.Ico (0 : ℝ) 1 ∧ element rate u x ≠ some 0} = ENNReal.ofReal (1 - rate) := by
  have hk : (1 - rate : ℝ) ≠ 0 := by linarith
  have : {u : ℝ | u ∈ Set.Ico (0 : ℝ) 1 ∧ element rate u x ≠ some 0} = Set.Ico rate 1 := by
    ext u
    simp only [Set.mem_setOf_eq, Set.mem_Ico]
    constructor
    · rintro ⟨⟨ha, hb⟩, hc⟩
      refine ⟨?_, hb⟩
      by_contra hlt
      apply hc
      simp [element, hk, floor_keep h0 h1 ha hb, hlt]
    · rintro ⟨ha, hb⟩
      refine ⟨⟨by linarith, hb⟩, ?_⟩
      simp [element, hk, floor_keep h0 h1 (by linarith) hb, ha, hx]
  rw [this, Real.volume_Ico]

/-- **C111, the mean.**  Over a uniform draw, the expected value of every element is the element itself. -/
theorem C111_mean (rate x : ℝ) (h0 : 0 ≤ rate) (h1 : rate < 1) : ∫ u in (0 : ℝ)..1, number rate u x = x := by
  have hk : (1 - rate : ℝ) ≠ 0 := by linarith
  rcases h0.eq_or_lt with rfl | h0
  · have : ∀ u ∈ Set.Ioo (0 : ℝ) 1, number 0 u x = x := by
      intro u hu
      have hf : ⌊(1 : ℝ) + u⌋ = 1 := by rw [Int.floor_eq_iff]; push_cast; constructor <;> linarith [hu.1, hu.2]
      simp [number, element, hf]
    rw [intervalIntegral.integral_of_le zero_le_one, integral_Ioc_eq_integral_Ioo,
      setIntegral_congr_fun measurableSet_Ioo this]
    simp
  · have e1 : ∀ u ∈ Set.Ioo (0 : ℝ) 1, number rate u x = (Set.Ici rate).indicator (fun _ => x / (1 - rate)) u := by
      intro u hu
      simp only [number, element, hk, if_false, floor_keep h0 h1 hu.1.le hu.2, Option.getD_some, Set.indicator, Set.mem_Ici]
      split_ifs <;> simp
    rw [intervalIntegral.integral_of_le zero_le_one, integral_Ioc_eq_integral_Ioo,
      setIntegral_congr_fun measurableSet_Ioo e1, setIntegral_indicator measurableSet_Ici]
    have e2 : Set.Ioo (0 : ℝ) 1 ∩ Set.Ici rate = Set.Ico rate 1 := by
      ext u
      simp only [Set.mem_inter_iff, Set.mem_Ioo, Set.mem_Ici, Set.mem_Ico]
      constructor
      · rintro ⟨⟨_, b⟩, c⟩; exact ⟨c, b⟩
      · rintro ⟨a, b⟩; exact ⟨⟨by linarith, b⟩, a⟩
    rw [e2, setIntegral_const, Real.volume_real_Ico_of_le h1.le, smul_eq_mul, mul_div_cancel₀ _ hk]

theorem chain_eval (rate : ℝ) (training : Bool) (h : training = false ∨ rate = 0) (dev : Device) :
    ∀ (l : List ((S → ℝ) × ((S → P → ℝ) → S → P → ℝ))) (x : S → P → ℝ),
      chain training rate dev l x = .ok (some (l.foldl (fun x uf => fun s p => x s p + uf.2 x s p) x))
  | [], x => rfl
  | (u, f) :: rest, x => by
    rw [chain, skip, C111_evaluation rate training h]
    simp only [Option.map_some, Option.isSome_some, implies_true, if_true, Option.getD_some, List.foldl_cons]
    exact chain_eval rate training h dev rest _

/-- **C111, a block in evaluation.**  In evaluation mode (and with rate zero) each part is added to what came before, and
the draws do not matter. -/
theorem C111_block (rate : ℝ) (training : Bool) (h : training = false ∨ rate = 0) (dev : Device)
    (f1 f2 f3 f4 : (S → P → ℝ) → S → P → ℝ) (u1 u2 u3 u4 : S → ℝ) (x : S → P → ℝ) :
    ∃ a b c d : S → P → ℝ, (∀ s p, a s p = x s p + f1 x s p) ∧ (∀ s p, b s p = a s p + f2 a s p) ∧
      (∀ s p, c s p = b s p + f3 b s p) ∧ (∀ s p, d s p = c s p + f4 c s p) ∧
      chain training rate dev [(u1, f1), (u2, f2), (u3, f3), (u4, f4)] x = .ok (some d) :=
  ⟨_, _, _, _, fun _ _ => rfl, fun _ _ => rfl, fun _ _ => rfl, fun _ _ => rfl, chain_eval rate training h dev _ x⟩

/-- **C111, a sample that is dropped throughout.**  In training on the CPU, a sample whose draws are all below the rate
passes the skip connections unchanged, however many there are and whatever the parts compute. -/
theorem C111_dropped (rate : ℝ) (h0 : 0 < rate) (h1 : rate < 1) :
    ∀ (l : List ((S → ℝ) × ((S → P → ℝ) → S → P → ℝ))) (x : S → P → ℝ),
      (∀ uf ∈ l, ∀ s, 0 ≤ uf.1 s ∧ uf.1 s < 1) →
      ∃ y, chain true rate .cpu l x = .ok (some y) ∧
        ∀ s, (∀ uf ∈ l, uf.1 s < rate) → ∀ p, y s p = x s p
  | [], x, _ => ⟨x, rfl, fun _ _ _ => rfl⟩
  | (u, f) :: rest, x, hu => by
    obtain ⟨y, hy, hs⟩ := C111_sample rate h0 h1 u (hu (u, f) (List.mem_cons_self ..)) (f x)
    have hsome : ∀ s p, (y s p).isSome := by
      intro s p
      rcases lt_or_ge (u s) rate with h | h
      · rw [(hs s).1 h p]; rfl
      · rw [(hs s).2 h p]; rfl
    obtain ⟨z, hz, hd⟩ := C111_dropped rate h0 h1 rest (fun s p => ((y s p).map (x s p + ·)).getD 0)
      (fun uf h => hu uf (List.mem_cons_of_mem _ h))
    refine ⟨z, ?_, fun s hall p => ?_⟩
    · rw [chain, skip, hy]
      dsimp only
      rw [if_pos (by intro s p; rw [Option.isSome_map]; exact hsome s p)]
      exact hz
    · rw [hd s (fun uf h => hall uf (List.mem_cons_of_mem _ h)) p]
      have := (hs s).1 (hall (u, f) (List.mem_cons_self ..)) p
      simp [this]

/-- The hypotheses are met: two samples, one dropped and one kept, at the default rate of a block (0.1). -/
example : ∃ y, depth (S := Bool) (P := Unit) true 0.1 .cpu (fun s => if s then 0.05 else 0.5) (fun _ _ => 9) = .ok y ∧
    y true () = some 0 ∧ y false () = some 10 := by
  obtain ⟨y, hy, hs⟩ := C111_sample (S := Bool) (P := Unit) 0.1 (by norm_num) (by norm_num)
    (fun s => if s then 0.05 else 0.5) (by intro s; cases s <;> norm_num) (fun _ _ => 9)
  refine ⟨y, hy, (hs true).1 (by norm_num) (), ?_⟩
  rw [(hs false).2 (by norm_num) ()]
  norm_num

/-- **C111, the default settings.**  With the default settings of the video entropy model no layer of it drops anything,
also in training and wherever the input lives. -/
theorem C111_default (dev : Device) (u : S → ℝ) (x : S → P → ℝ) :
    depth true (Settings.defaults.dropEnc : ℝ) dev u x = .ok (fun s p => some (x s p)) ∧
      depth true (Settings.defaults.dropDec : ℝ) dev u x = .ok (fun s p => some (x s p)) :=
  ⟨C111_evaluation _ _ (.inr (by simp [Settings.defaults])) _ _ _, C111_evaluation _ _ (.inr (by simp [Settings.defaults])) _ _ _⟩

/-- **C111 fails at rate one**: the model accepts it (a drop-out of everything), but dropping everything divides by zero,
so no value in training is finite instead of zero. -/
theorem C111_violated_one (u : S → ℝ) (x : S → P → ℝ) :
    Settings.construct { Settings.defaults with dropEnc := 1, dropDec := 1 } = .ok () ∧
      ∃ y, depth true 1 .cpu u x = .ok y ∧ ∀ s p, y s p = none := by
  refine ⟨by decide +kernel, _, by simp only [depth]; norm_num; rfl, fun s p => ?_⟩
  simp [element]

/-- **C111 fails away from the CPU**: training with any rate above zero raises. -/
theorem C111_violated_device (rate : ℝ) (h0 : 0 < rate) (u : S → ℝ) (x : S → P → ℝ) :
    depth true rate .cuda u x = .error .device := by
  simp [depth, h0.ne']

end Verif.Vct.Depth
