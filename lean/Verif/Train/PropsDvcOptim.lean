import Verif.Train.DvcOptim
import Verif.Models.PropsHific
import Mathlib.Algebra.Order.Group.Nat
import Mathlib.Tactic.Linarith
import Mathlib.Tactic.NormNum
import Mathlib.Tactic.Ring

/-!
C130: construction, calls, optimisers and learning rate of the module that trains a stage of deep video compression.
-/

namespace Verif.Train.DvcOptim

open Verif.Models.Hific (Param)
open Verif.Train.Stages (Class)

/-! ### Construction and calls -/

/-- **C130, construction.** The module is built exactly for a known pretrained model at a quality level it has, one of the
five stage names and the distortion `MSE`; the class is that of the stage. An unknown model is a `KeyError`, anything else
a `ValueError`. -/
theorem C130_construction (zoo : String → Option (ℤ → Bool)) (a : Args) :
    (∀ c, init zoo a = .ok c ↔ (∃ levels, zoo a.pretrainedName = some levels ∧ levels a.quality = true) ∧
      a.distortion = "MSE" ∧ (a.stage, c) ∈ [("1_motion_estimation", Class.stage1), ("2_motion_compression", .stage2),
        ("3_motion_compensation", .stage3), ("4_total_2frame", .stage4and5), ("5_total", .stage4and5)]) ∧
      (init zoo a = .error .key ↔ zoo a.pretrainedName = none) ∧
      ∀ e, init zoo a = .error e → e = .key ∨ e = .value := by
  have hs : ∀ c, stageClass a.stage = some c ↔ (a.stage, c) ∈ [("1_motion_estimation", Class.stage1),
      ("2_motion_compression", .stage2), ("3_motion_compensation", .stage3), ("4_total_2frame", .stage4and5),
      ("5_total", .stage4and5)] := by
    intro c
    generalize a.stage = n
    unfold stageClass
    split
    all_goals simp_all
    all_goals cases c <;> simp_all
  unfold init
  cases hz : zoo a.pretrainedName with
  | none => simp
  | some levels =>
    dsimp only
    by_cases hl : levels a.quality = false
    · rw [if_pos hl]; simp [hl]
    · rw [if_neg hl]
      have hl' : levels a.quality = true := by simpa using hl
      cases hc : stageClass a.stage with
      | none =>
        refine ⟨fun c => ?_, by simp, by simp⟩
        rw [← hs c, hc]; simp
      | some d =>
        dsimp only
        by_cases hd : a.distortion = "MSE"
        · rw [if_pos hd]
          refine ⟨fun c => ?_, by simp, by simp⟩
          rw [← hs c, hc]
          simp [hl', hd]
        · rw [if_neg hd]; simp [hd]

/-- **C130 is violated: a documented stage.** The documentation lists the stage `4_total`; it is refused with every
model that can be had. -/
theorem C130_violated_documented (zoo : String → Option (ℤ → Bool)) (a : Args) (h : a.stage = "4_total") :
    ∃ e, init zoo a = .error e := by
  cases hi : init zoo a with
  | error e => exact ⟨e, rfl⟩
  | ok c =>
    have := ((C130_construction zoo a).1 c).1 hi
    rw [h] at this
    simp at this

/-- **C130 is violated: calling the module.** Calling the module raises a `TypeError`, for every stage and image: the images
are passed on as one argument and all stages take two. -/
theorem C130_violated_forward {I O : Type} (net : I → I → O) (images : I) : forward net images = .error .type := rfl

/-- The stages themselves can be called with two images, and with two only. -/
theorem C130_stage_forward {I O : Type} (net : I → I → O) (images : List I) (out : O) :
    stageForward net images = .ok out ↔ ∃ image1 image2, images = [image1, image2] ∧ out = net image1 image2 := by
  match images with
  | [] => simp [stageForward]
  | [a] => simp [stageForward]
  | [a, b] => simp [stageForward, eq_comm]
  | a :: b :: c :: l => simp [stageForward]

/-! ### Optimisers -/

/-- A trainable parameter with a name that ends with `.quantiles`. -/
def Quantile (p : Param) : Prop := p.requiresGrad = true ∧ ".quantiles".toList <:+ p.name.toList

/-- A trainable parameter with another name. -/
def Weight (p : Param) : Prop := p.requiresGrad = true ∧ ¬ ".quantiles".toList <:+ p.name.toList

/-- Settings with which a run can start: rates that are not negative, weights to train, and quantiles to train unless it is
the first stage. -/
structure Fine (s : Settings) : Prop where
  lr : 0 ≤ s.learningRate
  weights : ∃ p ∈ s.params, Weight p
  quantiles : s.cls ≠ .stage1 → 0 ≤ s.auxLearningRate ∧ ∃ p ∈ s.params, Quantile p

theorem collect_spec (params : List Param) :
    (∀ p, p ∈ (Models.Hific.collectDvc params).1 ↔ p ∈ params ∧ Weight p) ∧
      ∀ p, p ∈ (Models.Hific.collectDvc params).2 ↔ p ∈ params ∧ Quantile p := by
  obtain ⟨m, q, h, -, -, -, hm, hq⟩ := Models.Hific.C53_partition params
  have h2 := (Models.Hific.C53_dvc params).1
  rw [h, Option.some.injEq] at h2
  rw [← h2]
  exact ⟨hm, hq⟩

theorem adam_ok {params : List Param} {lr : ℝ} (h1 : 0 ≤ lr) (h2 : ∃ p, p ∈ params) : adam params lr = .ok (params, lr) := by
  unfold adam
  rw [if_neg]
  rintro (h | rfl)
  · linarith
  · obtain ⟨p, hp⟩ := h2
    simp at hp

theorem adam_error {params : List Param} {lr : ℝ} (h : lr < 0 ∨ params = []) : adam params lr = .error .value := by
  unfold adam; rw [if_pos h]

theorem configure_stage1 {s : Settings} (h : s.cls = .stage1) (hf : Fine s) :
    configure s = (do let sched ← mkSched s.sched; return ⟨(Models.Hific.collectDvc s.params).1, s.learningRate, sched, none⟩) := by
  obtain ⟨p, hp, hw⟩ := hf.weights
  have ha := adam_ok hf.lr ⟨p, ((collect_spec s.params).1 p).2 ⟨hp, hw⟩⟩
  unfold configure collect
  rw [if_pos h]
  show (do let (main, lr) ← adam (Models.Hific.collectDvc s.params).1 s.learningRate; _) = _
  rw [ha]
  rfl

theorem configure_other {s : Settings} (h : s.cls ≠ .stage1) (hf : Fine s) :
    configure s = (do let sched ← mkSched s.sched; return ⟨(Models.Hific.collectDvc s.params).1, s.learningRate, sched,
      some ((Models.Hific.collectDvc s.params).2, s.auxLearningRate)⟩) := by
  obtain ⟨p, hp, hw⟩ := hf.weights
  obtain ⟨h0, q, hq, hw'⟩ := hf.quantiles h
  have ha := adam_ok hf.lr ⟨p, ((collect_spec s.params).1 p).2 ⟨hp, hw⟩⟩
  have hb := adam_ok h0 ⟨q, ((collect_spec s.params).2 q).2 ⟨hq, hw'⟩⟩
  unfold configure collect
  rw [if_neg h]
  show (do let (main, lr) ← adam (Models.Hific.collectDvc s.params).1 s.learningRate; _) = _
  rw [ha]
  cases mkSched s.sched with
  | error e => rfl
  | ok sc =>
    show (do let aux ← adam (Models.Hific.collectDvc s.params).2 s.auxLearningRate; _) = _
    rw [hb]
    rfl

/-- **C130, optimisers.** With fine settings and no schedule or one given by its step size (and possibly its factor), the
first optimiser has exactly the trainable weights of the stage; the second exactly its trainable quantiles, and there is
none in the first stage. -/
theorem C130_optimisers (s : Settings) (hf : Fine s)
    (hs : s.sched = .none ∨ ∃ n gamma, s.sched = .mapping (some n) gamma 0) :
    ∃ o, configure s = .ok o ∧ (∀ p, p ∈ o.main ↔ p ∈ s.params ∧ Weight p) ∧ o.lr = s.learningRate ∧
      (s.cls = .stage1 → o.aux = none) ∧
      (s.cls ≠ .stage1 → ∃ q, o.aux = some (q, s.auxLearningRate) ∧ ∀ p, p ∈ q ↔ p ∈ s.params ∧ Quantile p) := by
  obtain ⟨sc, hsc⟩ : ∃ sc, mkSched s.sched = .ok sc := by
    rcases hs with h | ⟨n, g, h⟩ <;> rw [h] <;> exact ⟨_, rfl⟩
  have hc := collect_spec s.params
  by_cases h : s.cls = .stage1
  · refine ⟨⟨(Models.Hific.collectDvc s.params).1, s.learningRate, sc, none⟩, ?_, hc.1, rfl, fun _ => rfl,
      fun h' => absurd h h'⟩
    rw [configure_stage1 h hf, hsc]; rfl
  · refine ⟨⟨(Models.Hific.collectDvc s.params).1, s.learningRate, sc,
      some ((Models.Hific.collectDvc s.params).2, s.auxLearningRate)⟩, ?_, hc.1, rfl, fun h' => absurd h' h,
      fun _ => ⟨_, rfl, hc.2⟩⟩
    rw [configure_other h hf, hsc]; rfl

/-- Settings that are not fine are refused with a `ValueError` if they ask for no schedule. -/
theorem C130_refused (s : Settings) (hs : s.sched = .none) (hf : ¬ Fine s) : configure s = .error .value := by
  have hc := collect_spec s.params
  by_cases hm : s.learningRate < 0 ∨ (Models.Hific.collectDvc s.params).1 = []
  · have ha := adam_error hm
    unfold configure collect
    by_cases h : s.cls = .stage1
    · rw [if_pos h]
      show (do let (main, lr) ← adam (Models.Hific.collectDvc s.params).1 s.learningRate; _) = _
      rw [ha]; rfl
    · rw [if_neg h]
      show (do let (main, lr) ← adam (Models.Hific.collectDvc s.params).1 s.learningRate; _) = _
      rw [ha]; rfl
  · push Not at hm
    have hw : ∃ p ∈ s.params, Weight p := by
      obtain ⟨p, hp⟩ := List.exists_mem_of_ne_nil _ hm.2
      exact ⟨p, (hc.1 p).1 hp⟩
    have h : s.cls ≠ .stage1 := fun h => hf ⟨hm.1, hw, fun h' => absurd h h'⟩
    have hq : s.auxLearningRate < 0 ∨ (Models.Hific.collectDvc s.params).2 = [] := by
      by_contra hq
      push Not at hq
      obtain ⟨p, hp⟩ := List.exists_mem_of_ne_nil _ hq.2
      exact hf ⟨hm.1, hw, fun _ => ⟨hq.1, p, (hc.2 p).1 hp⟩⟩
    obtain ⟨p, hp, hw⟩ := hw
    have ha := adam_ok hm.1 ⟨p, (hc.1 p).2 ⟨hp, hw⟩⟩
    unfold configure collect
    rw [if_neg h, hs]
    show (do let (main, lr) ← adam (Models.Hific.collectDvc s.params).1 s.learningRate; _) = _
    rw [ha]
    show (do let aux ← adam (Models.Hific.collectDvc s.params).2 s.auxLearningRate; _) = _
    rw [adam_error hq]; rfl

/-- **C130 is violated: the documented form of the schedule.** `lr_scheduler_params` is documented as a pair of a step size
and a factor; every such pair is a `TypeError`. -/
theorem C130_violated_pair (s : Settings) (hf : Fine s) (n : ℤ) (gamma : ℝ) (hs : s.sched = .tuple n gamma) :
    configure s = .error .type := by
  by_cases h : s.cls = .stage1
  · rw [configure_stage1 h hf, hs]; rfl
  · rw [configure_other h hf, hs]; rfl

/-! ### Learning rate -/

/-- The settings have a schedule with a positive step size. -/
def Scheduled (s : Settings) (n : ℕ) (gamma : ℝ) : Prop := 0 < n ∧ s.sched = .mapping (some (n : ℤ)) (some gamma) 0

/-- The number of batches in the checkpoint after a history: each start goes on from the last checkpoint. -/
def batchesDone (starts : List Start) : ℕ := (starts.map fun s => s.save.getD 0).sum

/-- The settings of the first start that left a checkpoint; those of the new start if none did. -/
def firstSettings (starts : List Start) (s : Settings) : Settings :=
  match starts.find? fun t => t.save.isSome with
  | some t => t.settings
  | none => s

/-- What the optimisers have to do in a batch: one step of the first with the given rate for each P-frame, then one of the
second, unless it is the first stage. -/
def batchEvents (c : Class) (numPframes : ℕ) (lr aux : ℝ) : List Event :=
  List.replicate numPframes (.main lr) ++ if c = .stage1 then [] else [.aux aux]

/-- The optimisers after `g` batches with the settings `e`. -/
def After (c : Class) (e : Settings) (n : ℕ) (gamma : ℝ) (g : ℕ) (o : Optims) : Prop :=
  o.lr = e.learningRate * gamma ^ (g / n) ∧ o.sched = some ⟨n, gamma, g⟩ ∧
    (c = .stage1 → o.aux = none) ∧ (c ≠ .stage1 → ∃ q, o.aux = some (q, e.auxLearningRate))

theorem after_step {c : Class} {e : Settings} {n : ℕ} {gamma : ℝ} {g : ℕ} {o : Optims} (hn : 0 < n)
    (h : After c e n gamma g o) (k : ℕ) :
    ∃ o', trainBatch k o = .ok (batchEvents c k (e.learningRate * gamma ^ (g / n)) e.auxLearningRate, o') ∧
      After c e n gamma (g + 1) o' := by
  obtain ⟨h1, h2, h3, h4⟩ := h
  have hst : (⟨n, gamma, g⟩ : Sched).step o.lr =
      .ok (⟨n, gamma, g + 1⟩, e.learningRate * gamma ^ ((g + 1) / n)) := by
    unfold Sched.step
    dsimp only
    rw [if_neg (by exact_mod_cast hn.ne'), h1]
    congr 2
    rw [Nat.succ_div]
    by_cases hd : n ∣ g + 1
    · rw [if_pos hd, if_neg, pow_succ, mul_assoc]
      have : (n : ℤ) ∣ (g : ℤ) + 1 := by exact_mod_cast Int.natCast_dvd_natCast.2 hd
      rw [not_not]; exact Int.emod_eq_zero_of_dvd this
    · rw [if_neg hd, if_pos, add_zero]
      intro h0
      have := Int.dvd_of_emod_eq_zero h0
      exact hd (by exact_mod_cast this)
  have hlr : lrStep o = .ok { o with sched := some ⟨n, gamma, g + 1⟩, lr := e.learningRate * gamma ^ ((g + 1) / n) } := by
    unfold lrStep
    rw [h2]
    dsimp only
    rw [hst]; rfl
  unfold trainBatch
  rw [hlr]
  by_cases hc : c = .stage1
  · refine ⟨{ o with sched := some ⟨n, gamma, g + 1⟩, lr := e.learningRate * gamma ^ ((g + 1) / n) }, ?_, ?_⟩
    · show (match o.aux with | none => _ | some a => _) = _
      rw [h3 hc]
      unfold batchEvents
      rw [if_pos hc, List.append_nil, ← h1]; rfl
    · exact ⟨rfl, rfl, h3, h4⟩
  · obtain ⟨q, hq⟩ := h4 hc
    refine ⟨{ o with sched := some ⟨n, gamma, g + 1⟩, lr := e.learningRate * gamma ^ ((g + 1) / n) }, ?_, ⟨rfl, rfl, h3, h4⟩⟩
    show (match o.aux with | none => _ | some a => _) = _
    rw [hq]
    unfold batchEvents
    rw [if_neg hc, ← h1]; rfl

theorem after_batches {c : Class} {e : Settings} {n : ℕ} {gamma : ℝ} (hn : 0 < n) (k m : ℕ) :
    ∀ {g : ℕ} {o : Optims}, After c e n gamma g o →
      ∃ o', trainBatches k m o = .ok ((List.range m).map fun b =>
          batchEvents c k (e.learningRate * gamma ^ ((g + b) / n)) e.auxLearningRate, o') ∧
        After c e n gamma (g + m) o' := by
  induction m with
  | zero => intro g o h; exact ⟨o, rfl, h⟩
  | succ m ih =>
    intro g o h
    obtain ⟨o1, h1, ha⟩ := after_step hn h k
    obtain ⟨o2, h2, hb⟩ := ih ha
    refine ⟨o2, ?_, by rw [show g + (m + 1) = g + 1 + m by ring]; exact hb⟩
    unfold trainBatches
    rw [h1]
    show (do let (rest, o) ← trainBatches k m o1; _) = _
    rw [h2]
    rw [List.range_succ_eq_map, List.map_cons, List.map_map]
    show Except.ok _ = Except.ok _
    refine congrArg _ (Prod.ext ?_ rfl)
    refine congrArg₂ _ (by rw [add_zero]) (List.map_congr_left fun b _ => ?_)
    show _ = batchEvents c k (e.learningRate * gamma ^ ((g + (b + 1)) / n)) _
    rw [show g + (b + 1) = g + 1 + b by ring]

theorem configure_after {s : Settings} {n : ℕ} {gamma : ℝ} (hf : Fine s) (hs : Scheduled s n gamma) :
    ∃ o, configure s = .ok o ∧ After s.cls s n gamma 0 o := by
  have hsc : mkSched s.sched = .ok (some ⟨n, gamma, 0⟩) := by rw [hs.2]; rfl
  by_cases h : s.cls = .stage1
  · rw [configure_stage1 h hf, hsc]
    exact ⟨_, rfl, by simp, rfl, fun _ => rfl, fun h' => absurd h h'⟩
  · rw [configure_other h hf, hsc]
    exact ⟨_, rfl, by simp, rfl, fun h' => absurd h' h, fun _ => ⟨_, rfl⟩⟩

theorem restore_after {c : Class} {e s : Settings} {n m : ℕ} {gamma gamma' : ℝ} {g : ℕ} {saved o : Optims}
    (h : After c e n gamma g saved) (ho : After c s m gamma' 0 o) : After c e n gamma g (restore saved o) := by
  obtain ⟨h1, h2, h3, h4⟩ := h
  obtain ⟨-, o2, o3, o4⟩ := ho
  refine ⟨h1, ?_, fun hc => ?_, fun hc => ?_⟩
  · unfold restore; dsimp only; rw [o2, h2]
  · unfold restore; dsimp only; rw [o3 hc]
  · obtain ⟨q, hq⟩ := h4 hc
    obtain ⟨q', hq'⟩ := o4 hc
    unfold restore; dsimp only; rw [hq, hq']
    exact ⟨_, rfl⟩


/-- The factor of the schedule of settings with one. -/
noncomputable def gammaOf (s : Settings) : ℝ := match s.sched with | .mapping _ (some g) _ => g | _ => 0

/-- The step size of the schedule of settings with one. -/
def stepOf (s : Settings) : ℕ := match s.sched with | .mapping (some n) _ _ => n.toNat | _ => 0

/-- The settings of a run of the stage `c`: fine, with a schedule. -/
def Usable (c : Class) (s : Settings) : Prop := Fine s ∧ s.cls = c ∧ Scheduled s (stepOf s) (gammaOf s)

theorem fit_fresh {c : Class} {s : Settings} (hs : Usable c s) (m : ℕ) :
    ∃ o, fit s none m = .ok ((List.range m).map fun b =>
        batchEvents c s.numPframes (s.learningRate * gammaOf s ^ (b / stepOf s)) s.auxLearningRate, o) ∧
      After c s (stepOf s) (gammaOf s) m o := by
  obtain ⟨hf, rfl, hsc⟩ := hs
  obtain ⟨o, ho, ha⟩ := configure_after hf hsc
  obtain ⟨o', h1, h2⟩ := after_batches hsc.1 s.numPframes m ha
  refine ⟨o', ?_, by rw [zero_add] at h2; exact h2⟩
  unfold fit
  rw [ho]
  show trainBatches s.numPframes m o = _
  rw [h1]
  simp

theorem fit_resumed {c : Class} {e s : Settings} (he : Usable c e) (hs : Usable c s) {g : ℕ} {saved : Optims}
    (h : After c e (stepOf e) (gammaOf e) g saved) (m : ℕ) :
    ∃ o, fit s (some saved) m = .ok ((List.range m).map fun b =>
        batchEvents c s.numPframes (e.learningRate * gammaOf e ^ ((g + b) / stepOf e)) e.auxLearningRate, o) ∧
      After c e (stepOf e) (gammaOf e) (g + m) o := by
  obtain ⟨hf, rfl, hsc⟩ := hs
  obtain ⟨o, ho, ha⟩ := configure_after hf hsc
  obtain ⟨o', h1, h2⟩ := after_batches he.2.2.1 s.numPframes m (restore_after h ha)
  refine ⟨o', ?_, h2⟩
  unfold fit
  rw [ho]
  show trainBatches s.numPframes m (restore saved o) = _
  rw [h1]

theorem history_from {c : Class} {e : Settings} (he : Usable c e) (starts : List Start) :
    ∀ {g : ℕ} {saved : Optims}, (∀ t ∈ starts, Usable c t.settings) → After c e (stepOf e) (gammaOf e) g saved →
      ∃ o, starts.foldlM leave (some saved) = .ok (some o) ∧
        After c e (stepOf e) (gammaOf e) (g + batchesDone starts) o := by
  induction starts with
  | nil => intro g saved _ h; exact ⟨saved, rfl, h⟩
  | cons t starts ih =>
    intro g saved ht h
    have ht' := fun u hu => ht u (List.mem_cons_of_mem _ hu)
    rw [List.foldlM_cons]
    cases hk : t.save with
    | none =>
      obtain ⟨o, h1, h2⟩ := ih ht' h
      refine ⟨o, ?_, ?_⟩
      · unfold leave; rw [hk]; exact h1
      · unfold batchesDone at h2 ⊢
        rw [List.map_cons, List.sum_cons, hk]
        simpa using h2
    | some k =>
      obtain ⟨o', hf, ha⟩ := fit_resumed he (ht t List.mem_cons_self) h k
      obtain ⟨o, h1, h2⟩ := ih ht' ha
      refine ⟨o, ?_, ?_⟩
      · unfold leave; rw [hk]; dsimp only; rw [hf]; exact h1
      · unfold batchesDone at h2 ⊢
        rw [List.map_cons, List.sum_cons, hk]
        rw [Option.getD_some, ← add_assoc]; exact h2

/-- The checkpoint after a history is that of the number of batches saved, with the settings of the first start that left
one; there is none if no start did. -/
theorem history_spec {c : Class} (starts : List Start) (s : Settings) (ht : ∀ t ∈ starts, Usable c t.settings) :
    (∃ o, history starts = .ok (some o) ∧ Usable c (firstSettings starts s) ∧
      After c (firstSettings starts s) (stepOf (firstSettings starts s)) (gammaOf (firstSettings starts s))
        (batchesDone starts) o) ∨
      (history starts = .ok none ∧ firstSettings starts s = s ∧ batchesDone starts = 0) := by
  unfold history
  induction starts with
  | nil => exact .inr ⟨rfl, rfl, rfl⟩
  | cons t starts ih =>
    have ht' := fun u hu => ht u (List.mem_cons_of_mem _ hu)
    cases hk : t.save with
    | none =>
      have e1 : firstSettings (t :: starts) s = firstSettings starts s := by
        unfold firstSettings; rw [List.find?_cons_of_neg]; rw [hk]; simp
      have e2 : batchesDone (t :: starts) = batchesDone starts := by
        unfold batchesDone; rw [List.map_cons, List.sum_cons, hk]; simp
      have e3 : (t :: starts).foldlM leave none = starts.foldlM leave none := by
        rw [List.foldlM_cons]; unfold leave; rw [hk]; rfl
      rw [e1, e2, e3]
      exact ih ht'
    | some k =>
      have e1 : firstSettings (t :: starts) s = t.settings := by
        unfold firstSettings; rw [List.find?_cons_of_pos]; rw [hk]; rfl
      have hu := ht t List.mem_cons_self
      obtain ⟨o', hf, ha⟩ := fit_fresh hu k
      obtain ⟨o, h1, h2⟩ := history_from hu starts ht' ha
      left
      rw [e1]
      refine ⟨o, ?_, hu, ?_⟩
      · rw [List.foldlM_cons]; unfold leave; rw [hk]; dsimp only; rw [hf]; exact h1
      · unfold batchesDone at h2 ⊢
        rw [List.map_cons, List.sum_cons, hk]; exact h2

/-- **C130, the learning rate.** Whatever the history of starts of the stage, saves and ends: when a new start has done any
number `m` of batches, its batch number `b` is the batch `g + b` of the run, where `g` batches are in the last checkpoint;
in it the first optimiser makes one step for each P-frame, with the initial rate times the factor to the power
`(g + b) / step size`, and the second makes one with its own rate. Rates, factor and step size are those of the first start
that left a checkpoint: later changes of the settings have no effect. -/
theorem C130_rate {c : Class} (starts : List Start) (s : Settings) (ht : ∀ t ∈ starts, Usable c t.settings)
    (hs : Usable c s) (m : ℕ) :
    ∃ saved events o, history starts = .ok saved ∧ fit s saved m = .ok (events, o) ∧ events.length = m ∧
      ∀ b < m, events[b]? = some (batchEvents c s.numPframes
        ((firstSettings starts s).learningRate *
          gammaOf (firstSettings starts s) ^ ((batchesDone starts + b) / stepOf (firstSettings starts s)))
        (firstSettings starts s).auxLearningRate) := by
  rcases history_spec starts s ht with ⟨o, h1, h2, h3⟩ | ⟨h1, h2, h3⟩
  · obtain ⟨o', hf, -⟩ := fit_resumed h2 hs h3 m
    refine ⟨_, _, _, h1, hf, by simp, fun b hb => ?_⟩
    rw [List.getElem?_map, List.getElem?_range hb]; rfl
  · obtain ⟨o', hf, -⟩ := fit_fresh hs m
    refine ⟨_, _, _, h1, hf, by simp, fun b hb => ?_⟩
    rw [List.getElem?_map, List.getElem?_range hb, h2, h3, zero_add]; rfl

/-- **C130, no schedule.** Without a schedule all steps have the initial rates. -/
theorem C130_constant (s : Settings) (hf : Fine s) (hs : s.sched = .none) (m : ℕ) :
    ∃ o, fit s none m = .ok (List.replicate m (batchEvents s.cls s.numPframes s.learningRate s.auxLearningRate), o) := by
  have key : ∀ (m : ℕ) (o : Optims), o.sched = none → o.lr = s.learningRate → (s.cls = .stage1 → o.aux = none) →
      (s.cls ≠ .stage1 → ∃ q, o.aux = some (q, s.auxLearningRate)) →
      trainBatches s.numPframes m o =
        .ok (List.replicate m (batchEvents s.cls s.numPframes s.learningRate s.auxLearningRate), o) := by
    intro m o h1 h2 h3 h4
    have hb : trainBatch s.numPframes o =
        .ok (batchEvents s.cls s.numPframes s.learningRate s.auxLearningRate, o) := by
      have hl : lrStep o = .ok o := by unfold lrStep; rw [h1]
      unfold trainBatch
      rw [hl]
      show (match o.aux with | none => _ | some a => _) = _
      unfold batchEvents
      by_cases hc : s.cls = .stage1
      · rw [h3 hc, if_pos hc, List.append_nil, h2]; rfl
      · obtain ⟨q, hq⟩ := h4 hc
        rw [hq, if_neg hc, h2]; rfl
    induction m with
    | zero => rfl
    | succ m ih =>
      unfold trainBatches
      rw [hb]
      show (do let (rest, o) ← trainBatches s.numPframes m o; _) = _
      rw [ih]; rfl
  obtain ⟨o, ho, -, hlr, h3, h4⟩ := C130_optimisers s hf (.inl hs)
  have hsched : o.sched = none := by
    by_cases h : s.cls = .stage1
    · rw [configure_stage1 h hf, hs] at ho
      cases ho; rfl
    · rw [configure_other h hf, hs] at ho
      cases ho; rfl
  refine ⟨o, ?_⟩
  unfold fit
  rw [ho]
  exact key m o hsched hlr h3 fun h => (h4 h).imp fun q hq => hq.1

/-- **C130 is violated: a step size of zero** is accepted; the first batch then dies with a `ZeroDivisionError`, after its
steps of the first optimiser. -/
theorem C130_violated_zero (s : Settings) (hf : Fine s) (gamma : Option ℝ) (hs : s.sched = .mapping (some 0) gamma 0) (m : ℕ) :
    (∃ o, configure s = .ok o) ∧ fit s none (m + 1) = .error .zeroDivision := by
  have hsc : mkSched s.sched = .ok (some ⟨0, gamma.getD 0.1, 0⟩) := by rw [hs]; rfl
  have key : ∀ o : Optims, o.sched = some ⟨0, gamma.getD 0.1, 0⟩ → trainBatches s.numPframes (m + 1) o = .error .zeroDivision := by
    intro o ho
    have : lrStep o = .error .zeroDivision := by
      unfold lrStep; rw [ho]; rfl
    unfold trainBatches trainBatch
    rw [this]; rfl
  have hc : ∃ o, configure s = .ok o ∧ o.sched = some ⟨0, gamma.getD 0.1, 0⟩ := by
    by_cases h : s.cls = .stage1
    · rw [configure_stage1 h hf, hsc]; exact ⟨_, rfl, rfl⟩
    · rw [configure_other h hf, hsc]; exact ⟨_, rfl, rfl⟩
  obtain ⟨o, ho, hs'⟩ := hc
  refine ⟨⟨o, ho⟩, ?_⟩
  unfold fit
  rw [ho]
  exact key o hs'

/-! ### The hypotheses can be met: the fifth stage of the default configuration -/

/-- config/training_stages/s5_total.yaml with config/base.yaml and two parameters. -/
noncomputable def stage5 : Settings where
  cls := .stage4and5
  params := [⟨"model.motion_encoder.0.weight", true⟩, ⟨"model.motion_entropy_bottleneck.quantiles", true⟩]
  learningRate := 1 / 10000
  auxLearningRate := 1 / 1000
  sched := .mapping (some 200000) (some (1 / 10)) 0
  numPframes := 6

theorem stage5_usable : Usable .stage4and5 stage5 := by
  refine ⟨⟨?_, ?_, fun _ => ⟨?_, ?_⟩⟩, rfl, ?_, rfl⟩
  · unfold stage5; norm_num
  · exact ⟨_, List.mem_cons_self, rfl, by decide +kernel⟩
  · unfold stage5; norm_num
  · exact ⟨_, List.mem_cons_of_mem _ List.mem_cons_self, rfl, by decide +kernel⟩
  · show 0 < Int.toNat 200000; decide

/-- A run that saved after 150000 and died after 160000 batches, then saved 300000 batches later: the next batch has a
hundredth of the initial rate. -/
example : ∃ saved events o, history [⟨stage5, some 150000, 160000⟩, ⟨stage5, some 300000, 300001⟩] = .ok saved ∧
    fit stage5 saved 1 = .ok (events, o) ∧
      events[0]? = some (List.replicate 6 (.main (1 / 1000000)) ++ [.aux (1 / 1000)]) := by
  have ht : ∀ t ∈ [(⟨stage5, some 150000, 160000⟩ : Start), ⟨stage5, some 300000, 300001⟩], Usable .stage4and5 t.settings := by
    intro t h
    rcases List.mem_cons.1 h with rfl | h
    · exact stage5_usable
    · rcases List.mem_cons.1 h with rfl | h
      · exact stage5_usable
      · simp at h
  obtain ⟨saved, events, o, h1, h2, -, h3⟩ := C130_rate _ stage5 ht stage5_usable 1
  refine ⟨saved, events, o, h1, h2, ?_⟩
  rw [h3 0 (by norm_num)]
  have e1 : firstSettings [(⟨stage5, some 150000, 160000⟩ : Start), ⟨stage5, some 300000, 300001⟩] stage5 = stage5 := rfl
  have e2 : batchesDone [(⟨stage5, some 150000, 160000⟩ : Start), ⟨stage5, some 300000, 300001⟩] = 450000 := rfl
  rw [e1, e2]
  have e3 : stepOf stage5 = 200000 := rfl
  have e4 : gammaOf stage5 = 1 / 10 := rfl
  rw [e3, e4]
  have e5 : stage5.learningRate * (1 / 10) ^ ((450000 + 0) / 200000) = (1 / 1000000 : ℝ) := by
    show (1 / 10000 : ℝ) * (1 / 10) ^ ((450000 + 0) / 200000) = _
    norm_num
  rw [e5]
  rfl

example : ∃ s : Settings, Fine s ∧ s.sched = .mapping (some 0) none 0 :=
  ⟨{ stage5 with sched := .mapping (some 0) none 0 }, ⟨stage5_usable.1.lr, stage5_usable.1.weights, stage5_usable.1.quantiles⟩,
    rfl⟩

end Verif.Train.DvcOptim
