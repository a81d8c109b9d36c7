import Verif.Train.Stages
import Mathlib.Data.List.Sort
import Mathlib.Tactic.Ring

/-!
# C103: staged training of the deep video compression project
-/

namespace Verif.Train.Stages

variable {V O : Type}

/-! ### Specification: training without interruptions -/

/-- State of stage `k` after `i` steps from the weights `w` and fresh optimizers. -/
def trained (t : Training V O) (k : ℕ) (w : Held V k) : ℕ → Held V k × O
  | 0 => (w, t.init k)
  | i + 1 => t.step k i (trained t k w i)

/-- The model after the first `k` stages, each trained for all its steps on the model of the stages before: the parts the
stage holds are trained, the others stay. -/
def ideal (t : Training V O) (m : Model V) : ℕ → Model V
  | 0 => m
  | k + 1 => fun p =>
    if h : p ∈ (classOf k).parts then (trained t k (fun q => ideal t m k q.1) (t.steps k)).1 ⟨p, h⟩ else ideal t m k p

/-- The model that training from the initial weights `m` without interruption gives. -/
def result (t : Training V O) (m : Model V) : Model V := ideal t m 5

/-! ### What the stages hold -/

/-- **C103, the order.**  The sorted names of the default configuration are the stages in order. -/
theorem C103_order : order (config.map Prod.fst) = config.map Prod.fst := by
  have h : (config.map Prod.fst).Pairwise (fun a b => decide (a ≤ b) = true) := by decide +kernel
  exact List.mergeSort_of_pairwise h

/-- Names are sorted as strings: with ten or more stages the tenth comes before the second. -/
theorem C103_violated_order : order ["s2_b", "s10_j"] = ["s10_j", "s2_b"] := by
  have h : decide ("s2_b" ≤ "s10_j") = false := by decide +kernel
  simp [order, List.mergeSort, List.MergeSort.Internal.splitInTwo, List.merge, of_decide_eq_false h]

/-- Every class puts back what it holds. -/
theorem putBack_eq (k : ℕ) : (classOf k).putBack = (classOf k).parts := by
  cases classOf k <;> rfl

theorem recompose_apply (k : ℕ) (w : Held V k) (m : Model V) (p : Part) :
    recompose k w m p = if h : p ∈ (classOf k).parts then w ⟨p, h⟩ else m p := by
  unfold recompose
  rw [putBack_eq]
  split_ifs <;> rfl

theorem parts_mono (k : ℕ) (p : Part) (h : p ∈ (classOf k).parts) : p ∈ (classOf (k + 1)).parts := by
  match k with
  | 0 => revert h; revert p; decide
  | 1 => revert h; revert p; decide
  | 2 => revert h; revert p; decide
  | 3 => revert h; revert p; decide
  | n + 4 =>
    have : classOf (n + 4 + 1) = .stage4and5 := by
      simp [classOf, config]
    rw [this]
    cases p <;> decide

theorem parts_le {j k : ℕ} (hjk : j ≤ k) {p : Part} (h : p ∈ (classOf j).parts) : p ∈ (classOf k).parts := by
  induction hjk with
  | refl => exact h
  | step _ ih => exact parts_mono _ p ih

/-- **C103, the parts.**  Each stage trains the parts of the stages before it and more; the fourth and the fifth train all
parts of the model; a stage leaves the parts it does not hold as they were. -/
theorem C103_parts :
    (∀ j k p, j ≤ k → p ∈ (classOf j).parts → p ∈ (classOf k).parts) ∧
      (∀ p, p ∈ (classOf 3).parts ∧ p ∈ (classOf 4).parts) ∧
      ∀ (k : ℕ) (w : Held V k) (m : Model V) p, p ∉ (classOf k).parts → recompose k w m p = m p := by
  refine ⟨fun j k p h => parts_le h, fun p => by cases p <;> decide, fun k w m p h => ?_⟩
  rw [recompose_apply, dif_neg h]

/-! ### Lemmas about uninterrupted training -/

theorem ideal_untouched (t : Training V O) (m : Model V) : ∀ k p, p ∉ (classOf k).parts → ideal t m k p = m p := by
  intro k
  induction k with
  | zero => intro p _; rfl
  | succ k ih =>
    intro p hp
    have hp' : p ∉ (classOf k).parts := fun h => hp (parts_mono k p h)
    simp only [ideal, dif_neg hp']
    exact ih p hp'

theorem ideal_untouched_succ (t : Training V O) (m : Model V) (k : ℕ) (p : Part) (hp : p ∉ (classOf k).parts) :
    ideal t m (k + 1) p = m p := by
  simp only [ideal, dif_neg hp]
  exact ideal_untouched t m k p hp

theorem ideal_congr (t : Training V O) (m m' : Model V) : ∀ k, (∀ p ∈ (classOf k).parts, m p = m' p) →
    ∀ p ∈ (classOf k).parts, ideal t m k p = ideal t m' k p := by
  intro k
  induction k with
  | zero => intro h p hp; exact h p hp
  | succ k ih =>
    intro h p hp
    have h' : ∀ p ∈ (classOf k).parts, m p = m' p := fun q hq => h q (parts_mono k q hq)
    by_cases hk : p ∈ (classOf k).parts
    · simp only [ideal, dif_pos hk]
      have : (fun q : {p // p ∈ (classOf k).parts} => ideal t m k q.1) = fun q => ideal t m' k q.1 :=
        funext fun q => ih h' q.1 q.2
      rw [this]
    · simp only [ideal, dif_neg hk]
      rw [ideal_untouched t m k p hk, ideal_untouched t m' k p hk, h p hp]

/-- State of stage `k` after `i` steps of uninterrupted training from `m`. -/
def idealState (t : Training V O) (m : Model V) (k i : ℕ) : Held V k × O := trained t k (fun q => ideal t m k q.1) i

theorem idealState_congr (t : Training V O) (m m' : Model V) (k i : ℕ) (h : ∀ p ∈ (classOf k).parts, m p = m' p) :
    idealState t m k i = idealState t m' k i := by
  have : (fun q : {p // p ∈ (classOf k).parts} => ideal t m k q.1) = fun q => ideal t m' k q.1 :=
    funext fun q => ideal_congr t m m' k h q.1 q.2
  simp only [idealState, this]

/-! ### One stage -/

/-- What `fit` leaves: the old checkpoint or one of the states from `i` on; and the state after all steps if it ends. -/
theorem fit_spec (t : Training V O) (save : ℕ → ℕ → Bool) (k : ℕ) (w : Held V k) :
    ∀ r i slot fuel, ((fit t save k r i (trained t k w i) slot fuel).1 = slot ∨
      ∃ j, i < j ∧ j ≤ i + r ∧ (fit t save k r i (trained t k w i) slot fuel).1 = some (j, trained t k w j)) ∧
      ∀ s f, (fit t save k r i (trained t k w i) slot fuel).2 = some (s, f) → s = trained t k w (i + r) := by
  intro r
  induction r with
  | zero =>
    intro i slot fuel
    refine ⟨Or.inl rfl, fun s f h => ?_⟩
    simp only [fit, Option.some.injEq, Prod.mk.injEq] at h
    exact h.1.symm
  | succ r ih =>
    intro i slot fuel
    cases fuel with
    | zero => exact ⟨Or.inl rfl, fun s f h => by simp [fit] at h⟩
    | succ fuel =>
      have hstep : t.step k i (trained t k w i) = trained t k w (i + 1) := rfl
      have e : i + (r + 1) = i + 1 + r := by ring
      rw [e]
      simp only [fit, hstep]
      by_cases hs : save k i = true
      · simp only [hs, if_true]
        obtain ⟨h1, h2⟩ := ih (i + 1) (some (i + 1, trained t k w (i + 1))) fuel
        refine ⟨Or.inr ?_, h2⟩
        rcases h1 with h1 | ⟨j, hj1, hj2, hj3⟩
        · exact ⟨i + 1, by omega, by omega, h1⟩
        · exact ⟨j, by omega, by omega, hj3⟩
      · simp only [hs, Bool.false_eq_true, if_false]
        obtain ⟨h1, h2⟩ := ih (i + 1) slot fuel
        refine ⟨?_, h2⟩
        rcases h1 with h1 | ⟨j, hj1, hj2, hj3⟩
        · exact Or.inl h1
        · exact Or.inr ⟨j, by omega, by omega, hj3⟩

/-- A stage never removes a checkpoint. -/
theorem fit_isSome (t : Training V O) (save : ℕ → ℕ → Bool) (k : ℕ) :
    ∀ r i s slot fuel, slot.isSome = true → (fit t save k r i s slot fuel).1.isSome = true := by
  intro r
  induction r with
  | zero => intro i s slot fuel h; exact h
  | succ r ih =>
    intro i s slot fuel h
    cases fuel with
    | zero => exact h
    | succ fuel =>
      simp only [fit]
      apply ih
      split_ifs
      · rfl
      · exact h

/-! ### Restarts -/

/-- Every part of `m` has the weights it has in one of the models `S`. -/
def DrawnFrom (S : Set (Model V)) (m : Model V) : Prop := ∀ p, ∃ s ∈ S, m p = s p

/-- The invariant of the directories: either there is no checkpoint, or the checkpoint of the last stage that has one is a
state of an uninterrupted training, from initial weights drawn from `S`. -/
def Inv (t : Training V O) (S : Set (Model V)) (dir : Dir V O) : Prop :=
  (∀ k < 5, dir k = none) ∨
    ∃ k < 5, (∀ j, k < j → j < 5 → dir j = none) ∧
      ∃ m i, DrawnFrom S m ∧ i ≤ t.steps k ∧ dir k = some (i, idealState t m k i)

/-- From stage `k` on, without checkpoints for these stages, starting from the model of an uninterrupted training. -/
theorem stages_fresh (t : Training V O) (save : ℕ → ℕ → Bool) (f : Flags) (hf : f.overwrite = true ∨ f.resume = true)
    (S : Set (Model V)) (m : Model V) (hm : DrawnFrom S m) : ∀ r k dir fuel, k + r = 5 → (f.overwrite = true ∨ ∀ j, k ≤ j → j < 5 → dir j = none) →
      (f.resume = true → f.overwrite = false → Inv t S dir → Inv t S (stages t save f r k (ideal t m k) dir fuel).1) ∧
        ∀ out, (stages t save f r k (ideal t m k) dir fuel).2 = .finished out → out = result t m := by
  intro r
  induction r with
  | zero =>
    intro k dir fuel hk hd
    refine ⟨fun _ _ h => h, fun out h => ?_⟩
    simp only [stages, Outcome.finished.injEq] at h
    rw [← h, result, ← hk, Nat.add_zero]
  | succ r ih =>
    intro k dir fuel hk hd
    have hrefuse : (!f.overwrite && !f.resume && (dir k).isSome) = false := by
      rcases hf with h | h <;> simp [h]
    have hstart : start t f k (ideal t m k) dir = (0, idealState t m k 0) := by
      unfold start
      rcases hd with h | h
      · rw [h]; cases dir k <;> rfl
      · rw [h k le_rfl (by omega)]; rfl
    have hrec : ∀ s : Held V k × O, s = idealState t m k (t.steps k) → recompose k s.1 (ideal t m k) = ideal t m (k + 1) := by
      intro s hs
      funext p
      rw [recompose_apply, hs]
      rfl
    simp only [stages, hrefuse, Bool.false_eq_true, if_false, hstart, Nat.sub_zero]
    obtain ⟨h1, h2⟩ := fit_spec t save k (fun q => ideal t m k q.1) (t.steps k) 0 (dir k) fuel
    change ((fit t save k (t.steps k) 0 (idealState t m k 0) (dir k) fuel).1 = dir k ∨ _) at h1
    have h1' : (fit t save k (t.steps k) 0 (idealState t m k 0) (dir k) fuel).1 = dir k ∨
        ∃ j, j ≤ t.steps k ∧ (fit t save k (t.steps k) 0 (idealState t m k 0) (dir k) fuel).1 =
          some (j, idealState t m k j) := by
      rcases h1 with h1 | ⟨j, _, hj, h1⟩
      · exact Or.inl h1
      · exact Or.inr ⟨j, by omega, h1⟩
    have h2' : ∀ s g, (fit t save k (t.steps k) 0 (idealState t m k 0) (dir k) fuel).2 = some (s, g) →
        s = idealState t m k (t.steps k) := by
      intro s g h
      have := h2 s g h
      rwa [Nat.zero_add] at this
    set out := fit t save k (t.steps k) 0 (idealState t m k 0) (dir k) fuel
    have hinv : f.resume = true → f.overwrite = false → Inv t S dir → Inv t S (Function.update dir k out.1) := by
      intro _ ho hI
      rcases h1' with h1 | ⟨j, hj, h1⟩
      · rw [h1, Function.update_eq_self]; exact hI
      · right
        refine ⟨k, by omega, fun i hi hi5 => ?_, m, j, hm, hj, ?_⟩
        · rw [Function.update_of_ne (by omega)]
          rcases hd with h | h
          · rw [ho] at h; exact absurd h (by decide)
          · exact h i (by omega) hi5
        · rw [Function.update_self]; exact h1
    cases ho2 : out.2 with
    | none => exact ⟨fun hr ho hI => hinv hr ho hI, fun x h => by simp at h⟩
    | some sf =>
      obtain ⟨s, g⟩ := sf
      simp only
      rw [hrec s (h2' s g ho2)]
      have hd' : f.overwrite = true ∨ ∀ j, k + 1 ≤ j → j < 5 → Function.update dir k out.1 j = none := by
        rcases hd with h | h
        · exact Or.inl h
        · right
          intro j hj hj5
          rw [Function.update_of_ne (by omega)]
          exact h j (by omega) hj5
      obtain ⟨g1, g2⟩ := ih (k + 1) (Function.update dir k out.1) g (by omega) hd'
      exact ⟨fun hr ho hI => g1 hr ho (hinv hr ho hI), g2⟩

/-- Stages before and including the last one with a checkpoint (number `K`): what they do to the model does not matter. -/
theorem stages_resume (t : Training V O) (save : ℕ → ℕ → Bool) (f : Flags) (hr : f.resume = true)
    (ho : f.overwrite = false) (S : Set (Model V)) (K : ℕ) (hK : K < 5) (m0 new : Model V) (hm0 : DrawnFrom S m0)
    (hnew : new ∈ S) :
    ∀ d k cur dir fuel r, k + d = K → k + r = 5 → (∀ p ∉ (classOf K).parts, cur p = new p) →
      (∀ j, K < j → j < 5 → dir j = none) → (∃ i, i ≤ t.steps K ∧ dir K = some (i, idealState t m0 K i)) →
      Inv t S (stages t save f r k cur dir fuel).1 ∧
        ∀ out, (stages t save f r k cur dir fuel).2 = .finished out →
          out = result t (fun p => if p ∈ (classOf K).parts then m0 p else new p) := by
  intro d
  induction d with
  | zero =>
    intro k cur dir fuel r hkd hkr hcur hnone ⟨i, hi, hdir⟩
    obtain rfl : k = K := by omega
    obtain ⟨r, rfl⟩ : ∃ r', r = r' + 1 := ⟨r - 1, by omega⟩
    set m : Model V := fun p => if p ∈ (classOf k).parts then m0 p else new p with hm
    have hmS : DrawnFrom S m := by
      intro p
      by_cases hp : p ∈ (classOf k).parts
      · obtain ⟨s, hs, e⟩ := hm0 p
        exact ⟨s, hs, by rw [← e, hm]; simp [hp]⟩
      · exact ⟨new, hnew, by rw [hm]; simp [hp]⟩
    have hst : ∀ j, idealState t m0 k j = idealState t m k j :=
      fun j => idealState_congr t m0 m k j fun p hp => by simp [hm, hp]
    have hrefuse : (!f.overwrite && !f.resume && (dir k).isSome) = false := by simp [hr]
    have hstart : start t f k cur dir = (i, idealState t m k i) := by
      unfold start
      rw [hdir, ho, ← hst]; rfl
    simp only [stages, hrefuse, Bool.false_eq_true, if_false, hstart]
    obtain ⟨h1, h2⟩ := fit_spec t save k (fun q => ideal t m k q.1) (t.steps k - i) i (dir k) fuel
    change ((fit t save k (t.steps k - i) i (idealState t m k i) (dir k) fuel).1 = dir k ∨ _) at h1
    have h1' : ∃ j, j ≤ t.steps k ∧ (fit t save k (t.steps k - i) i (idealState t m k i) (dir k) fuel).1 =
          some (j, idealState t m k j) := by
      rcases h1 with h1 | ⟨j, _, hj, h1⟩
      · exact ⟨i, hi, by rw [h1, hdir, hst]⟩
      · exact ⟨j, by omega, h1⟩
    have h2' : ∀ s g, (fit t save k (t.steps k - i) i (idealState t m k i) (dir k) fuel).2 = some (s, g) →
        s = idealState t m k (t.steps k) := by
      intro s g h
      have := h2 s g h
      rwa [Nat.add_sub_cancel' hi] at this
    set out := fit t save k (t.steps k - i) i (idealState t m k i) (dir k) fuel
    have hinv : Inv t S (Function.update dir k out.1) := by
      obtain ⟨j, hj, h1⟩ := h1'
      right
      refine ⟨k, hK, fun i hi hi5 => ?_, m, j, hmS, hj, ?_⟩
      · rw [Function.update_of_ne (by omega)]; exact hnone i hi hi5
      · rw [Function.update_self]; exact h1
    cases ho2 : out.2 with
    | none => exact ⟨hinv, fun x h => by simp at h⟩
    | some sf =>
      obtain ⟨s, g⟩ := sf
      simp only
      have hrec : recompose k s.1 cur = ideal t m (k + 1) := by
        funext p
        rw [recompose_apply, h2' s g ho2]
        by_cases hp : p ∈ (classOf k).parts
        · simp only [dif_pos hp, ideal]; rfl
        · rw [dif_neg hp, ideal_untouched_succ t m k p hp, hcur p hp, hm]; simp [hp]
      rw [hrec]
      obtain ⟨g1, g2⟩ := stages_fresh t save f (Or.inr hr) S m hmS r (k + 1) (Function.update dir k out.1) g (by omega)
        (Or.inr fun j hj hj5 => by rw [Function.update_of_ne (by omega)]; exact hnone j (by omega) hj5)
      exact ⟨g1 hr ho hinv, g2⟩
  | succ d ih =>
    intro k cur dir fuel r hkd hkr hcur hnone hdir
    obtain ⟨r, rfl⟩ : ∃ r', r = r' + 1 := ⟨r - 1, by omega⟩
    have hrefuse : (!f.overwrite && !f.resume && (dir k).isSome) = false := by simp [hr]
    simp only [stages, hrefuse, Bool.false_eq_true, if_false]
    set c := start t f k cur dir
    set out := fit t save k (t.steps k - c.1) c.1 c.2 (dir k) fuel
    have hn' : ∀ j, K < j → j < 5 → Function.update dir k out.1 j = none := by
      intro j hj hj5; rw [Function.update_of_ne (by omega)]; exact hnone j hj hj5
    have hd' : ∃ i, i ≤ t.steps K ∧ Function.update dir k out.1 K = some (i, idealState t m0 K i) := by
      rw [Function.update_of_ne (by omega)]; exact hdir
    cases ho2 : out.2 with
    | none =>
      refine ⟨Or.inr ⟨K, hK, hn', ?_⟩, fun x h => by simp at h⟩
      obtain ⟨i, hi, h⟩ := hd'
      exact ⟨m0, i, hm0, hi, h⟩
    | some sf =>
      obtain ⟨s, g⟩ := sf
      simp only
      refine ih (k + 1) (recompose k s.1 cur) (Function.update dir k out.1) g r (by omega) (by omega) (fun p hp => ?_) hn' hd'
      rw [recompose_apply, dif_neg fun h => hp (parts_le (by omega) h)]
      exact hcur p hp

theorem attempt_inv (t : Training V O) (f : Flags) (hr : f.resume = true) (ho : f.overwrite = false)
    (S : Set (Model V)) (new : Model V) (hnew : new ∈ S) (save : ℕ → ℕ → Bool) (fuel : ℕ) (dir : Dir V O) (hI : Inv t S dir) :
    Inv t S (attempt t f new save fuel dir).1 ∧
      ∀ out, (attempt t f new save fuel dir).2 = .finished out → ∃ m, DrawnFrom S m ∧ out = result t m := by
  rcases hI with h | ⟨K, hK, hnone, m0, i, hm0, hi, hdir⟩
  · have hn : DrawnFrom S new := fun p => ⟨new, hnew, rfl⟩
    obtain ⟨g1, g2⟩ := stages_fresh t save f (Or.inr hr) S new hn 5 0 dir fuel rfl (Or.inr fun j _ hj => h j hj)
    exact ⟨g1 hr ho (Or.inl h), fun out hout => ⟨new, hn, g2 out hout⟩⟩
  · have hmix : DrawnFrom S (fun p => if p ∈ (classOf K).parts then m0 p else new p) := by
      intro p
      by_cases hp : p ∈ (classOf K).parts
      · obtain ⟨s, hs, e⟩ := hm0 p
        exact ⟨s, hs, by simp [hp, e]⟩
      · exact ⟨new, hnew, by simp [hp]⟩
    obtain ⟨g1, g2⟩ := stages_resume t save f hr ho S K hK m0 new hm0 hnew K 0 new dir fuel 5 (by omega) rfl (fun _ _ => rfl) hnone
      ⟨i, hi, hdir⟩
    exact ⟨g1, fun out hout => ⟨_, hmix, g2 out hout⟩⟩

/-- The directories after a history of starts, each with its own random initial weights, its own saves and its own
time of death. -/
def history (t : Training V O) (f : Flags) (dir : Dir V O) (starts : List (Model V × (ℕ → ℕ → Bool) × ℕ)) : Dir V O :=
  starts.foldl (fun d a => (attempt t f a.1 a.2.1 a.2.2 d).1) dir

/-- **C103, restarts.**  With `resume_training` (and without `overwrite`), starting from empty directories: however often
and wherever the script dies and is started again, when it completes the model is the one that training without
interruption gives from initial weights, where each part has the initial weights it had in one of the starts. -/
theorem C103_resume (t : Training V O) (f : Flags) (hr : f.resume = true) (ho : f.overwrite = false)
    (starts : List (Model V × (ℕ → ℕ → Bool) × ℕ)) (new : Model V) (save : ℕ → ℕ → Bool) (fuel : ℕ) (out : Model V)
    (h : (attempt t f new save fuel (history t f (fun _ => none) starts)).2 = .finished out) :
    ∃ m, (∀ p, m p = new p ∨ ∃ s ∈ starts, m p = s.1 p) ∧ out = result t m := by
  set S : Set (Model V) := {x | x = new ∨ ∃ s ∈ starts, x = s.1} with hS
  have key : ∀ (l : List (Model V × (ℕ → ℕ → Bool) × ℕ)) dir, (∀ a ∈ l, a.1 ∈ S) → Inv t S dir →
      Inv t S (history t f dir l) := by
    intro l
    induction l with
    | nil => intro dir _ h; exact h
    | cons a l ih =>
      intro dir hl h
      exact ih _ (fun b hb => hl b (List.mem_cons_of_mem _ hb))
        (attempt_inv t f hr ho S a.1 (hl a List.mem_cons_self) a.2.1 a.2.2 dir h).1
  obtain ⟨m, hm, e⟩ := (attempt_inv t f hr ho S new (Or.inl rfl) save fuel _
    (key starts _ (fun a ha => Or.inr ⟨a, ha, rfl⟩) (Or.inl fun _ _ => rfl))).2 out h
  refine ⟨m, fun p => ?_, e⟩
  obtain ⟨x, rfl | ⟨s, hs, rfl⟩, hx⟩ := hm p
  · exact Or.inl hx
  · exact Or.inr ⟨s, hs, hx⟩

/-- The number of steps in the checkpoint of stage `k`. -/
def saved (dir : Dir V O) (k : ℕ) : ℕ := match dir k with
  | some c => c.1
  | none => 0

theorem fit_completes (t : Training V O) (save : ℕ → ℕ → Bool) (k : ℕ) :
    ∀ r i s slot fuel, r ≤ fuel → ∃ x, (fit t save k r i s slot fuel).2 = some (x, fuel - r) := by
  intro r
  induction r with
  | zero => intro i s slot fuel _; exact ⟨s, rfl⟩
  | succ r ih =>
    intro i s slot fuel h
    obtain ⟨g, rfl⟩ : ∃ g, fuel = g + 1 := ⟨fuel - 1, by omega⟩
    simp only [fit]
    obtain ⟨x, hx⟩ := ih (i + 1) (t.step k i s) (if save k i then some (i + 1, (t.step k i s).1, (t.step k i s).2) else slot)
      g (by omega)
    exact ⟨x, by rw [hx]; congr 2; omega⟩

/-- **C103, progress.**  A start with `resume_training` completes if it lives for the steps that are not in the
checkpoints: no step that was saved is done again.  With `overwrite` it completes if it lives for all steps. -/
theorem C103_completes (t : Training V O) (f : Flags) (new : Model V) (save : ℕ → ℕ → Bool) (dir : Dir V O) (fuel : ℕ) :
    (f.resume = true → f.overwrite = false →
      (t.steps 0 - saved dir 0) + (t.steps 1 - saved dir 1) + (t.steps 2 - saved dir 2) + (t.steps 3 - saved dir 3) +
        (t.steps 4 - saved dir 4) ≤ fuel → ∃ out, (attempt t f new save fuel dir).2 = .finished out) ∧
      (f.overwrite = true → t.steps 0 + t.steps 1 + t.steps 2 + t.steps 3 + t.steps 4 ≤ fuel →
        ∃ out, (attempt t f new save fuel dir).2 = .finished out) := by
  have one : ∀ (n : ℕ), (f.overwrite = true ∨ f.resume = true) → ∀ r k cur dir fuel,
      t.steps k - (start t f k cur dir).1 ≤ n → n ≤ fuel →
      ∃ cur' dir' fuel', fuel - n ≤ fuel' ∧ (∀ j, k < j → dir' j = dir j) ∧
        (stages t save f (r + 1) k cur dir fuel).2 = (stages t save f r (k + 1) cur' dir' fuel').2 := by
    intro n hf r k cur dir fuel h hn
    have hrefuse : (!f.overwrite && !f.resume && (dir k).isSome) = false := by
      rcases hf with h | h <;> simp [h]
    obtain ⟨x, hx⟩ := fit_completes t save k (t.steps k - (start t f k cur dir).1) (start t f k cur dir).1
      (start t f k cur dir).2 (dir k) fuel (by omega)
    simp only [stages, hrefuse, Bool.false_eq_true, if_false, hx]
    exact ⟨_, _, _, by omega, fun j hj => Function.update_of_ne (by omega) _ _, rfl⟩
  have hstart : f.overwrite = false → ∀ k cur (dir : Dir V O), (start t f k cur dir).1 = saved dir k := by
    intro ho k cur dir
    unfold start saved
    cases dir k <;> simp [ho]
  have all : ∀ (n : ℕ → ℕ), (f.overwrite = true ∨ f.resume = true) →
      (∀ k cur dir', (∀ j, k ≤ j → dir' j = dir j) → t.steps k - (start t f k cur dir').1 ≤ n k) →
      n 0 + n 1 + n 2 + n 3 + n 4 ≤ fuel → ∃ out, (attempt t f new save fuel dir).2 = .finished out := by
    intro n hf hs hfuel
    obtain ⟨c1, d1, f1, h1, g1, e1⟩ := one (n 0) hf 4 0 new dir fuel (hs 0 _ _ fun _ _ => rfl) (by omega)
    have q1 : ∀ j, 1 ≤ j → d1 j = dir j := fun j hj => g1 j (by omega)
    obtain ⟨c2, d2, f2, h2, g2, e2⟩ := one (n 1) hf 3 1 c1 d1 f1 (hs 1 _ _ q1) (by omega)
    have q2 : ∀ j, 2 ≤ j → d2 j = dir j := fun j hj => (g2 j (by omega)).trans (q1 j (by omega))
    obtain ⟨c3, d3, f3, h3, g3, e3⟩ := one (n 2) hf 2 2 c2 d2 f2 (hs 2 _ _ q2) (by omega)
    have q3 : ∀ j, 3 ≤ j → d3 j = dir j := fun j hj => (g3 j (by omega)).trans (q2 j (by omega))
    obtain ⟨c4, d4, f4, h4, g4, e4⟩ := one (n 3) hf 1 3 c3 d3 f3 (hs 3 _ _ q3) (by omega)
    have q4 : ∀ j, 4 ≤ j → d4 j = dir j := fun j hj => (g4 j (by omega)).trans (q3 j (by omega))
    obtain ⟨c5, d5, f5, h5, g5, e5⟩ := one (n 4) hf 0 4 c4 d4 f4 (hs 4 _ _ q4) (by omega)
    refine ⟨c5, ?_⟩
    change (stages t save f (4 + 1) 0 new dir fuel).2 = _
    rw [e1, e2, e3, e4, e5]
    rfl
  refine ⟨fun hr ho h => all (fun k => t.steps k - saved dir k) (Or.inr hr) (fun k cur d hd => ?_) h,
    fun ho h => all t.steps (Or.inl ho) (fun k cur d _ => Nat.sub_le _ _) h⟩
  rw [hstart ho]
  simp only [saved, hd k le_rfl, le_refl]

/-- **C103, overwriting.**  With `overwrite` a completed run gives the model of uninterrupted training from its own
initial weights, whatever is in the directories. -/
theorem C103_overwrite (t : Training V O) (f : Flags) (ho : f.overwrite = true) (new : Model V) (save : ℕ → ℕ → Bool)
    (fuel : ℕ) (dir : Dir V O) (out : Model V) (h : (attempt t f new save fuel dir).2 = .finished out) :
    out = result t new :=
  (stages_fresh t save f (Or.inl ho) {new} new (fun _ => ⟨new, rfl, rfl⟩) 5 0 dir fuel rfl (Or.inl ho)).2 out h

/-- **C103, refusing.**  With neither flag, no checkpoint that was there is changed, and the script does not complete if
there was one for some stage. -/
theorem C103_refuse (t : Training V O) (f : Flags) (hr : f.resume = false) (ho : f.overwrite = false) (new : Model V)
    (save : ℕ → ℕ → Bool) (fuel : ℕ) (dir : Dir V O) :
    (∀ k c, dir k = some c → (attempt t f new save fuel dir).1 k = some c) ∧
      ((∃ k < 5, (dir k).isSome = true) → ∀ out, (attempt t f new save fuel dir).2 ≠ .finished out) := by
  have key : ∀ r k cur dir fuel, (∀ j c, dir j = some c → (stages t save f r k cur dir fuel).1 j = some c) ∧
      ((∃ j, k ≤ j ∧ j < k + r ∧ (dir j).isSome = true) → ∀ out, (stages t save f r k cur dir fuel).2 ≠ .finished out) := by
    intro r
    induction r with
    | zero => intro k cur dir fuel; exact ⟨fun j c h => h, fun ⟨j, h1, h2, _⟩ => by omega⟩
    | succ r ih =>
      intro k cur dir fuel
      by_cases hd : (dir k).isSome = true
      · have : (!f.overwrite && !f.resume && (dir k).isSome) = true := by simp [hr, ho, hd]
        simp only [stages, this, if_true]
        exact ⟨fun j c h => h, fun _ out h => by simp at h⟩
      · have : (!f.overwrite && !f.resume && (dir k).isSome) = false := by simp [hd]
        simp only [stages, this, Bool.false_eq_true, if_false]
        set c0 := start t f k cur dir
        set o := fit t save k (t.steps k - c0.1) c0.1 c0.2 (dir k) fuel
        have hne : ∀ j, (dir j).isSome = true → j ≠ k := fun j hj e => hd (e ▸ hj)
        have hu : ∀ j, (dir j).isSome = true → Function.update dir k o.1 j = dir j :=
          fun j hj => Function.update_of_ne (hne j hj) _ _
        cases ho2 : o.2 with
        | none =>
          refine ⟨fun j c h => ?_, fun _ out h => by simp at h⟩
          simp only
          rw [hu j (by rw [h]; rfl)]; exact h
        | some sf =>
          obtain ⟨s, g⟩ := sf
          simp only
          obtain ⟨h1, h2⟩ := ih (k + 1) (recompose k s.1 cur) (Function.update dir k o.1) g
          refine ⟨fun j c h => h1 j c (by rw [hu j (by rw [h]; rfl)]; exact h), fun ⟨j, hj1, hj2, hj3⟩ => ?_⟩
          have := hne j hj3
          exact h2 ⟨j, by omega, by omega, by rw [hu j hj3]; exact hj3⟩
  obtain ⟨h1, h2⟩ := key 5 0 new dir fuel
  exact ⟨h1, fun ⟨k, hk, hs⟩ => h2 ⟨k, by omega, by omega, hs⟩⟩

/-- An example: weights are lists of the steps that changed them; a run that dies in the second stage, and a second
start (with other initial weights) that completes. -/
def exTraining : Training (List ℕ) Unit := ⟨fun _ => 2, fun _ => (), fun k i s => (fun p => s.1 p ++ [10 * k + i], ())⟩

example : (match (attempt exTraining ⟨false, true⟩ (fun _ => [700]) (fun _ _ => true) 100
      (history exTraining ⟨false, true⟩ (fun _ => none) [(fun _ => [500], fun _ _ => true, 3)])).2 with
    | .finished m => (m .motionEncoder, m .residualDecoder)
    | _ => ([], [])) = ([500, 10, 11, 20, 21, 30, 31, 40, 41], [700, 30, 31, 40, 41]) := by
  decide +kernel

/-! ### Images in the log -/

theorem catX_px {α : Type} [Inhabited α] (w : ℕ) : ∀ (l : List (Img α)), (∀ a ∈ l, a.w = w) →
    ∀ t (ht : t < l.length) c y x, x < w → (catX l).px c y (t * w + x) = l[t].px c y x := by
  intro l
  induction l with
  | nil => intro _ t ht; simp at ht
  | cons a l ih =>
    intro hw t ht c y x hx
    have ha : a.w = w := hw a List.mem_cons_self
    cases t with
    | zero => simp [catX, ha, hx]
    | succ t =>
      have h1 : ¬ (t + 1) * w + x < a.w := by
        rw [ha, Nat.succ_mul]; omega
      have h2 : (t + 1) * w + x - a.w = t * w + x := by
        rw [ha, Nat.succ_mul]; omega
      simp only [catX, if_neg h1, h2]
      rw [ih (fun b hb => hw b (List.mem_cons_of_mem _ hb)) t (by simpa using ht) c y x hx]
      rfl

theorem catY_px {α : Type} [Inhabited α] (h : ℕ) : ∀ (l : List (Img α)), (∀ a ∈ l, a.h = h) →
    ∀ t (ht : t < l.length) c y x, y < h → (catY l).px c (t * h + y) x = l[t].px c y x := by
  intro l
  induction l with
  | nil => intro _ t ht; simp at ht
  | cons a l ih =>
    intro hw t ht c y x hx
    have ha : a.h = h := hw a List.mem_cons_self
    cases t with
    | zero => simp [catY, ha, hx]
    | succ t =>
      have h1 : ¬ (t + 1) * h + y < a.h := by
        rw [ha, Nat.succ_mul]; omega
      have h2 : (t + 1) * h + y - a.h = t * h + y := by
        rw [ha, Nat.succ_mul]; omega
      simp only [catY, if_neg h1, h2]
      rw [ih (fun b hb => hw b (List.mem_cons_of_mem _ hb)) t (by simpa using ht) c y x hx]
      rfl

theorem catX_size {α : Type} [Inhabited α] (h w : ℕ) : ∀ (l : List (Img α)), (∀ a ∈ l, a.h = h ∧ a.w = w) → l ≠ [] →
    (catX l).h = h ∧ (catX l).w = l.length * w := by
  intro l hl hne
  constructor
  · cases l with
    | nil => exact absurd rfl hne
    | cons a l => exact (hl a List.mem_cons_self).1
  · clear hne
    induction l with
    | nil => simp [catX]
    | cons a l ih =>
      simp only [catX, List.length_cons, Nat.succ_mul]
      rw [ih fun b hb => hl b (List.mem_cons_of_mem _ hb), (hl a List.mem_cons_self).2, Nat.add_comm]

theorem catY_size {α : Type} [Inhabited α] (h w : ℕ) : ∀ (l : List (Img α)), (∀ a ∈ l, a.h = h ∧ a.w = w) → l ≠ [] →
    (catY l).w = w ∧ (catY l).h = l.length * h := by
  intro l hl hne
  constructor
  · cases l with
    | nil => exact absurd rfl hne
    | cons a l => exact (hl a List.mem_cons_self).2
  · clear hne
    induction l with
    | nil => simp [catY]
    | cons a l ih =>
      simp only [catY, List.length_cons, Nat.succ_mul]
      rw [ih fun b hb => hl b (List.mem_cons_of_mem _ hb), (hl a List.mem_cons_self).1, Nat.add_comm]

/-- **C103, the mosaic.**  For images of equal size, clips go from top to bottom and time from left to right: the pixel
`(y, x)` of clip `b` at time `t` is at row `b * h + y` and column `t * w + x`, and the mosaic has room for exactly these. -/
theorem C103_mosaic {α : Type} [Inhabited α] (n h w : ℕ) (times : List (ℕ → Img α)) (hn : 0 < n) (ht : times ≠ [])
    (hs : ∀ f ∈ times, ∀ b < n, (f b).h = h ∧ (f b).w = w) :
    (mosaic n times).h = n * h ∧ (mosaic n times).w = times.length * w ∧
      ∀ (t : ℕ) (htl : t < times.length) (b : ℕ), b < n → ∀ c y x, y < h → x < w →
        (mosaic n times).px c (b * h + y) (t * w + x) = (times[t] b).px c y x := by
  have hrow : ∀ b < n, (catX (times.map fun f => f b)).h = h ∧ (catX (times.map fun f => f b)).w = times.length * w := by
    intro b hb
    have := catX_size h w (times.map fun f => f b) (by
      intro a ha
      obtain ⟨f, hf, rfl⟩ := List.mem_map.1 ha
      exact hs f hf b hb) (by simpa using ht)
    simpa using this
  have hrows : ∀ a ∈ (List.range n).map fun i => catX (times.map fun f => f i), a.h = h ∧ a.w = times.length * w := by
    intro a ha
    obtain ⟨b, hb, rfl⟩ := List.mem_map.1 ha
    exact hrow b (List.mem_range.1 hb)
  have hsz := catY_size h (times.length * w) ((List.range n).map fun i => catX (times.map fun f => f i)) hrows
    (by simp; omega)
  refine ⟨by simpa [mosaic] using hsz.2, by simpa [mosaic] using hsz.1, ?_⟩
  intro t htl b hb c y x hy hx
  unfold mosaic
  rw [catY_px h _ (fun a ha => (hrows a ha).1) b (by simpa using hb) c y _ hy]
  simp only [List.getElem_map, List.getElem_range]
  rw [catX_px w _ (by
    intro a ha
    obtain ⟨f, hf, rfl⟩ := List.mem_map.1 ha
    exact (hs f hf b hb).2) t (by simpa using htl) c y x hx]
  simp

/-- **C103, the lists of images.**  Each kind of image goes to the list of its own key, in the order of the frames; kinds
that are missing leave their list alone. -/
theorem C103_append {I : Type} (d : String → List I) (flow image1 image2 est : Option I) :
    (appendImages d [flow, image1, image2, est]) "flow" = d "flow" ++ flow.toList ∧
      (appendImages d [flow, image1, image2, est]) "image1" = d "image1" ++ image1.toList ∧
      (appendImages d [flow, image1, image2, est]) "image2" = d "image2" ++ image2.toList ∧
      (appendImages d [flow, image1, image2, est]) "image2_est" = d "image2_est" ++ est.toList := by
  cases flow <;> cases image1 <;> cases image2 <;> cases est <;> simp [appendImages]

/-- **C103, the logged I-frame (the part that holds).**  If the module is on another device (or has another type) than the
images kept for logging, every validation logs the compressed first frame. -/
theorem C103_log_partial {I : Type} (iframe : I → I) (n : ℕ) (own : I) :
    validations iframe false n own = (List.replicate n (iframe own), own) := by
  induction n with
  | zero => rfl
  | succ n ih =>
    have : (validationEnd iframe false own).1 = own := rfl
    simp only [validations, this, ih, List.replicate_succ]
    rfl

/-- **C103 fails for the logged I-frame.**  If they are on the same device, the validation number `i` (from 0) logs the
first frame compressed `i + 1` times: the images kept for logging are overwritten. -/
theorem C103_violated_log {I : Type} (iframe : I → I) (n : ℕ) (own : I) :
    (validations iframe true n own).1 = (List.range n).map (fun i => iframe^[i + 1] own) ∧
      (validations iframe true n own).2 = iframe^[n] own := by
  induction n generalizing own with
  | zero => exact ⟨rfl, rfl⟩
  | succ n ih =>
    have h : (validationEnd iframe true own).1 = iframe own := rfl
    simp only [validations, h]
    obtain ⟨h1, h2⟩ := ih (iframe own)
    refine ⟨?_, ?_⟩
    · rw [h1, List.range_succ_eq_map, List.map_cons, List.map_map]
      rfl
    · rw [h2]; rfl

example : (validations (fun x => x / 2) true 3 40).1 = [20, 10, 5] := by decide

end Verif.Train.Stages
