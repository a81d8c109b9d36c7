import Verif.Script.TrainResume
import Verif.Script.PropsResume

/-!
C104: restarting the training of a diffusion model.
-/

namespace Verif.Script.TrainResume

open Verif.Script.Resume (resumeStep resumeStep_eq File Newest put put_same put_other put_some)

variable {W O ι : Type} [DecidableEq ι] {c : Cfg W O ι}

theorem key_eq (n : ℕ) : key n = ((n % 1000000 : ℕ) : ℤ) := by
  unfold key
  rw [resumeStep_eq, if_pos (by omega)]
  omega

theorem resumeOf_eq (n : ℕ) : resumeOf n = n % 1000000 := by
  unfold resumeOf
  rw [key_eq, Int.toNat_natCast]

/-! ### The weights -/

/-- Every model file that can be read has the weights of a state that was saved; and a process that saves, saves a
state of the list. -/
def Weights (w : World W O ι) : Prop :=
  (∀ k x, w.dir.model k = some (.full x) → ∃ s ∈ w.saved, s.w = x) ∧
    ∀ s m r l, w.proc = .saving s m r l → s ∈ w.saved

theorem write_model (d : Dir W O ι) (s : St W O ι) (n : ℕ) (x : Slot ι) (k : ℕ) (y : W)
    (h : (write d s n x).model k = some (.full y)) : y = s.w ∨ d.model k = some (.full y) := by
  cases x with
  | model =>
    simp only [write, put] at h
    split_ifs at h
    · left; simpa using h.symm
    · exact Or.inr h
  | ema i => exact Or.inr h
  | opt => exact Or.inr h

theorem tear_model (d : Dir W O ι) (n : ℕ) (x : Slot ι) (k : ℕ) (y : W)
    (h : (tear d n x).model k = some (.full y)) : d.model k = some (.full y) := by
  cases x with
  | model =>
    simp only [tear, put] at h
    split_ifs at h
    · simp at h
    · exact h
  | ema i => exact h
  | opt => exact h

theorem weights_step {calm : Prop} {w w' : World W O ι} (h : Weights w) (hs : Step c calm w w') : Weights w' := by
  obtain ⟨h1, h2⟩ := h
  cases hs with
  | start _ hs => cases hs <;> exact ⟨h1, fun _ _ _ _ hp => by simp at hp⟩
  | run hr =>
    cases hr with
    | update => exact ⟨h1, fun _ _ _ _ hp => by simp at hp⟩
    | updateSave d s s' m r hh =>
      refine ⟨fun k x hk => ?_, fun _ _ _ _ hp => ?_⟩
      · obtain ⟨t, ht, e⟩ := h1 k x hk
        exact ⟨t, List.mem_cons_of_mem _ ht, e⟩
      · simp only [Proc.saving.injEq] at hp
        rw [← hp.1]; exact List.mem_cons_self
    | write d s m r hh x l =>
      have hmem := h2 s m r (x :: l) rfl
      refine ⟨fun k y hk => ?_, fun _ _ _ _ hp => ?_⟩
      · rcases write_model d s (r + m) x k y hk with e | e
        · exact ⟨s, hmem, e.symm⟩
        · exact h1 k y e
      · simp only [Proc.saving.injEq] at hp
        rw [← hp.1]; exact hmem
    | saved => exact ⟨h1, fun _ _ _ _ hp => by simp at hp⟩
  | crash _ hc =>
    cases hc with
    | lost => exact ⟨h1, fun _ _ _ _ hp => by simp at hp⟩
    | torn d s m r hh x l =>
      exact ⟨fun k y hk => h1 k y (tear_model d (r + m) x k y hk), fun _ _ _ _ hp => by simp at hp⟩

theorem weights_reachable {calm : Prop} {w : World W O ι} (h : Reachable c calm w) : Weights w := by
  induction h with
  | refl => exact ⟨fun k x hk => by simp [empty] at hk, fun _ _ _ _ hp => by simp [empty] at hp⟩
  | tail _ hs ih => exact weights_step ih hs

/-- **C104, weights.**  After any history of starts and deaths, a start that loads a checkpoint continues with the weights
of one of the states that were saved. -/
theorem C104_weights {calm : Prop} (w : World W O ι) (h : Reachable c calm w) (d : Dir W O ι) (s : St W O ι) (m : ℕ)
    (hist : List (St W O ι)) (hex : c.explicit = none) (hne : ∃ k, w.dir.model k ≠ none)
    (hs : Start c w ⟨d, .training s m 0, hist⟩) : ∃ t ∈ w.saved, s.w = t.w := by
  have hw := weights_reachable h
  cases hs with
  | explicit _ _ he => rw [hex] at he; simp at he
  | fresh x _ hn =>
    obtain ⟨k, hk⟩ := hne
    exact absurd (hn k) hk
  | load k x _ _ hn hk hl =>
    obtain ⟨t, ht, e⟩ := hw.1 k x hk
    exact ⟨t, ht, by rw [hl.1, e]⟩

/-! ### Averages and optimizer, with deaths at any time -/

/-- The same as `Weights` for averages and optimizers. -/
def Others (w : World W O ι) : Prop :=
  (∀ i k x, w.dir.ema i k = some (.full x) → ∃ s ∈ w.saved, s.ema i = x) ∧
    (∀ k x, w.dir.opt k = some (.full x) → ∃ s ∈ w.saved, s.opt = x) ∧
    ∀ s m r l, w.proc = .saving s m r l → s ∈ w.saved

theorem others_step {calm : Prop} {w w' : World W O ι} (h : Others w) (hs : Step c calm w w') : Others w' := by
  obtain ⟨h1, h3, h2⟩ := h
  cases hs with
  | start _ hs => cases hs <;> exact ⟨h1, h3, fun _ _ _ _ hp => by simp at hp⟩
  | run hr =>
    cases hr with
    | update => exact ⟨h1, h3, fun _ _ _ _ hp => by simp at hp⟩
    | updateSave d s s' m r hh =>
      refine ⟨fun i k x hk => ?_, fun k x hk => ?_, fun _ _ _ _ hp => ?_⟩
      · obtain ⟨t, ht, e⟩ := h1 i k x hk
        exact ⟨t, List.mem_cons_of_mem _ ht, e⟩
      · obtain ⟨t, ht, e⟩ := h3 k x hk
        exact ⟨t, List.mem_cons_of_mem _ ht, e⟩
      · simp only [Proc.saving.injEq] at hp
        rw [← hp.1]; exact List.mem_cons_self
    | write d s m r hh x l =>
      have hmem := h2 s m r (x :: l) rfl
      refine ⟨fun i k y hk => ?_, fun k y hk => ?_, fun _ _ _ _ hp => ?_⟩
      · cases x with
        | model => exact h1 i k y hk
        | opt => exact h1 i k y hk
        | ema i' =>
          simp only [write] at hk
          by_cases e : i = i'
          · subst e
            simp only [if_true, put] at hk
            split_ifs at hk
            · exact ⟨s, hmem, by simpa using hk⟩
            · exact h1 i k y hk
          · rw [if_neg e] at hk
            exact h1 i k y hk
      · cases x with
        | model => exact h3 k y hk
        | ema i' => exact h3 k y hk
        | opt =>
          simp only [write, put] at hk
          split_ifs at hk
          · exact ⟨s, hmem, by simpa using hk⟩
          · exact h3 k y hk
      · simp only [Proc.saving.injEq] at hp
        rw [← hp.1]; exact hmem
    | saved => exact ⟨h1, h3, fun _ _ _ _ hp => by simp at hp⟩
  | crash _ hc =>
    cases hc with
    | lost => exact ⟨h1, h3, fun _ _ _ _ hp => by simp at hp⟩
    | torn d s m r hh x l =>
      refine ⟨fun i k y hk => ?_, fun k y hk => ?_, fun _ _ _ _ hp => by simp at hp⟩
      · cases x with
        | model => exact h1 i k y hk
        | opt => exact h1 i k y hk
        | ema i' =>
          simp only [tear] at hk
          by_cases e : i = i'
          · subst e
            simp only [if_true, put] at hk
            split_ifs at hk
            · simp at hk
            · exact h1 i k y hk
          · rw [if_neg e] at hk
            exact h1 i k y hk
      · cases x with
        | model => exact h3 k y hk
        | ema i' => exact h3 k y hk
        | opt =>
          simp only [tear, put] at hk
          split_ifs at hk
          · simp at hk
          · exact h3 k y hk

theorem others_reachable {calm : Prop} {w : World W O ι} (h : Reachable c calm w) : Others w := by
  induction h with
  | refl => exact ⟨fun i k x hk => by simp [empty] at hk, fun k x hk => by simp [empty] at hk, fun _ _ _ _ hp => by simp [empty] at hp⟩
  | tail _ hs ih => exact others_step ih hs

/-- **C104, averages and optimizer.**  After any history of starts and deaths, also in the middle of a file, every average
that a start continues with is that of a state that was saved or a copy of the weights it continues with, and the optimizer is that
of a state that was saved or new. -/
theorem C104_others {calm : Prop} (w : World W O ι) (h : Reachable c calm w) (d : Dir W O ι) (s : St W O ι) (m : ℕ)
    (hist : List (St W O ι)) (hex : c.explicit = none) (hs : Start c w ⟨d, .training s m 0, hist⟩) :
    (∀ i, (∃ t ∈ w.saved, s.ema i = t.ema i) ∨ s.ema i = s.w) ∧ ((∃ t ∈ w.saved, s.opt = t.opt) ∨ s.opt = c.opt₀) := by
  obtain ⟨h1, h3, -⟩ := others_reachable h
  cases hs with
  | explicit _ _ he => rw [hex] at he; simp at he
  | fresh x _ hn => exact ⟨fun i => Or.inr rfl, Or.inr rfl⟩
  | load k x _ _ hn hk hl =>
    obtain ⟨e, hl⟩ := hl
    split_ifs at hl with h0
    · exact ⟨fun i => Or.inr (by rw [hl.2 i, e]), Or.inr hl.1⟩
    · refine ⟨fun i => ?_, ?_⟩
      · have := hl.2 i
        rcases hf : w.dir.ema i (resumeOf k) with _ | _ | y
        · rw [hf] at this
          simp only [readOr, Option.some.injEq] at this
          exact Or.inr (by rw [e, this])
        · rw [hf] at this; simp [readOr] at this
        · rw [hf] at this
          simp only [readOr, Option.some.injEq] at this
          obtain ⟨t, ht, et⟩ := h1 i _ y hf
          exact Or.inl ⟨t, ht, by rw [et, this]⟩
      · have := hl.1
        rcases hf : w.dir.opt (resumeOf k) with _ | _ | y
        · rw [hf] at this
          simp only [readOr, Option.some.injEq] at this
          exact Or.inr this.symm
        · rw [hf] at this; simp [readOr] at this
        · rw [hf] at this
          simp only [readOr, Option.some.injEq] at this
          obtain ⟨t, ht, et⟩ := h3 _ y hf
          exact Or.inl ⟨t, ht, by rw [et, this]⟩

/-- **C104, what a death destroys.**  At most one file: the weights, one average or the optimizer of one number.  All
other files, also the averages with other rates, are as before. -/
theorem C104_crash {w w' : World W O ι} (h : Crash w w') : w'.proc = .idle ∧ w'.saved = w.saved ∧ ∃ (x : Slot ι) (n : ℕ),
    (∀ k, x = .model ∧ k = n ∧ w'.dir.model k = some .torn ∨ w'.dir.model k = w.dir.model k) ∧
    (∀ i k, x = .ema i ∧ k = n ∧ w'.dir.ema i k = some .torn ∨ w'.dir.ema i k = w.dir.ema i k) ∧
    ∀ k, x = .opt ∧ k = n ∧ w'.dir.opt k = some .torn ∨ w'.dir.opt k = w.dir.opt k := by
  cases h with
  | lost => exact ⟨rfl, rfl, .model, 0, fun _ => Or.inr rfl, fun _ _ => Or.inr rfl, fun _ => Or.inr rfl⟩
  | torn d s m r h x l =>
    refine ⟨rfl, rfl, x, r + m, fun k => ?_, fun i k => ?_, fun k => ?_⟩
    · cases x with
      | model =>
        by_cases e : k = r + m
        · exact Or.inl ⟨rfl, e, by simp [tear, put, e]⟩
        · exact Or.inr (by simp [tear, put, e])
      | ema i => exact Or.inr rfl
      | opt => exact Or.inr rfl
    · cases x with
      | model => exact Or.inr rfl
      | opt => exact Or.inr rfl
      | ema i' =>
        by_cases e : i = i'
        · subst e
          by_cases e : k = r + m
          · exact Or.inl ⟨rfl, e, by simp [tear, put, e]⟩
          · exact Or.inr (by simp [tear, put, e])
        · exact Or.inr (by simp [tear, e])
    · cases x with
      | model => exact Or.inr rfl
      | ema i => exact Or.inr rfl
      | opt =>
        by_cases e : k = r + m
        · exact Or.inl ⟨rfl, e, by simp [tear, put, e]⟩
        · exact Or.inr (by simp [tear, put, e])

/-! ### Histories without deaths while files are being written -/

/-- The files of number `k`: none, or all files of a saved state. -/
def Whole (c : Cfg W O ι) (d : Dir W O ι) (hist : List (St W O ι)) (k : ℕ) : Prop :=
  d.model k = none ∨ ∃ s ∈ hist, d.model k = some (.full s.w) ∧ (∀ i ∈ c.rates, d.ema i k = some (.full (s.ema i))) ∧
    d.opt k = some (.full s.opt)

/-- The file of a slot is that of the state. -/
def Written (d : Dir W O ι) (s : St W O ι) (n : ℕ) : Slot ι → Prop
  | .model => d.model n = some (.full s.w)
  | .ema i => d.ema i n = some (.full (s.ema i))
  | .opt => d.opt n = some (.full s.opt)

theorem written_write (d : Dir W O ι) (s : St W O ι) (n : ℕ) (x : Slot ι) : Written (write d s n x) s n x := by
  cases x <;> simp [Written, write, put]

theorem written_keep (d : Dir W O ι) (s : St W O ι) (n : ℕ) (x y : Slot ι) (h : Written d s n y) :
    Written (write d s n x) s n y := by
  cases x <;> cases y <;> simp only [Written, write, put] at h ⊢
  all_goals first
    | exact h
    | (simp; done)
    | skip
  rename_i i j
  by_cases e : j = i
  · subst e; simp [put]
  · rw [if_neg e]; exact h

theorem whole_write {d : Dir W O ι} {hist : List (St W O ι)} {k n : ℕ} (s : St W O ι) (x : Slot ι) (hk : k ≠ n)
    (h : Whole c d hist k) : Whole c (write d s n x) hist k := by
  cases x with
  | model =>
    simpa only [Whole, write, put, if_neg hk] using h
  | ema i =>
    rcases h with h | ⟨t, ht, h1, h2, h3⟩
    · exact Or.inl h
    · refine Or.inr ⟨t, ht, h1, fun j hj => ?_, h3⟩
      simp only [write]
      by_cases e : j = i
      · rw [if_pos e, put_other _ _ hk]; exact h2 j hj
      · rw [if_neg e]; exact h2 j hj
  | opt =>
    simpa only [Whole, write, put, if_neg hk] using h

/-- The invariant without deaths while files are being written. -/
def Calm (c : Cfg W O ι) (w : World W O ι) : Prop :=
  match w.proc with
  | .saving s m r l => s ∈ w.saved ∧ (∀ k, k ≠ r + m → Whole c w.dir w.saved k) ∧
      ∃ a, c.slots = a ++ l ∧ ∀ x ∈ a, Written w.dir s (r + m) x
  | _ => ∀ k, Whole c w.dir w.saved k

omit [DecidableEq ι] in
theorem whole_mono {d : Dir W O ι} {hist : List (St W O ι)} {k : ℕ} (s : St W O ι) (h : Whole c d hist k) :
    Whole c d (s :: hist) k := by
  rcases h with h | ⟨t, ht, h⟩
  · exact Or.inl h
  · exact Or.inr ⟨t, List.mem_cons_of_mem _ ht, h⟩

theorem calm_step {w w' : World W O ι} (h : Calm c w) (hs : Step c True w w') : Calm c w' := by
  cases hs with
  | start hst hs =>
    have hall : ∀ k, Whole c w.dir w.saved k := by
      rcases hst with e | e <;> simpa only [Calm, e] using h
    cases hs <;> exact hall
  | run hr =>
    cases hr with
    | update => exact h
    | updateSave d s s' m r hh =>
      exact ⟨List.mem_cons_self, fun k _ => whole_mono s' (h k), [], rfl, by simp⟩
    | write d s m r hh x l =>
      obtain ⟨h1, h2, a, ha, h3⟩ := h
      refine ⟨h1, fun k hk => whole_write s x hk (h2 k hk), a ++ [x], by rw [ha]; simp, fun y hy => ?_⟩
      rw [List.mem_append, List.mem_singleton] at hy
      rcases hy with hy | rfl
      · exact written_keep _ _ _ _ _ (h3 y hy)
      · exact written_write _ _ _ _
    | saved d s m r hh =>
      obtain ⟨h1, h2, a, ha, h3⟩ := h
      intro k
      by_cases hk : k = r + m
      · subst hk
        rw [List.append_nil] at ha
        have hm : ∀ x ∈ c.slots, Written d s (r + m) x := fun x hx => h3 x (ha ▸ hx)
        refine Or.inr ⟨s, h1, hm .model (by simp [Cfg.slots]), fun i hi => hm (.ema i) (by simp [Cfg.slots, hi]),
          hm .opt (by simp [Cfg.slots])⟩
      · exact h2 k hk
  | crash hc hcr =>
    cases hcr with
    | lost =>
      unfold Calm at h ⊢
      simp only
      cases hp : w.proc with
      | saving s m r l => exact absurd hp (hc trivial s m r l)
      | idle => simpa only [hp] using h
      | failed => simpa only [hp] using h
      | training => simpa only [hp] using h
    | torn d s m r hh x l => exact absurd rfl (hc trivial s m r (x :: l))

theorem calm_reachable {w : World W O ι} (h : Reachable c True w) : Calm c w := by
  induction h with
  | refl => exact fun k => Or.inl rfl
  | tail _ hs ih => exact calm_step ih hs

/-- **C104, the whole state (the part that holds).**  If no process died while files were being written and all numbers of
files are below a million, a start that continues from a number other than 0 continues with weights, averages and
optimizer of one state that was saved, and no file has a greater number. -/
theorem C104_state_partial (w : World W O ι) (h : Reachable c True w) (hst : Stopped w) (d : Dir W O ι) (s : St W O ι)
    (m : ℕ) (hist : List (St W O ι)) (hex : c.explicit = none) (hall : ∀ i, i ∈ c.rates)
    (hsmall : ∀ k, w.dir.model k ≠ none → k < 1000000) (hm : m ≠ 0) (hs : Start c w ⟨d, .training s m 0, hist⟩) :
    s ∈ w.saved ∧ w.dir.model m = some (.full s.w) ∧ ∀ k, w.dir.model k ≠ none → k ≤ m := by
  have hw : ∀ k, Whole c w.dir w.saved k := by
    have := calm_reachable h
    rcases hst with e | e <;> simpa only [Calm, e] using this
  cases hs with
  | explicit _ _ he => rw [hex] at he; simp at he
  | fresh => exact absurd rfl hm
  | load k x _ _ hn hk hl =>
    have hk6 : k < 1000000 := hsmall k (by rw [hk]; simp)
    have hr : resumeOf k = k := by rw [resumeOf_eq, Nat.mod_eq_of_lt hk6]
    have hmax : ∀ j, w.dir.model j ≠ none → j ≤ k := by
      intro j hj
      have := hn.2 j (Option.isSome_iff_ne_none.2 hj)
      rw [key_eq, key_eq, Nat.mod_eq_of_lt hk6, Nat.mod_eq_of_lt (hsmall j hj)] at this
      exact_mod_cast this
    rw [hr] at hl hm ⊢
    obtain ⟨hl1, hl2⟩ := hl
    rw [if_neg hm] at hl2
    refine ⟨?_, by rw [hl1]; exact hk, hmax⟩
    rcases hw k with hn | ⟨t, ht, h1, h2, h3⟩
    · rw [hk] at hn; simp at hn
    · have e : s = t := by
        rw [hk] at h1
        obtain ⟨sw, se, so⟩ := s
        obtain ⟨tw, te, tp⟩ := t
        simp only [Option.some.injEq, File.full.injEq] at h1
        simp only at hl1 hl2 h1 h2 h3
        have ho := hl2.1
        rw [h3] at ho
        simp only [readOr, Option.some.injEq] at ho
        have he : te = se := by
          funext i
          have := hl2.2 i
          rw [h2 i (hall i)] at this
          simpa only [readOr, Option.some.injEq] using this
        rw [hl1, h1, he, ho]
      rw [e]; exact ht

/-! ### Lost work -/

theorem model_keeps {calm : Prop} {w w' : World W O ι} (hs : Step c calm w w') (k : ℕ) (h : w.dir.model k ≠ none) :
    w'.dir.model k ≠ none := by
  cases hs with
  | start _ hs => cases hs <;> exact h
  | run hr =>
    cases hr with
    | update => exact h
    | updateSave => exact h
    | saved => exact h
    | write d s m r hh x l =>
      cases x with
      | model =>
        simp only [write, put]
        split_ifs
        · simp
        · exact h
      | ema i => exact h
      | opt => exact h
  | crash _ hc =>
    cases hc with
    | lost => exact h
    | torn d s m r hh x l =>
      cases x with
      | model =>
        simp only [tear, put]
        split_ifs
        · simp
        · exact h
      | ema i => exact h
      | opt => exact h

/-- The number of the last file that a process with `r` completed iterations wrote. -/
def lastOf (c : Cfg W O ι) (m r : ℕ) : ℕ := m + (r - 1) / c.S * c.S

/-- No file is newer than those of the running process, and its last file is there. -/
def Latest (c : Cfg W O ι) (w : World W O ι) : Prop :=
  match w.proc with
  | .training _ m r => (∀ k, w.dir.model k ≠ none → k ≤ lastOf c m r) ∧ (0 < r → w.dir.model (lastOf c m r) ≠ none)
  | .saving _ m r l => (∀ k, w.dir.model k ≠ none → k ≤ m + r) ∧ r % c.S = 0 ∧
      (w.dir.model (m + r) ≠ none ∨ ∃ l', l = .model :: l')
  | _ => True

theorem lastOf_succ (m r : ℕ) (h : r % c.S = 0) : lastOf c m (r + 1) = m + r := by
  unfold lastOf
  rw [Nat.add_sub_cancel, Nat.div_mul_cancel (Nat.dvd_of_mod_eq_zero h)]

theorem lastOf_same (m r : ℕ) (h : r % c.S ≠ 0) : lastOf c m (r + 1) = lastOf c m r := by
  unfold lastOf
  rw [Nat.add_sub_cancel]
  rcases Nat.eq_zero_or_pos c.S with h0 | hS
  · rw [h0]; simp
  have hr : 0 < r := by
    rcases Nat.eq_zero_or_pos r with e | e
    · rw [e] at h; simp at h
    · exact e
  obtain ⟨q, rfl⟩ : ∃ q, r = q + 1 := ⟨r - 1, by omega⟩
  rw [Nat.add_sub_cancel, Nat.succ_div_of_not_dvd fun hd => h (Nat.mod_eq_zero_of_dvd hd)]

theorem lastOf_le (m r : ℕ) (h : r % c.S = 0) : lastOf c m r ≤ m + r := by
  unfold lastOf
  have := Nat.div_mul_le_self (r - 1) c.S
  omega

theorem latest_step {calm : Prop} {w w' : World W O ι} (hex : c.explicit = none)
    (hsmall : ∀ k, w.dir.model k ≠ none → k < 1000000) (h : Latest c w) (hs : Step c calm w w') : Latest c w' := by
  cases hs with
  | start _ hs =>
    cases hs with
    | explicit m s he => rw [hex] at he; simp at he
    | fresh x _ hn =>
      exact ⟨fun k hk => absurd (hn k) hk, fun h0 => absurd h0 (lt_irrefl 0)⟩
    | load k x s _ hn hk hl =>
      have hk6 : k < 1000000 := hsmall k (by rw [hk]; simp)
      refine ⟨fun j hj => ?_, fun h0 => absurd h0 (lt_irrefl 0)⟩
      have := hn.2 j (Option.isSome_iff_ne_none.2 hj)
      rw [key_eq, key_eq, Nat.mod_eq_of_lt hk6, Nat.mod_eq_of_lt (hsmall j hj)] at this
      rw [lastOf, resumeOf_eq, Nat.mod_eq_of_lt hk6]
      have : j ≤ k := by exact_mod_cast this
      omega
    | bad => trivial
  | run hr =>
    cases hr with
    | update d s s' m r hh _ hr =>
      obtain ⟨h1, h2⟩ := h
      have hr0 : 0 < r := by
        rcases Nat.eq_zero_or_pos r with e | e
        · rw [e] at hr; simp at hr
        · exact e
      refine ⟨fun k hk => ?_, fun _ => ?_⟩
      · rw [lastOf_same m r hr]; exact h1 k hk
      · rw [lastOf_same m r hr]; exact h2 hr0
    | updateSave d s s' m r hh _ hr =>
      exact ⟨fun k hk => (h.1 k hk).trans (lastOf_le m r hr), hr, Or.inr ⟨_, rfl⟩⟩
    | write d s m r hh x l =>
      obtain ⟨h1, h2, h3⟩ := h
      cases x with
      | model =>
        refine ⟨fun k hk => ?_, h2, Or.inl ?_⟩
        · simp only [write, put] at hk
          split_ifs at hk with e
          · omega
          · exact h1 k hk
        · simp [write, put, Nat.add_comm]
      | ema i =>
        refine ⟨h1, h2, Or.inl ?_⟩
        rcases h3 with h3 | ⟨l', h3⟩
        · exact h3
        · simp at h3
      | opt =>
        refine ⟨h1, h2, Or.inl ?_⟩
        rcases h3 with h3 | ⟨l', h3⟩
        · exact h3
        · simp at h3
    | saved d s m r hh =>
      obtain ⟨h1, h2, h3⟩ := h
      have h3' : d.model (m + r) ≠ none := by
        rcases h3 with h3 | ⟨l', h3⟩
        · exact h3
        · simp at h3
      exact ⟨fun k hk => by rw [lastOf_succ m r h2]; exact h1 k hk, fun _ => by rw [lastOf_succ m r h2]; exact h3'⟩
  | crash _ hc => cases hc <;> trivial

theorem latest_reachable {calm : Prop} (hex : c.explicit = none) {w : World W O ι} (h : Reachable c calm w)
    (hsmall : ∀ k, w.dir.model k ≠ none → k < 1000000) : Latest c w := by
  induction h with
  | refl => trivial
  | tail _ hs ih =>
    have hb := fun k hk => hsmall k (model_keeps hs k hk)
    exact latest_step hex hb (ih hb) hs

/-- **C104, lost work (the part that holds).**  While all numbers are below a million: if a process dies at the head of the
loop after `r` iterations, a start that can read the last checkpoint continues at most `save_interval` iterations
before. -/
theorem C104_lost_work_partial {calm : Prop} (w : World W O ι) (h : Reachable c calm w) (hex : c.explicit = none)
    (hS : 0 < c.S) (s : St W O ι) (m r : ℕ) (hp : w.proc = .training s m r) (hr : 0 < r)
    (hsmall : ∀ k, w.dir.model k ≠ none → k < 1000000) (s' : St W O ι) (m' : ℕ) (d : Dir W O ι) (hist : List (St W O ι))
    (hs : Start c ⟨w.dir, .idle, w.saved⟩ ⟨d, .training s' m' 0, hist⟩) : m + r ≤ m' + c.S := by
  have hl := latest_reachable hex h hsmall
  simp only [Latest, hp] at hl
  have hlast := hl.2 hr
  have hge : m + r ≤ lastOf c m r + c.S := by
    unfold lastOf
    have h1 := Nat.div_add_mod (r - 1) c.S
    have h2 := Nat.mod_lt (r - 1) hS
    rw [Nat.mul_comm] at h1
    omega
  cases hs with
  | explicit _ _ he => rw [hex] at he; simp at he
  | fresh x _ hn => exact absurd (hn _) hlast
  | load k x _ _ hn hk _ =>
    have hk6 : k < 1000000 := hsmall k (by simp only at hk; rw [hk]; simp)
    have := hn.2 _ (Option.isSome_iff_ne_none.2 hlast)
    rw [key_eq, key_eq, Nat.mod_eq_of_lt hk6, Nat.mod_eq_of_lt (hsmall _ hlast)] at this
    have : lastOf c m r ≤ k := by exact_mod_cast this
    rw [resumeOf_eq, Nat.mod_eq_of_lt hk6]
    omega

/-! ### Runs without deaths -/

/-- A run of the updates from new weights. -/
structure IsRun (c : Cfg W O ι) (f : ℕ → St W O ι) : Prop where
  first : ∃ x, f 0 = ⟨x, fun _ => x, c.opt₀⟩
  next : ∀ n, c.upd (f n) (f (n + 1))

/-- The directory after `n` iterations of a run. -/
def dirAt (c : Cfg W O ι) (f : ℕ → St W O ι) (n : ℕ) : Dir W O ι :=
  ⟨fun k => if k < n ∧ k % c.S = 0 then some (.full (f (k + 1)).w) else none,
    fun i k => if k < n ∧ k % c.S = 0 then some (.full ((f (k + 1)).ema i)) else none,
    fun k => if k < n ∧ k % c.S = 0 then some (.full (f (k + 1)).opt) else none⟩

theorem write_all {calm : Prop} (s : St W O ι) (m r : ℕ) (h : List (St W O ι)) : ∀ (l : List (Slot ι)) (d : Dir W O ι),
    Relation.ReflTransGen (Step c calm) ⟨d, .saving s m r l, h⟩
      ⟨l.foldl (fun d x => write d s (r + m) x) d, .saving s m r [], h⟩ := by
  intro l
  induction l with
  | nil => intro d; exact .refl
  | cons x l ih => intro d; exact .head (.run (.write d s m r h x l)) (ih _)

theorem fold_ema (s : St W O ι) (n : ℕ) : ∀ (l : List ι) (d : Dir W O ι),
    (l.map Slot.ema).foldl (fun d x => write d s n x) d =
      { d with ema := fun j => if j ∈ l then put (d.ema j) n (.full (s.ema j)) else d.ema j } := by
  intro l
  induction l with
  | nil => intro d; simp
  | cons i l ih =>
    intro d
    rw [List.map_cons, List.foldl_cons, ih]
    simp only [write]
    congr 1
    funext j
    by_cases e : j = i
    · subst e
      by_cases hj : j ∈ l
      · simp only [hj, if_true, List.mem_cons, true_or]
        funext k
        simp only [put]
        split_ifs <;> rfl
      · simp [hj]
    · simp [e]

theorem dirAt_succ (f : ℕ → St W O ι) (n : ℕ) (hn : n % c.S = 0) (hall : ∀ i, i ∈ c.rates) :
    c.slots.foldl (fun d x => write d (f (n + 1)) n x) (dirAt c f n) = dirAt c f (n + 1) := by
  unfold Cfg.slots
  rw [List.foldl_append, List.foldl_append, List.foldl_cons, List.foldl_nil, fold_ema, List.foldl_cons, List.foldl_nil]
  simp only [write, hall, if_true, dirAt]
  congr 1
  · funext k
    by_cases e : k = n
    · subst e; simp [put, hn]
    · rw [put_other _ _ e]
      have : k < n + 1 ↔ k < n := by omega
      simp [this]
  · funext i k
    by_cases e : k = n
    · subst e; simp [put, hn]
    · rw [put_other _ _ e]
      have : k < n + 1 ↔ k < n := by omega
      simp [this]
  · funext k
    by_cases e : k = n
    · subst e; simp [put, hn]
    · rw [put_other _ _ e]
      have : k < n + 1 ↔ k < n := by omega
      simp [this]

theorem dirAt_same (f : ℕ → St W O ι) (n : ℕ) (hn : n % c.S ≠ 0) : dirAt c f n = dirAt c f (n + 1) := by
  have key : ∀ k, (k < n ∧ k % c.S = 0) ↔ (k < n + 1 ∧ k % c.S = 0) := by
    intro k
    constructor
    · rintro ⟨h1, h2⟩; exact ⟨by omega, h2⟩
    · rintro ⟨h1, h2⟩
      refine ⟨?_, h2⟩
      rcases Nat.lt_succ_iff_lt_or_eq.1 h1 with h | rfl
      · exact h
      · exact absurd h2 hn
  simp only [dirAt, key]

/-- A process that does not die reaches every iteration. -/
theorem reach_run {calm : Prop} (f : ℕ → St W O ι) (hf : IsRun c f) (hex : c.explicit = none) (hall : ∀ i, i ∈ c.rates) :
    ∀ n, ∃ h, Reachable c calm ⟨dirAt c f n, .training (f n) 0 n, h⟩ := by
  intro n
  induction n with
  | zero =>
    obtain ⟨x, hx⟩ := hf.first
    refine ⟨[], .tail .refl (.start (Or.inl rfl) ?_)⟩
    have := Start.fresh (c := c) (empty : World W O ι) x hex fun _ => rfl
    rw [← hx] at this
    have hd : dirAt c f 0 = (empty : World W O ι).dir := by simp [dirAt, empty]
    rw [hd]
    exact this
  | succ n ih =>
    obtain ⟨h, ih⟩ := ih
    by_cases hn : n % c.S = 0
    · refine ⟨f (n + 1) :: h, ?_⟩
      have h1 := ih.tail (.run (.updateSave _ _ (f (n + 1)) 0 n h (hf.next n) hn))
      have h2 := h1.trans (write_all (c := c) (calm := calm) (f (n + 1)) 0 n _ _ _)
      simp only [Nat.add_zero] at h2
      rw [dirAt_succ f n hn hall] at h2
      exact h2.tail (.run (.saved _ _ _ _ _))
    · refine ⟨h, ?_⟩
      rw [← dirAt_same f n hn]
      exact ih.tail (.run (.update _ _ _ 0 n h (hf.next n) hn))

/-! ### What fails -/

/-- **C104 fails for a death between files.**  In every training: a process that dies after it wrote `model{n}.pt` and before
the averages (here for `n = save_interval`) is continued with the new weights, but with averages that are copies of these
weights and with a new optimizer; nothing is reported. -/
theorem C104_violated_state (f : ℕ → St W O ι) (hf : IsRun c f) (hex : c.explicit = none) (hall : ∀ i, i ∈ c.rates)
    (hS : 0 < c.S) (hsmall : c.S < 1000000) :
    ∃ w : World W O ι, Reachable c False w ∧ Stopped w ∧ w.saved.head? = some (f (c.S + 1)) ∧
      Start c w ⟨w.dir, .training ⟨(f (c.S + 1)).w, fun _ => (f (c.S + 1)).w, c.opt₀⟩ c.S 0, w.saved⟩ := by
  obtain ⟨h, hr⟩ := reach_run (calm := False) f hf hex hall c.S
  have h1 := hr.tail (.run (.updateSave _ _ (f (c.S + 1)) 0 c.S h (hf.next c.S) (Nat.mod_self _)))
  have h2 := h1.tail (.run (.write _ _ _ _ _ .model (c.rates.map .ema ++ [.opt])))
  have h3 := h2.tail (.crash (fun h => h.elim) (.lost _))
  refine ⟨_, h3, Or.inl rfl, rfl, ?_⟩
  have hres : resumeOf c.S = c.S := by rw [resumeOf_eq, Nat.mod_eq_of_lt hsmall]
  have hst := Start.load (c := c) (⟨write (dirAt c f c.S) (f (c.S + 1)) (c.S + 0) .model, .idle, f (c.S + 1) :: h⟩ : World W O ι)
    c.S (f (c.S + 1)).w ⟨(f (c.S + 1)).w, fun _ => (f (c.S + 1)).w, c.opt₀⟩ hex ?_ ?_ ?_
  · rw [hres] at hst; exact hst
  · refine ⟨by simp [write, put], fun j hj => ?_⟩
    have hj' : j ≤ c.S := by
      simp only [write, put] at hj
      split_ifs at hj with e
      · omega
      · simp only [dirAt] at hj
        split_ifs at hj with e
        · omega
        · simp at hj
    rw [key_eq, key_eq, Nat.mod_eq_of_lt hsmall, Nat.mod_eq_of_lt (by omega)]
    exact_mod_cast hj'
  · simp [write, put]
  · rw [hres]
    refine ⟨rfl, ?_⟩
    rw [if_neg (by omega)]
    simp [write, dirAt, readOr]

/-- **C104 fails for number 0.**  Even without deaths while files are being written, a start from `model000000.pt` (whose files
are all there) replaces the averages by copies of the weights and the optimizer by a new one. -/
theorem C104_violated_zero (f : ℕ → St W O ι) (hf : IsRun c f) (hex : c.explicit = none) (hall : ∀ i, i ∈ c.rates) :
    ∃ w : World W O ι, Reachable c True w ∧ Stopped w ∧ w.saved.head? = some (f 1) ∧
      w.dir.opt 0 = some (.full (f 1).opt) ∧ (∀ i, w.dir.ema i 0 = some (.full ((f 1).ema i))) ∧
      Start c w ⟨w.dir, .training ⟨(f 1).w, fun _ => (f 1).w, c.opt₀⟩ 0 0, w.saved⟩ := by
  obtain ⟨h, hr⟩ := reach_run (calm := True) f hf hex hall 0
  have h1 := hr.tail (.run (.updateSave _ _ (f 1) 0 0 h (hf.next 0) (Nat.zero_mod _)))
  have h2 := h1.trans (write_all (c := c) (calm := True) (f 1) 0 0 _ _ _)
  simp only [Nat.add_zero] at h2
  rw [dirAt_succ f 0 (Nat.zero_mod _) hall] at h2
  have h3 := h2.tail (.run (.saved _ _ _ _ _))
  have h4 := h3.tail (.crash (fun _ _ _ _ _ hp => by simp at hp) (.lost _))
  refine ⟨_, h4, Or.inl rfl, rfl, by simp [dirAt], by simp [dirAt], ?_⟩
  have hres : resumeOf 0 = 0 := by rw [resumeOf_eq]
  have hst := Start.load (c := c) (⟨dirAt c f 1, .idle, f 1 :: h⟩ : World W O ι)
    0 (f 1).w ⟨(f 1).w, fun _ => (f 1).w, c.opt₀⟩ hex ?_ ?_ ?_
  · rw [hres] at hst; exact hst
  · refine ⟨by simp [dirAt], fun j hj => ?_⟩
    simp only [dirAt] at hj
    split_ifs at hj with e
    · have : j = 0 := by omega
      rw [this]
    · simp at hj
  · simp [dirAt]
  · rw [hres]
    exact ⟨rfl, by rw [if_pos rfl]; exact ⟨rfl, fun _ => rfl⟩⟩

/-- **C104 fails after a torn file.**  If the checkpoint with the greatest number is torn, every later start fails. -/
theorem C104_violated_torn {calm : Prop} (hex : c.explicit = none) (w : World W O ι) (k : ℕ)
    (hk : w.dir.model k = some .torn) (hnew : ∀ j, w.dir.model j ≠ none → j ≠ k → key j < key k) (hst : Stopped w)
    (w' : World W O ι) (h : Relation.ReflTransGen (Step c calm) w w') : Stopped w' ∧ w'.dir = w.dir := by
  induction h with
  | refl => exact ⟨hst, rfl⟩
  | @tail b e _ hs ih =>
    obtain ⟨hb, hd⟩ := ih
    cases hs with
    | start _ hs =>
      cases hs with
      | explicit m s he => rw [hex] at he; simp at he
      | fresh x _ hn => have := hn k; rw [hd, hk] at this; simp at this
      | load j x s _ hn hj hl =>
        rw [hd] at hj hn
        by_cases e : j = k
        · rw [e, hk] at hj; simp at hj
        · have h1 := hnew j (by rw [hj]; simp) e
          have h2 := hn.2 k (by rw [hk]; rfl)
          exact absurd h1 (not_lt.2 h2)
      | bad => exact ⟨Or.inr rfl, hd⟩
    | run hr => cases hr <;> rcases hb with hb | hb <;> simp at hb
    | crash _ hc =>
      cases hc with
      | lost => exact ⟨Or.inl rfl, hd⟩
      | torn => rcases hb with hb | hb <;> simp at hb

/-- A torn file can be the last one: the hypotheses of the theorem above are met in every training. -/
theorem C104_torn_reachable (f : ℕ → St W O ι) (hf : IsRun c f) (hex : c.explicit = none) (hall : ∀ i, i ∈ c.rates)
    (hS : 0 < c.S) (hsmall : c.S < 1000000) :
    ∃ w : World W O ι, Reachable c False w ∧ Stopped w ∧ w.dir.model c.S = some .torn ∧
      ∀ j, w.dir.model j ≠ none → j ≠ c.S → key j < key c.S := by
  obtain ⟨h, hr⟩ := reach_run (calm := False) f hf hex hall c.S
  have h1 := hr.tail (.run (.updateSave _ _ (f (c.S + 1)) 0 c.S h (hf.next c.S) (Nat.mod_self _)))
  have h2 := h1.tail (.crash (fun h => h.elim) (.torn _ _ _ _ _ .model (c.rates.map .ema ++ [.opt])))
  refine ⟨_, h2, Or.inl rfl, by simp [tear, put], fun j hj hne => ?_⟩
  have hj' : j < c.S := by
    simp only [tear, put, Nat.add_zero, if_neg hne, dirAt] at hj
    split_ifs at hj with e
    · exact e.1
    · simp at hj
  rw [key_eq, key_eq, Nat.mod_eq_of_lt hsmall, Nat.mod_eq_of_lt (by omega)]
  exact_mod_cast hj'

/-- **C104 fails for long trainings.**  However many iterations were done and saved, a start never continues from a number
above 999999. -/
theorem C104_violated_million (f : ℕ → St W O ι) (hf : IsRun c f) (hex : c.explicit = none) (hall : ∀ i, i ∈ c.rates)
    (n : ℕ) : ∃ w : World W O ι, Reachable c True w ∧ w.proc = .training (f n) 0 n ∧
      ∀ s m d h, Start c ⟨w.dir, .idle, w.saved⟩ ⟨d, .training s m 0, h⟩ → m < 1000000 := by
  obtain ⟨h, hr⟩ := reach_run (calm := True) f hf hex hall n
  refine ⟨_, hr, rfl, fun s m d h' hs => ?_⟩
  cases hs with
  | explicit _ _ he => rw [hex] at he; simp at he
  | fresh => omega
  | load k x _ _ hn hk _ =>
    rw [resumeOf_eq]
    exact Nat.mod_lt _ (by norm_num)

/-- **C104 fails with a given checkpoint.**  If `trainer.resume_checkpoint` names a file, every start continues from that
file, whatever was saved in the directory since. -/
theorem C104_violated_explicit {calm : Prop} (m : ℕ) (f : ℕ → St W O ι) (hex : c.explicit = some (m, f 0))
    (hf : ∀ n, c.upd (f n) (f (n + 1))) (n : ℕ) :
    ∃ w : World W O ι, Reachable c calm w ∧ w.proc = .training (f n) m n ∧
      ∀ w', Start c ⟨w.dir, .idle, w.saved⟩ w' → w'.proc = .training (f 0) m 0 := by
  have key : ∀ n, ∃ d h, Reachable c calm (⟨d, .training (f n) m n, h⟩ : World W O ι) := by
    intro n
    induction n with
    | zero => exact ⟨_, _, .tail .refl (.start (Or.inl rfl) (.explicit empty m (f 0) hex))⟩
    | succ n ih =>
      obtain ⟨d, h, ih⟩ := ih
      by_cases hn : n % c.S = 0
      · have h1 := ih.tail (.run (.updateSave _ _ (f (n + 1)) m n h (hf n) hn))
        have h2 := h1.trans (write_all (c := c) (calm := calm) (f (n + 1)) m n _ _ _)
        exact ⟨_, _, h2.tail (.run (.saved _ _ _ _ _))⟩
      · exact ⟨_, _, ih.tail (.run (.update _ _ _ m n h (hf n) hn))⟩
  obtain ⟨d, h, hr⟩ := key n
  refine ⟨_, hr, rfl, fun w' hs => ?_⟩
  cases hs with
  | explicit m' s he =>
    rw [hex] at he
    simp only [Option.some.injEq, Prod.mk.injEq] at he
    rw [← he.1, ← he.2]
  | fresh _ he => rw [hex] at he; simp at he
  | load _ _ _ he => rw [hex] at he; simp at he
  | bad _ he => rw [hex] at he; simp at he

/-- **C104, processes.**  After loading, all processes have the same weights: those of the file, or those of the first
process if there is no file. -/
theorem C104_sync {α : Type} (own : ℕ → α) (file : Option α) (a b : ℕ) :
    loadSync own file a = loadSync own file b ∧ (∀ x, file = some x → loadSync own file a = x) ∧
      (file = none → loadSync own file a = own 0) := by
  refine ⟨rfl, fun x h => ?_, fun h => ?_⟩ <;> simp [loadSync, h]

/-! ### An example -/

/-- Weights count updates, the average is the sum of all weights. -/
def exCfg : Cfg ℕ ℕ Unit := ⟨2, [()], 0, none, fun s s' => s' = ⟨s.w + 1, fun i => s.ema i + s.w + 1, s.opt + 10⟩⟩

/-- Its run. -/
def exRun : ℕ → St ℕ ℕ Unit
  | 0 => ⟨0, fun _ => 0, 0⟩
  | n + 1 => ⟨(exRun n).w + 1, fun i => (exRun n).ema i + (exRun n).w + 1, (exRun n).opt + 10⟩

theorem exRun_isRun : IsRun exCfg exRun := ⟨⟨0, rfl⟩, fun _ => rfl⟩

/-- A start that continues with a state that was never saved. -/
example : ∃ w : World ℕ ℕ Unit, Reachable exCfg False w ∧ ∃ s, Start exCfg w ⟨w.dir, .training s 2 0, w.saved⟩ ∧
    w.saved.head? = some (exRun 3) ∧ s.w = (exRun 3).w ∧ s.ema () = 3 ∧ (exRun 3).ema () = 6 ∧ s.opt = 0 ∧
      (exRun 3).opt = 30 := by
  obtain ⟨w, h1, h2, h3, h4⟩ := C104_violated_state exRun exRun_isRun rfl (by intro i; cases i; decide) (by decide) (by decide)
  exact ⟨w, h1, _, h4, h3, rfl, rfl, rfl, rfl, rfl⟩

/-- The hypotheses of `C104_state_partial` and `C104_lost_work_partial` are met: a run of five iterations. -/
example : ∃ w : World ℕ ℕ Unit, Reachable exCfg True w ∧ Stopped w ∧ (∀ k, w.dir.model k ≠ none → k < 1000000) ∧
    Start exCfg w ⟨w.dir, .training (exRun 5) 4 0, w.saved⟩ := by
  obtain ⟨h, hr⟩ := reach_run (calm := True) exRun exRun_isRun rfl (by intro i; cases i; decide) 5
  have h4 := hr.tail (.crash (fun _ _ _ _ _ hp => by simp at hp) (.lost _))
  have hb : ∀ k, (dirAt exCfg exRun 5).model k ≠ none → k < 5 := by
    intro k hk
    simp only [dirAt] at hk
    split_ifs at hk with e
    · exact e.1
    · simp at hk
  refine ⟨_, h4, Or.inl rfl, fun k hk => (hb k hk).trans (by norm_num), ?_⟩
  have hres : resumeOf 4 = 4 := by rw [resumeOf_eq]
  have hst := Start.load (c := exCfg) (⟨dirAt exCfg exRun 5, .idle, h⟩ : World ℕ ℕ Unit) 4 (exRun 5).w (exRun 5) rfl ?_ ?_ ?_
  · rw [hres] at hst; exact hst
  · refine ⟨rfl, fun j hj => ?_⟩
    have := hb j (Option.isSome_iff_ne_none.1 hj)
    rw [key_eq, key_eq, Nat.mod_eq_of_lt (by omega)]
    omega
  · rfl
  · rw [hres]
    exact ⟨rfl, rfl, fun i => rfl⟩

end Verif.Script.TrainResume
