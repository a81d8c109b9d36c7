import Verif.Train.Runs

/-!
C92: starting, resuming and overwriting training runs.
-/

namespace Verif.Train.Runs

variable {S : Type}

/-- **C92, refusal.** With neither flag, a run is refused exactly if the directory holds a checkpoint; with a flag it is
never refused. -/
theorem C92_refuse (sc : Script) (f : Flags) (d : Dir S) :
    fetch sc f d = .error .runtime ↔ f.overwrite = false ∧ f.resume = false ∧ d.Any := by
  unfold fetch
  by_cases h : f.overwrite = false ∧ f.resume = false ∧ d.Any
  · rw [if_pos h]
    exact ⟨fun _ => h, fun _ => rfl⟩
  · rw [if_neg h]
    refine ⟨fun h' => ?_, fun h' => absurd h' h⟩
    cases sc <;> dsimp only at h' <;> split_ifs at h'

/-- **C92, overwriting.** In the image project a run with `overwrite` begins anew, whatever the directory. -/
theorem C92_overwrite_partial (init : S) (resume : Bool) (d : Dir S) :
    ∃ c, fetch .illm ⟨true, resume⟩ d = .ok c ∧ begin init c = .running init none := by
  refine ⟨none, ?_, rfl⟩
  unfold fetch
  simp

/-- **C92 is violated for overwriting in the video project.** With the default `resume_training=True`, `overwrite=True`
does not ignore the checkpoints: the run continues from `last.ckpt`. -/
theorem C92_violated_overwrite (init : S) (d : Dir S) (c : Ckpt S) (h : d.last 0 = some c) :
    ∃ c', fetch .vct { Flags.default with overwrite := true } d = .ok c' ∧ begin init c' = .running c.state c.path := by
  refine ⟨some c, ?_, rfl⟩
  unfold fetch Flags.default
  simp [h]

/-! ### Resuming -/

/-- What holds in histories without `overwrite`: `last.ckpt` is the only such file and holds the newest save. -/
def Inv (w : World S) : Prop :=
  (∀ v, v ≠ 0 → w.dir.last v = none) ∧
  w.dir.last 0 = w.saves.head?.map (fun s => ⟨s, some 0⟩) ∧
  (∀ s p, w.proc = .running s p ∨ w.proc = .saving s p → p = if w.saves = [] then none else some 0)

theorem inv_step (sc : Script) (init : S) (next : S → S → Prop) (w w' : World S) (h : Inv w)
    (hs : Step sc init next (fun f => f.overwrite = false) w w') : Inv w' := by
  obtain ⟨h1, h2, h3⟩ := h
  cases hs with
  | start w f c hst hf hc =>
    refine ⟨h1, h2, fun s p hp => ?_⟩
    have hcases : c = w.dir.last 0 ∨ c = none ∧ ¬ w.dir.Any := by
      unfold fetch at hc
      by_cases hg : f.overwrite = false ∧ f.resume = false ∧ w.dir.Any
      · rw [if_pos hg] at hc
        cases hc
      rw [if_neg hg] at hc
      cases sc with
      | illm =>
        dsimp only at hc
        rw [if_pos hf] at hc
        exact Or.inl (Except.ok.inj hc).symm
      | vct =>
        dsimp only at hc
        by_cases hr : f.resume = true
        · rw [if_pos hr] at hc
          exact Or.inl (Except.ok.inj hc).symm
        · rw [if_neg hr] at hc
          refine Or.inr ⟨(Except.ok.inj hc).symm, fun ha => hg ⟨hf, by simpa using hr, ha⟩⟩
    dsimp only at hp ⊢
    cases hl : w.saves with
    | nil =>
      have hc' : c = none := by
        rcases hcases with e | ⟨e, -⟩
        · rw [e, h2, hl]
          rfl
        · exact e
      subst hc'
      unfold begin at hp
      rw [if_pos rfl]
      rcases hp with hp | hp
      · injection hp with _ hp
        exact hp.symm
      · cases hp
    | cons a l =>
      have hlast : w.dir.last 0 = some ⟨a, some 0⟩ := by
        rw [h2, hl]
        rfl
      have hc' : c = some ⟨a, some 0⟩ := by
        rcases hcases with e | ⟨-, e⟩
        · rw [e, hlast]
        · exact absurd (Or.inr ⟨0, by rw [hlast]; rfl⟩) e
      subst hc'
      unfold begin at hp
      rw [if_neg (by simp)]
      rcases hp with hp | hp
      · injection hp with _ hp
        exact hp.symm
      · cases hp
  | train d s s' p l hn =>
    refine ⟨h1, h2, fun t q hq => ?_⟩
    have := h3 s p (Or.inl rfl)
    rcases hq with hq | hq
    · injection hq with _ hq
      rw [← hq]
      exact this
    · cases hq
  | saveBest d s p l =>
    refine ⟨h1, h2, fun t q hq => ?_⟩
    have := h3 s p (Or.inl rfl)
    rcases hq with hq | hq
    · cases hq
    · injection hq with _ hq
      rw [← hq]
      exact this
  | saveNoBest d s p l =>
    refine ⟨h1, h2, fun t q hq => ?_⟩
    have := h3 s p (Or.inl rfl)
    rcases hq with hq | hq
    · cases hq
    · injection hq with _ hq
      rw [← hq]
      exact this
  | saveLast d s p l v hv =>
    have hp := h3 s p (Or.inr rfl)
    dsimp only at h1 h2 hp
    have hv0 : v = 0 := by
      by_contra hne
      obtain ⟨a, b⟩ := hv.2 0 (Nat.pos_of_ne_zero hne)
      cases l with
      | nil => exact a (by rw [h2]; rfl)
      | cons x l => exact b (by rw [hp]; simp)
    subst hv0
    refine ⟨fun u hu => ?_, ?_, fun t q hq => ?_⟩
    · dsimp only [Dir.save]
      rw [if_neg hu]
      split_ifs
      · rfl
      · exact h1 u hu
    · simp [Dir.save]
    · rcases hq with hq | hq
      · injection hq with _ hq
        rw [← hq]
        simp
      · cases hq
  | stop w =>
    refine ⟨h1, h2, fun t q hq => ?_⟩
    rcases hq with hq | hq <;> cases hq

theorem inv_reachable (sc : Script) (init : S) (next : S → S → Prop) (w : World S)
    (h : Reachable sc init next (fun f => f.overwrite = false) w) : Inv w := by
  unfold Reachable at h
  induction h with
  | refl => exact ⟨fun _ _ => rfl, rfl, fun s p hp => by rcases hp with hp | hp <;> cases hp⟩
  | tail _ hs ih => exact inv_step sc init next _ _ ih hs

/-- **C92, resuming.** In both projects, after every history of starts, training steps, saves and crashes in which
`overwrite` was never set, a run with `resume_training` continues from the state of the newest completed save, or begins
anew if there was none. -/
theorem C92_resume_partial (sc : Script) (init : S) (next : S → S → Prop) (w : World S)
    (h : Reachable sc init next (fun f => f.overwrite = false) w) :
    ∃ c p, fetch sc ⟨false, true⟩ w.dir = .ok c ∧ begin init c = .running (w.saves.head?.getD init) p := by
  obtain ⟨-, h2, -⟩ := inv_reachable sc init next w h
  refine ⟨w.dir.last 0, ?_⟩
  have e : fetch sc ⟨false, true⟩ w.dir = .ok (w.dir.last 0) := by
    unfold fetch
    cases sc <;> simp
  rw [h2] at e ⊢
  cases hl : w.saves with
  | nil => exact ⟨none, by rw [e, hl], rfl⟩
  | cons a l => exact ⟨some 0, by rw [e, hl], rfl⟩

/-- A running process with a file of its own that is not `last.ckpt`, or with none yet. -/
def Elsewhere (c : Ckpt S) (w : World S) : Prop :=
  w.dir.last 0 = some c ∧ ∀ s p, w.proc = .running s p ∨ w.proc = .saving s p → p ≠ some 0

theorem elsewhere_step (init : S) (next : S → S → Prop) (c : Ckpt S) (w w' : World S) (h : Elsewhere c w)
    (hs : Step .illm init next (fun f => f.overwrite = true) w w') : Elsewhere c w' := by
  obtain ⟨h1, h2⟩ := h
  cases hs with
  | start w f c' hst hf hc =>
    refine ⟨h1, fun s p hp => ?_⟩
    have : c' = none := by
      unfold fetch at hc
      rw [if_neg (by rw [hf]; simp)] at hc
      dsimp only at hc
      rw [if_neg (by rw [hf]; simp)] at hc
      exact (Except.ok.inj hc).symm
    subst this
    rcases hp with hp | hp
    · injection hp with _ hp
      rw [← hp]
      simp
    · cases hp
  | train d s s' p l hn =>
    refine ⟨h1, fun t q hq => ?_⟩
    have := h2 s p (Or.inl rfl)
    rcases hq with hq | hq
    · injection hq with _ hq
      rw [← hq]
      exact this
    · cases hq
  | saveBest d s p l =>
    refine ⟨h1, fun t q hq => ?_⟩
    have := h2 s p (Or.inl rfl)
    rcases hq with hq | hq
    · cases hq
    · injection hq with _ hq
      rw [← hq]
      exact this
  | saveNoBest d s p l =>
    refine ⟨h1, fun t q hq => ?_⟩
    have := h2 s p (Or.inl rfl)
    rcases hq with hq | hq
    · cases hq
    · injection hq with _ hq
      rw [← hq]
      exact this
  | saveLast d s p l v hv =>
    have hp := h2 s p (Or.inr rfl)
    dsimp only at h1
    have hv0 : v ≠ 0 := by
      rintro rfl
      rcases hv.1 with e | e
      · rw [h1] at e
        cases e
      · exact hp e
    refine ⟨?_, fun t q hq => ?_⟩
    · dsimp only [Dir.save]
      rw [if_neg (fun e => hv0 e.symm), if_neg hp]
      exact h1
    · rcases hq with hq | hq
      · injection hq with _ hq
        rw [← hq]
        simpa using hv0
      · cases hq
  | stop w =>
    refine ⟨h1, fun t q hq => ?_⟩
    rcases hq with hq | hq <;> cases hq

/-- **C92 is violated for resuming an overwritten run.** Let a directory hold `last.ckpt`. After any number of runs with
`overwrite`, with any training steps, completed saves and crashes, a run with `resume_training` continues from the old
`last.ckpt`, not from the newest save. -/
theorem C92_violated (init : S) (next : S → S → Prop) (w w' : World S) (c : Ckpt S) (hstop : w.proc = .stopped)
    (hlast : w.dir.last 0 = some c) (hsteps : Relation.ReflTransGen (Step .illm init next (fun f => f.overwrite = true)) w w') :
    ∃ c', fetch .illm ⟨false, true⟩ w'.dir = .ok c' ∧ begin init c' = .running c.state c.path := by
  have h : Elsewhere c w' := by
    induction hsteps with
    | refl =>
      refine ⟨hlast, fun s p hp => ?_⟩
      rw [hstop] at hp
      rcases hp with hp | hp <;> cases hp
    | tail _ hs ih => exact elsewhere_step init next c _ _ ih hs
  refine ⟨some c, ?_, rfl⟩
  unfold fetch
  simp [h.1]

/-- A witness: the state counts training steps. The first run saves after one step. The second, with `overwrite`, saves
after two steps. Resuming continues from one step. -/
theorem C92_violated_witness :
    ∃ w : World ℕ, Reachable .illm 0 (fun s t => t = s + 1) (fun _ => True) w ∧ w.saves = [2, 1] ∧
      ∃ c p, fetch .illm Flags.default w.dir = .ok c ∧ begin 0 c = .running 1 p := by
  let d0 : Dir ℕ := ⟨fun _ => none, false⟩
  let d1 : Dir ℕ := d0.save 1 none 0
  let d2 : Dir ℕ := d1.save 2 none 1
  have e0 : fetch .illm Flags.default d0 = .ok none := by unfold fetch Flags.default; simp [d0]
  have e1 : fetch .illm ⟨true, false⟩ d1 = .ok none := by unfold fetch; simp
  have v0 : IsVersion d0 none 0 := ⟨Or.inl rfl, fun u hu => absurd hu (Nat.not_lt_zero u)⟩
  have v1 : IsVersion d1 none 1 := by
    refine ⟨Or.inl (by simp [d1, d0, Dir.save]), fun u hu => ?_⟩
    have : u = 0 := by omega
    subst this
    simp [d1, Dir.save]
  refine ⟨⟨d2, .running 2 (some 1), [2, 1]⟩, ?_, rfl, some ⟨1, some 0⟩, some 0, ?_, rfl⟩
  · have s1 : Step .illm 0 (fun s t => t = s + 1) (fun _ => True) empty ⟨d0, .running 0 none, []⟩ :=
      Step.start empty Flags.default none rfl trivial e0
    have s2 : Step .illm 0 (fun s t => t = s + 1) (fun _ => True) ⟨d0, .running 0 none, []⟩ ⟨d0, .running 1 none, []⟩ :=
      Step.train _ _ _ _ _ rfl
    have s3 : Step .illm 0 (fun s t => t = s + 1) (fun _ => True) ⟨d0, .running 1 none, []⟩ ⟨d0, .saving 1 none, []⟩ :=
      Step.saveNoBest _ _ _ _
    have s4 : Step .illm 0 (fun s t => t = s + 1) (fun _ => True) ⟨d0, .saving 1 none, []⟩
        ⟨d1, .running 1 (some 0), [1]⟩ := Step.saveLast _ _ _ _ _ v0
    have s5 : Step .illm 0 (fun s t => t = s + 1) (fun _ => True) ⟨d1, .running 1 (some 0), [1]⟩ ⟨d1, .stopped, [1]⟩ :=
      Step.stop _
    have s6 : Step .illm 0 (fun s t => t = s + 1) (fun _ => True) ⟨d1, .stopped, [1]⟩ ⟨d1, .running 0 none, [1]⟩ :=
      Step.start ⟨d1, .stopped, [1]⟩ ⟨true, false⟩ none rfl trivial e1
    have s7 : Step .illm 0 (fun s t => t = s + 1) (fun _ => True) ⟨d1, .running 0 none, [1]⟩ ⟨d1, .running 1 none, [1]⟩ :=
      Step.train _ _ _ _ _ rfl
    have s8 : Step .illm 0 (fun s t => t = s + 1) (fun _ => True) ⟨d1, .running 1 none, [1]⟩ ⟨d1, .running 2 none, [1]⟩ :=
      Step.train _ _ _ _ _ rfl
    have s9 : Step .illm 0 (fun s t => t = s + 1) (fun _ => True) ⟨d1, .running 2 none, [1]⟩ ⟨d1, .saving 2 none, [1]⟩ :=
      Step.saveNoBest _ _ _ _
    have s10 : Step .illm 0 (fun s t => t = s + 1) (fun _ => True) ⟨d1, .saving 2 none, [1]⟩
        ⟨d2, .running 2 (some 1), [2, 1]⟩ := Step.saveLast _ _ _ _ _ v1
    exact ((((((((((Relation.ReflTransGen.refl).tail s1).tail s2).tail s3).tail s4).tail s5).tail s6).tail s7).tail
      s8).tail s9).tail s10
  · unfold fetch Flags.default
    simp [d2, d1, Dir.save]

/-- **C92 is violated for a crash inside the first save.** After the checkpoint of the best model is written and before
`last.ckpt` is, a crash leaves a directory with a checkpoint; resuming begins anew without an error. -/
theorem C92_violated_crash (sc : Script) (init s : S) (next : S → S → Prop)
    (hs : Relation.ReflTransGen next init s) :
    ∃ w : World S, Reachable sc init next (fun f => f = Flags.default) w ∧ w.proc = .stopped ∧ w.dir.Any ∧
      ∃ c, fetch sc Flags.default w.dir = .ok c ∧ begin init c = .running init none := by
  refine ⟨⟨⟨fun _ => none, true⟩, .stopped, []⟩, ?_, rfl, Or.inl rfl, none, ?_, rfl⟩
  · have e0 : fetch sc Flags.default (empty : World S).dir = .ok none := by
      unfold fetch Flags.default
      cases sc <;> simp [empty]
    have s1 : Step sc init next (fun f => f = Flags.default) empty ⟨⟨fun _ => none, false⟩, .running init none, []⟩ :=
      Step.start empty Flags.default none rfl rfl e0
    have s2 : Reachable sc init next (fun f => f = Flags.default) ⟨⟨fun _ => none, false⟩, .running s none, []⟩ := by
      induction hs with
      | refl => exact Relation.ReflTransGen.single s1
      | tail _ hn ih => exact ih.tail (Step.train _ _ _ _ _ hn)
    exact (s2.tail (Step.saveBest _ _ _ _)).tail (Step.stop _)
  · unfold fetch Flags.default
    cases sc <;> simp

/-- The hypothesis of the theorem about resuming is met by a history with two runs, a crash and two saves. -/
example : ∃ w : World ℕ, Reachable .vct 0 (fun s t => t = s + 1) (fun f => f.overwrite = false) w ∧ w.proc = .stopped ∧
    w.saves = [2, 1] := by
  let d0 : Dir ℕ := ⟨fun _ => none, false⟩
  let d1 : Dir ℕ := d0.save 1 none 0
  let d2 : Dir ℕ := { d1 with best := true }.save 2 (some 0) 0
  have e0 : fetch .vct Flags.default d0 = .ok none := by unfold fetch Flags.default; simp [d0]
  have e1 : fetch .vct Flags.default d1 = .ok (some ⟨1, some 0⟩) := by
    unfold fetch Flags.default
    simp [d1, Dir.save]
  have v0 : IsVersion d0 none 0 := ⟨Or.inl rfl, fun u hu => absurd hu (Nat.not_lt_zero u)⟩
  refine ⟨⟨d2, .stopped, [2, 1]⟩, ?_, rfl, rfl⟩
  have s1 : Step .vct 0 (fun s t => t = s + 1) (fun f => f.overwrite = false) empty ⟨d0, .running 0 none, []⟩ :=
    Step.start empty Flags.default none rfl rfl e0
  have s6 : Step .vct 0 (fun s t => t = s + 1) (fun f => f.overwrite = false) ⟨d1, .stopped, [1]⟩
      ⟨d1, .running 1 (some 0), [1]⟩ := 
    Step.start ⟨d1, .stopped, [1]⟩ Flags.default (some ⟨1, some 0⟩) rfl (show Flags.default.overwrite = false from rfl) e1
  have r1 : Reachable .vct 0 (fun s t => t = s + 1) (fun f => f.overwrite = false) ⟨d1, .running 1 (some 0), [1]⟩ :=
    (((Relation.ReflTransGen.single s1).tail (Step.train _ _ 1 _ _ rfl)).tail (Step.saveNoBest _ _ _ _)).tail
      (Step.saveLast _ _ _ _ 0 v0)
  exact ((((((r1.tail (Step.stop _)).tail s6).tail (Step.train _ _ 2 _ _ rfl)).tail (Step.saveBest _ _ _ _)).tail
    (Step.saveLast _ _ _ _ 0 (by exact ⟨Or.inr rfl, fun u hu => absurd hu (Nat.not_lt_zero u)⟩))).tail (Step.stop _))

end Verif.Train.Runs
