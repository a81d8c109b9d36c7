import Verif.Diffusion.Model
import Mathlib.Tactic.Ring
import Mathlib.Tactic.Linarith

/-
Specification vocabulary (`Lawful`, `CoderOk`) and lemmas for the diffusion codec.
-/
namespace Verif.Diffusion

variable {M D R Λ P I : Type}

/-- What an entropy coder promises: `pop` undoes `push` for valid symbols, and whatever `pop`
returns is valid and is undone by `push`. -/
structure Lawful {M α : Type} (c : PCodec M α) (V : α → Prop) : Prop where
  pop_push : ∀ m x, V x → c.pop (c.push m x) = some (m, x)
  push_pop : ∀ m m' x, c.pop m = some (m', x) → V x ∧ c.push m' x = m

/-- All primitive codecs used are lawful, whatever the network outputs; all the codecs for latents
have the same valid indices `VI`, the codecs for data the valid data `VD`. -/
structure CoderOk (S : Setup M D R Λ P I) (VI : I → Prop) (VD : D → Prop) : Prop where
  prior : Lawful S.prior VI
  post : ∀ p q, Lawful (S.post p q) VI
  obs : ∀ p, Lawful (S.obs p) VD

/-- The latents carry the parameters that the network computes from the latents above, where
`step` is the step of the first one. -/
def Chain (S : Setup M D R Λ P I) (VI : I → Prop) : Nat → List (DiscrLatent I P) → Prop
  | _, [] => True
  | step, d :: ds => VI d.inds ∧ d.params = priorParams S step ds ∧ Chain S VI (step + 1) ds

theorem trackPush_snd (S : Setup M D R Λ P I) {α : Type} (c : PCodec M α) (step : Nat) (k : Counters)
    (m : M) (x : α) : (trackPush S c step k m x).2 = c.push m x := rfl

theorem trackPop_none (S : Setup M D R Λ P I) {α : Type} (c : PCodec M α) (step : Nat) (k : Counters)
    (m : M) (h : c.pop m = none) : trackPop S c step k m = (k, none) := by
  simp only [trackPop, h]

theorem trackPop_some (S : Setup M D R Λ P I) {α : Type} (c : PCodec M α) (step : Nat) (k : Counters)
    (m m' : M) (x : α) (h : c.pop m = some (m', x)) :
    (trackPop S c step k m).2 = some (m', x) := by
  simp only [trackPop, h]

theorem trackPop_snd (S : Setup M D R Λ P I) {α : Type} (c : PCodec M α) (step : Nat) (k : Counters)
    (m : M) : (trackPop S c step k m).2 = c.pop m := by
  cases h : c.pop m with
  | none => rw [trackPop_none S c step k m h]
  | some p => rw [trackPop_some S c step k m p.1 p.2 h]

/-- One step of `posteriorPop`, without looking at the counters. -/
theorem posteriorPop_succ (S : Setup M D R Λ P I) (x : R) (step : Nat) (acc : List (DiscrLatent I P))
    (k : Counters) (m : M) :
    ∃ k', (posteriorPop S x (step + 1) acc k m).2 =
      match (S.post (postParams S x (step + 1) acc) (priorParams S (step + 1) acc)).pop m with
      | none => none
      | some (m', i) => (posteriorPop S x step (⟨i, priorParams S (step + 1) acc⟩ :: acc) k' m').2 := by
  have h := trackPop_snd S (S.post (postParams S x (step + 1) acc) (priorParams S (step + 1) acc))
    (step + 1) k m
  refine ⟨(trackPop S (S.post (postParams S x (step + 1) acc) (priorParams S (step + 1) acc))
    (step + 1) k m).1, ?_⟩
  simp only [posteriorPop]
  rw [← h]
  rcases trackPop S (S.post (postParams S x (step + 1) acc) (priorParams S (step + 1) acc))
    (step + 1) k m with ⟨k', _ | ⟨m', i⟩⟩ <;> rfl

theorem priorPop_succ (S : Setup M D R Λ P I) (step : Nat) (acc : List (DiscrLatent I P))
    (k : Counters) (m : M) :
    ∃ k', (priorPop S (step + 1) acc k m).2 =
      match S.prior.pop m with
      | none => none
      | some (m', i) => (priorPop S step (⟨i, priorParams S (step + 1) acc⟩ :: acc) k' m').2 := by
  have h := trackPop_snd S S.prior (step + 1) k m
  refine ⟨(trackPop S S.prior (step + 1) k m).1, ?_⟩
  simp only [priorPop]
  rw [← h]
  rcases trackPop S S.prior (step + 1) k m with ⟨k', _ | ⟨m', i⟩⟩ <;> rfl

/-- What `posterior_pop` returns: a chain of the right length, and `posterior_push` undoes it. -/
theorem posteriorPop_spec (S : Setup M D R Λ P I) {VI : I → Prop} {VD : D → Prop} (hS : CoderOk S VI VD)
    (x : R) : ∀ (step : Nat) (acc : List (DiscrLatent I P)) (k : Counters) (m m' : M)
      (ls : List (DiscrLatent I P)), Chain S VI (step + 1) acc →
      (posteriorPop S x step acc k m).2 = some (m', ls) →
      Chain S VI 1 ls ∧ ls.length = step + acc.length ∧
      ∀ k', ∃ k'', (posteriorPush S x 1 ls k' m') = posteriorPush S x (step + 1) acc k'' m := by
  intro step
  induction step with
  | zero =>
    intro acc k m m' ls hc h
    simp only [posteriorPop, Option.some.injEq, Prod.mk.injEq] at h
    obtain ⟨rfl, rfl⟩ := h
    exact ⟨hc, by simp, fun k' => ⟨k', rfl⟩⟩
  | succ step ih =>
    intro acc k m m' ls hc h
    obtain ⟨k1, h1⟩ := posteriorPop_succ S x step acc k m
    rw [h1] at h
    cases hp : (S.post (postParams S x (step + 1) acc) (priorParams S (step + 1) acc)).pop m with
    | none => simp [hp] at h
    | some r =>
      obtain ⟨m1, i⟩ := r
      rw [hp] at h
      obtain ⟨hv, hpush⟩ := (hS.post _ _).push_pop _ _ _ hp
      obtain ⟨c1, c2, c3⟩ := ih (⟨i, priorParams S (step + 1) acc⟩ :: acc) k1 m1 m' ls
        ⟨hv, rfl, hc⟩ h
      refine ⟨c1, by rw [c2, List.length_cons]; omega, fun k' => ?_⟩
      obtain ⟨k2, h2⟩ := c3 k'
      refine ⟨(trackPush S (S.post (postParams S x (step + 1) acc) (priorParams S (step + 1) acc))
        (step + 1) k2 m1 i).1, ?_⟩
      rw [h2]
      simp only [posteriorPush, trackPush_snd, hpush]

/-- `prior_pop` after `prior_push` of a chain returns the chain. -/
theorem priorPop_push (S : Setup M D R Λ P I) {VI : I → Prop} {VD : D → Prop} (hS : CoderOk S VI VD) :
    ∀ (ls : List (DiscrLatent I P)) (j : Nat) (k k' : Counters) (m : M), Chain S VI (j + 1) ls →
      ∃ k'', (priorPop S (j + ls.length) [] k' (priorPush S (j + 1) ls k m).2).2 =
        (priorPop S j ls k'' m).2 := by
  intro ls
  induction ls with
  | nil => intro j k k' m _; exact ⟨k', rfl⟩
  | cons d ds ih =>
    intro j k k' m hc
    obtain ⟨hv, hp, hc'⟩ := hc
    obtain ⟨k1, h1⟩ := ih (j + 1) (trackPush S S.prior (j + 1) k m d.inds).1 k'
      (S.prior.push m d.inds) hc'
    obtain ⟨k2, h2⟩ := priorPop_succ S j ds k1 (S.prior.push m d.inds)
    rw [hS.prior.pop_push _ _ hv] at h2
    refine ⟨k2, ?_⟩
    rw [List.length_cons, show j + (ds.length + 1) = (j + 1) + ds.length by omega]
    simp only [priorPush, trackPush_snd]
    rw [h1, h2]
    show (priorPop S j (⟨d.inds, priorParams S (j + 1) ds⟩ :: ds) k2 m).2 = _
    rw [← hp]

/-- What `prior_pop` returns: a chain of the right length, and `prior_push` undoes it. -/
theorem priorPop_spec (S : Setup M D R Λ P I) {VI : I → Prop} {VD : D → Prop} (hS : CoderOk S VI VD) :
    ∀ (step : Nat) (acc : List (DiscrLatent I P)) (k : Counters) (m m' : M)
      (ls : List (DiscrLatent I P)), Chain S VI (step + 1) acc →
      (priorPop S step acc k m).2 = some (m', ls) →
      Chain S VI 1 ls ∧ ls.length = step + acc.length ∧
      ∀ k', ∃ k'', (priorPush S 1 ls k' m') = priorPush S (step + 1) acc k'' m := by
  intro step
  induction step with
  | zero =>
    intro acc k m m' ls hc h
    simp only [priorPop, Option.some.injEq, Prod.mk.injEq] at h
    obtain ⟨rfl, rfl⟩ := h
    exact ⟨hc, by simp, fun k' => ⟨k', rfl⟩⟩
  | succ step ih =>
    intro acc k m m' ls hc h
    obtain ⟨k1, h1⟩ := priorPop_succ S step acc k m
    rw [h1] at h
    cases hp : S.prior.pop m with
    | none => simp [hp] at h
    | some r =>
      obtain ⟨m1, i⟩ := r
      rw [hp] at h
      obtain ⟨hv, hpush⟩ := hS.prior.push_pop _ _ _ hp
      obtain ⟨c1, c2, c3⟩ := ih (⟨i, priorParams S (step + 1) acc⟩ :: acc) k1 m1 m' ls
        ⟨hv, rfl, hc⟩ h
      refine ⟨c1, by rw [c2, List.length_cons]; omega, fun k' => ?_⟩
      obtain ⟨k2, h2⟩ := c3 k'
      refine ⟨(trackPush S S.prior (step + 1) k2 m1 i).1, ?_⟩
      rw [h2]
      simp only [priorPush, trackPush_snd, hpush]

/-- `posterior_pop` after `posterior_push` of a chain returns the chain. -/
theorem posteriorPop_push (S : Setup M D R Λ P I) {VI : I → Prop} {VD : D → Prop} (hS : CoderOk S VI VD)
    (x : R) : ∀ (ls : List (DiscrLatent I P)) (j : Nat) (k k' : Counters) (m : M), Chain S VI (j + 1) ls →
      ∃ k'', (posteriorPop S x (j + ls.length) [] k' (posteriorPush S x (j + 1) ls k m).2).2 =
        (posteriorPop S x j ls k'' m).2 := by
  intro ls
  induction ls with
  | nil => intro j k k' m _; exact ⟨k', rfl⟩
  | cons d ds ih =>
    intro j k k' m hc
    obtain ⟨hv, hp, hc'⟩ := hc
    obtain ⟨k1, h1⟩ := ih (j + 1)
      (trackPush S (S.post (postParams S x (j + 1) ds) d.params) (j + 1) k m d.inds).1 k'
      ((S.post (postParams S x (j + 1) ds) d.params).push m d.inds) hc'
    obtain ⟨k2, h2⟩ := posteriorPop_succ S x j ds k1
      ((S.post (postParams S x (j + 1) ds) d.params).push m d.inds)
    rw [← hp, (hS.post _ _).pop_push _ _ hv] at h2
    refine ⟨k2, ?_⟩
    rw [List.length_cons, show j + (ds.length + 1) = (j + 1) + ds.length by omega]
    simp only [posteriorPush, trackPush_snd]
    rw [h1, h2]

/-! ### Byte counters -/

theorem total_addPush (n : Nat) (c : Counters) (step : Nat) (v : Int) (h : step ≤ n) :
    total n (c.addPush step v).push = total n c.push + v ∧ (c.addPush step v).pop = c.pop := by
  refine ⟨?_, rfl⟩
  unfold total Counters.addPush
  have : ∀ k, (if k = step then c.push k + v else c.push k) = c.push k + if k = step then v else 0 := by
    intro k; split <;> simp
  simp only [this, Finset.sum_add_distrib, Finset.sum_ite_eq', Finset.mem_range]
  rw [if_pos (by omega)]

theorem total_addPop (n : Nat) (c : Counters) (step : Nat) (v : Int) (h : step ≤ n) :
    total n (c.addPop step v).pop = total n c.pop + v ∧ (c.addPop step v).push = c.push := by
  refine ⟨?_, rfl⟩
  unfold total Counters.addPop
  have : ∀ k, (if k = step then c.pop k + v else c.pop k) = c.pop k + if k = step then v else 0 := by
    intro k; split <;> simp
  simp only [this, Finset.sum_add_distrib, Finset.sum_ite_eq', Finset.mem_range]
  rw [if_pos (by omega)]

/-- Bytes pushed minus bytes popped. -/
def net (steps : Nat) (c : Counters) : Int := total steps c.push - total steps c.pop

theorem trackPush_net (S : Setup M D R Λ P I) (ht : S.track = true) {α : Type} (c : PCodec M α)
    (step : Nat) (hs : step ≤ S.steps) (k : Counters) (m : M) (x : α) :
    net S.steps (trackPush S c step k m x).1 - S.nbytes (trackPush S c step k m x).2 =
      net S.steps k - S.nbytes m := by
  obtain ⟨h1, h2⟩ := total_addPush S.steps k step ((S.nbytes (c.push m x) : Int) - S.nbytes m) hs
  simp only [trackPush, ht, if_true, net, h1, h2]
  ring

theorem trackPop_net (S : Setup M D R Λ P I) (ht : S.track = true) {α : Type} (c : PCodec M α)
    (step : Nat) (hs : step ≤ S.steps) (k k' : Counters) (m m' : M) (x : α)
    (h : trackPop S c step k m = (k', some (m', x))) :
    net S.steps k' - S.nbytes m' = net S.steps k - S.nbytes m := by
  unfold trackPop at h
  cases hp : c.pop m with
  | none => rw [hp] at h; simp at h
  | some r =>
    obtain ⟨m1, y⟩ := r
    rw [hp] at h
    simp only [ht, if_true, Prod.mk.injEq, Option.some.injEq] at h
    obtain ⟨rfl, rfl, rfl⟩ := h
    obtain ⟨h1, h2⟩ := total_addPop S.steps k step ((S.nbytes m : Int) - S.nbytes m1) hs
    simp only [net, h1, h2]
    ring

theorem priorPush_net (S : Setup M D R Λ P I) (ht : S.track = true) :
    ∀ (ls : List (DiscrLatent I P)) (step : Nat) (k : Counters) (m : M), step + ls.length ≤ S.steps + 1 →
    net S.steps (priorPush S step ls k m).1 - S.nbytes (priorPush S step ls k m).2 =
      net S.steps k - S.nbytes m := by
  intro ls
  induction ls with
  | nil => intro step k m _; rfl
  | cons d ds ih =>
    intro step k m h
    rw [List.length_cons] at h
    simp only [priorPush]
    rw [ih _ _ _ (by omega), trackPush_net S ht _ _ (by omega)]

theorem posteriorPush_net (S : Setup M D R Λ P I) (ht : S.track = true) (x : R) :
    ∀ (ls : List (DiscrLatent I P)) (step : Nat) (k : Counters) (m : M), step + ls.length ≤ S.steps + 1 →
    net S.steps (posteriorPush S x step ls k m).1 - S.nbytes (posteriorPush S x step ls k m).2 =
      net S.steps k - S.nbytes m := by
  intro ls
  induction ls with
  | nil => intro step k m _; rfl
  | cons d ds ih =>
    intro step k m h
    rw [List.length_cons] at h
    simp only [posteriorPush]
    rw [ih _ _ _ (by omega), trackPush_net S ht _ _ (by omega)]

theorem priorPop_net (S : Setup M D R Λ P I) (ht : S.track = true) :
    ∀ (step : Nat) (acc : List (DiscrLatent I P)) (k k' : Counters) (m m' : M) (ls : List (DiscrLatent I P)),
      step ≤ S.steps → priorPop S step acc k m = (k', some (m', ls)) →
      net S.steps k' - S.nbytes m' = net S.steps k - S.nbytes m ∧ ls.length = step + acc.length := by
  intro step
  induction step with
  | zero =>
    intro acc k k' m m' ls _ h
    simp only [priorPop, Prod.mk.injEq, Option.some.injEq] at h
    obtain ⟨rfl, rfl, rfl⟩ := h
    exact ⟨rfl, by simp⟩
  | succ step ih =>
    intro acc k k' m m' ls hs h
    simp only [priorPop] at h
    rcases hp : trackPop S S.prior (step + 1) k m with ⟨k1, _ | ⟨m1, i⟩⟩
    · rw [hp] at h; simp at h
    · rw [hp] at h
      obtain ⟨h1, h2⟩ := ih _ _ _ _ _ _ (by omega) h
      rw [h1, trackPop_net S ht _ _ hs _ _ _ _ _ hp]
      exact ⟨rfl, by rw [h2, List.length_cons]; omega⟩

theorem posteriorPop_net (S : Setup M D R Λ P I) (ht : S.track = true) (x : R) :
    ∀ (step : Nat) (acc : List (DiscrLatent I P)) (k k' : Counters) (m m' : M) (ls : List (DiscrLatent I P)),
      step ≤ S.steps → posteriorPop S x step acc k m = (k', some (m', ls)) →
      net S.steps k' - S.nbytes m' = net S.steps k - S.nbytes m ∧ ls.length = step + acc.length := by
  intro step
  induction step with
  | zero =>
    intro acc k k' m m' ls _ h
    simp only [posteriorPop, Prod.mk.injEq, Option.some.injEq] at h
    obtain ⟨rfl, rfl, rfl⟩ := h
    exact ⟨rfl, by simp⟩
  | succ step ih =>
    intro acc k k' m m' ls hs h
    simp only [posteriorPop] at h
    rcases hp : trackPop S (S.post (postParams S x (step + 1) acc) (priorParams S (step + 1) acc))
      (step + 1) k m with ⟨k1, _ | ⟨m1, i⟩⟩
    · rw [hp] at h; simp at h
    · rw [hp] at h
      obtain ⟨h1, h2⟩ := ih _ _ _ _ _ _ (by omega) h
      rw [h1, trackPop_net S ht _ _ hs _ _ _ _ _ hp]
      exact ⟨rfl, by rw [h2, List.length_cons]; omega⟩

end Verif.Diffusion
