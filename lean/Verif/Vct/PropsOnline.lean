import Verif.Vct.Online
import Verif.Vct.PropsMemoize

/-!
Property C123: one pass over a video codes every scene once and in order, asks for no scene before it needs it, and its cache
never mixes up scenes, whatever identities the memory allocator reuses
(`projects/torch_vct/model_pipeline.py:196-366`, `utils/memoize.py`).
-/

namespace Verif.Vct.Online

open Verif.Vct.Memo

variable {Scene Lat Feat Proc Rec Lik : Type}

/-! ### Specification: a loop without cache, generators and memory -/

/-- Code the scenes one after the other, from scene `i` on, with the previous latents `state`. -/
def plainFrom (n : Nets Scene Lat Feat Proc Rec Lik) (ctxLen : ℕ) : ℕ → List (Lat × Proc) → List Scene → List (Rec × Lik)
  | _, _, [] => []
  | i, state, s :: rest =>
    let ctx := if i = 0 then Pipe.context [(n.fake s, n.process (n.fake s))] else Pipe.context state
    let b := n.entropy i s ctx
    let state' := if i = 0 then [(b.latentQ, n.process b.latentQ)]
      else Pipe.sliceLast ctxLen (state ++ [(b.latentQ, n.process b.latentQ)])
    (n.dequantize b.latentQ b.features, n.bits i s ctx) :: plainFrom n ctxLen (i + 1) state' rest

/-- Code the scenes of a video. -/
def plain (n : Nets Scene Lat Feat Proc Rec Lik) (ctxLen : ℕ) (scenes : List Scene) : List (Rec × Lik) :=
  plainFrom n ctxLen 0 [] scenes

/-- The allocator never gives a new tensor the identity of one that is in use. -/
def Sound (pick : Pick) : Prop := ∀ n live, pick n live ∉ live

/-! ### Keys -/

theorem sort_enc (b s : PyVal) :
    List.insertionSort (fun x y : String × PyVal => x.1 ≤ y.1) [("bottleneck", b), ("state", s), ("cache", .cache)] =
      [("bottleneck", b), ("cache", .cache), ("state", s)] := by
  have h1 : ¬ ("state" : String) ≤ "cache" := by decide
  have h2 : ("bottleneck" : String) ≤ "cache" := by decide
  simp [List.insertionSort, List.orderedInsert, h1, h2]

theorem sort_dec (s : PyVal) :
    List.insertionSort (fun x y : String × PyVal => x.1 ≤ y.1) [("state", s), ("cache", .cache)] =
      [("cache", .cache), ("state", s)] := by
  have h1 : ¬ ("state" : String) ≤ "cache" := by decide
  simp [List.insertionSort, List.orderedInsert, h1]

def keyEnc (b : BRef Lat Feat Lik) (s : List (Entry Lat Proc)) : Key := keyOf (callPenc b s).args (callPenc b s).kwargs

def keyDec (b : BRef Lat Feat Lik) (s : List (Entry Lat Proc)) : Key := keyOf (callPdec b s).args (callPdec b s).kwargs

theorem keyEnc_inj {b b' : BRef Lat Feat Lik} {s s' : List (Entry Lat Proc)} (h : keyEnc b s = keyEnc b' s') :
    b.lat.id = b'.lat.id := by
  simp only [keyEnc, callPenc, keyOf, sort_enc] at h
  simp [PyVal.isCache, self, BRef.arg, stateArg, ensureHashable, ensureAll] at h
  exact_mod_cast h.1.1

theorem keyDec_inj {b b' : BRef Lat Feat Lik} {s s' : List (Entry Lat Proc)} (h : keyDec b s = keyDec b' s') :
    b.lat.id = b'.lat.id := by
  simp only [keyDec, callPdec, keyOf, sort_dec] at h
  simp [PyVal.isCache, self, BRef.arg, stateArg, ensureHashable, ensureAll] at h
  exact_mod_cast h.1.1

theorem keyEnc_ne_keyDec (b b' : BRef Lat Feat Lik) (s s' : List (Entry Lat Proc)) : keyEnc b s ≠ keyDec b' s' := by
  intro h
  simp only [keyEnc, keyDec, callPenc, callPdec, keyOf, sort_enc, sort_dec] at h
  simp [PyVal.isCache, self, BRef.arg, stateArg, ensureHashable, ensureAll] at h

/-! ### Calls -/

/-- The world after a result has been stored. -/
def stored (w : World Lat Proc Rec) (fn : Fn) (k : Key) (r : Result Lat Proc Rec) (count : ℕ) : World Lat Proc Rec :=
  ⟨⟨Function.update w.cache.results fn ((k, r) :: w.cache.results fn), w.cache.hits⟩, count⟩

/-- The world after a result has been used again. -/
def reused (w : World Lat Proc Rec) (fn : Fn) (k : Key) : World Lat Proc Rec :=
  ⟨⟨w.cache.results, Function.update w.cache.hits fn (bump k (w.cache.hits fn))⟩, w.count⟩

theorem callMemo_miss (w : World Lat Proc Rec) (call : Call Fn)
    (body : World Lat Proc Rec → Result Lat Proc Rec × World Lat Proc Rec) (he : call.expectHit = none)
    (h : (w.cache.results call.fn).lookup (keyOf call.args call.kwargs) = none) :
    callMemo w call body =
      some ((body w).1, stored w call.fn (keyOf call.args call.kwargs) (body w).1 (body w).2.count) := by
  simp [callMemo, callCached, h, he, stored]

theorem callMemo_hit (w : World Lat Proc Rec) (call : Call Fn)
    (body : World Lat Proc Rec → Result Lat Proc Rec × World Lat Proc Rec) (he : call.expectHit = none)
    {r : Result Lat Proc Rec} (h : (w.cache.results call.fn).lookup (keyOf call.args call.kwargs) = some r) :
    callMemo w call body = some (r, reused w call.fn (keyOf call.args call.kwargs)) := by
  simp [callMemo, callCached, h, he, reused]

theorem mem_slice {α : Type} (k : ℕ) (l : List α) (e : α) : e ∈ Pipe.sliceLast k (l ++ [e]) := by
  unfold Pipe.sliceLast
  split
  · simp
  · rename_i hk
    rw [List.drop_append_of_le_length (by rw [List.length_append, List.length_singleton]; omega)]
    simp

/-- The values of a state. -/
def vals (s : List (Entry Lat Proc)) : List (Lat × Proc) := s.map fun e => (e.1.val, e.2.val)

theorem vals_slice (k : ℕ) (s : List (Entry Lat Proc)) : vals (Pipe.sliceLast k s) = Pipe.sliceLast k (vals s) := by
  unfold Pipe.sliceLast vals
  split
  · rfl
  · rw [List.map_drop, List.length_map]

/-- What is in the cache of `decode_Pscene`: the keys are those of one of the two callers, and the latent is kept alive by the
result. -/
def Tidy (w : World Lat Proc Rec) (Feat Lik : Type) : Prop :=
  ∀ e ∈ w.cache.results .decodeP, ∃ (b : BRef Lat Feat Lik) (s : List (Entry Lat Proc)),
    (e.1 = keyEnc b s ∨ e.1 = keyDec b s) ∧ b.lat.id ∈ stateIds e.2.state

theorem held_of_mem {w : World Lat Proc Rec} {e : Key × Result Lat Proc Rec} (he : e ∈ w.cache.results .decodeP) {i : ℕ}
    (hi : i ∈ stateIds e.2.state) : i ∈ w.held := by
  unfold World.held
  rw [List.mem_flatMap]
  exact ⟨e, List.mem_append_right _ he, List.mem_cons_of_mem _ hi⟩

theorem lookup_none {V : Type} (l : List (Key × V)) (k : Key) (h : ∀ e ∈ l, e.1 ≠ k) : l.lookup k = none := by
  induction l with
  | nil => rfl
  | cons e l ih =>
    obtain ⟨k', v⟩ := e
    rw [List.lookup_cons]
    have : (k == k') = false := beq_eq_false_iff_ne.2 fun hc => h (k', v) List.mem_cons_self hc.symm
    rw [this]
    exact ih fun e he => h e (List.mem_cons_of_mem _ he)

/-! ### One step of the pass -/

/-- The generators between two scenes. -/
structure Inv (i : ℕ) (state : List (Lat × Proc)) (scenes : List Scene) (st : St Scene Lat Feat Proc Rec Lik) : Prop where
  todo : st.todo = scenes
  outs : st.outs = []
  tee : st.outsTee = []
  enc : st.encIndex = i
  dec : st.decIndex = i
  encState : i ≠ 0 → vals st.encState = state
  decState : i ≠ 0 → vals st.decState = state
  empty : i = 0 → st.world.cache = createCache Fn _
  tidy : Tidy st.world Feat Lik
  hitsI : i ≠ 0 → totalHits st.world.cache .decodeI = 1
  hitsP : totalHits st.world.cache .decodeP = 0

theorem step_first {pick : Pick} (n : Nets Scene Lat Feat Proc Rec Lik) (ctxLen : ℕ) {s : Scene} {rest : List Scene}
    {st : St Scene Lat Feat Proc Rec Lik} {state : List (Lat × Proc)} (h : Inv 0 state (s :: rest) st) :
    let ctx := Pipe.context [(n.fake s, n.process (n.fake s))]
    let b := n.entropy 0 s ctx
    ∃ st', passNext pick n ctxLen st = some (some (n.dequantize b.latentQ b.features, n.bits 0 s ctx), st') ∧
      Inv 1 [(b.latentQ, n.process b.latentQ)] rest st' := by
  intro ctx b
  have hc := h.empty rfl
  set B := newBottleneck pick n st.world [] 0 s ctx with hB
  have hBc : B.2.cache = createCache Fn _ := by rw [← hc]; rfl
  have m1 : callMemo B.2 (callI B.1) (evalI pick n B.1) = some ((evalI pick n B.1 B.2).1,
      stored B.2 .decodeI (keyOf (callI B.1).args (callI B.1).kwargs) (evalI pick n B.1 B.2).1
        (evalI pick n B.1 B.2).2.count) :=
    callMemo_miss B.2 (callI B.1) (evalI pick n B.1) rfl (by rw [hBc]; rfl)
  have e1 : encNext pick n ctxLen st = some (some B.1, { st with
      world := stored B.2 .decodeI (keyOf (callI B.1).args (callI B.1).kwargs) (evalI pick n B.1 B.2).1
        (evalI pick n B.1 B.2).2.count
      todo := rest, encIndex := 1, encState := (evalI pick n B.1 B.2).1.state }) := by
    unfold encNext
    rw [h.todo]
    have hB' : newBottleneck pick n st.world [] 0 s (Pipe.context [(n.fake s, n.process (n.fake s))]) = B := rfl
    simp only [h.enc, if_true, hB', m1, Nat.zero_add]
  set st1 : St Scene Lat Feat Proc Rec Lik := { st with
      world := stored B.2 .decodeI (keyOf (callI B.1).args (callI B.1).kwargs) (evalI pick n B.1 B.2).1
        (evalI pick n B.1 B.2).2.count
      todo := rest, encIndex := 1, encState := (evalI pick n B.1 B.2).1.state } with hst1
  have e2 : teeNext pick n ctxLen st = some (some B.1, { st1 with outs := [B.1] }) := by
    unfold teeNext
    rw [h.tee, e1]
    have ho : st1.outs = [] := h.outs
    show some (some B.1, { st1 with outs := st1.outs ++ [B.1] }) = _
    have ht : st1.outsTee = [] := h.tee
    rw [ho, List.nil_append, ht]
  have m2 : callMemo st1.world (callI B.1) (evalI pick n B.1) = some ((evalI pick n B.1 B.2).1,
      reused st1.world .decodeI (keyOf (callI B.1).args (callI B.1).kwargs)) :=
    callMemo_hit st1.world (callI B.1) (evalI pick n B.1) rfl (r := (evalI pick n B.1 B.2).1) (by
      simp [hst1, callI, stored])
  have e3 : decNext pick n ctxLen st = some (some (evalI pick n B.1 B.2).1.recon, { st1 with
      outs := [B.1]
      world := reused st1.world .decodeI (keyOf (callI B.1).args (callI B.1).kwargs)
      decIndex := 1, decState := (evalI pick n B.1 B.2).1.state }) := by
    unfold decNext
    rw [e2]
    have hd : st1.decIndex = 0 := h.dec
    simp only [hd, if_true, m2, Nat.zero_add]
  have hval : (evalI pick n B.1 B.2).1.recon.val = n.dequantize b.latentQ b.features ∧ B.1.lik.val = n.bits 0 s ctx :=
    ⟨rfl, rfl⟩
  refine ⟨{ st1 with
      outs := []
      world := reused st1.world .decodeI (keyOf (callI B.1).args (callI B.1).kwargs)
      decIndex := 1, decState := (evalI pick n B.1 B.2).1.state }, ?_, ?_⟩
  · unfold passNext
    rw [e3]
    simp only [outsNext, hval.1, hval.2]
  · exact {
      todo := rfl
      outs := rfl
      tee := h.tee
      enc := rfl
      dec := rfl
      encState := fun _ => rfl
      decState := fun _ => rfl
      empty := fun hh => absurd hh (by decide)
      tidy := by
        intro e he
        simp [hst1, hBc, createCache, stored, reused] at he
      hitsI := by
        intro _
        simp [hst1, hBc, createCache, totalHits, bump, stored, reused]
      hitsP := by
        simp [hst1, hBc, createCache, totalHits, bump, stored, reused] }

theorem step_later {pick : Pick} (hp : Sound pick) (n : Nets Scene Lat Feat Proc Rec Lik) (ctxLen : ℕ) {i : ℕ} (hi : i ≠ 0)
    {s : Scene} {rest : List Scene} {st : St Scene Lat Feat Proc Rec Lik} {state : List (Lat × Proc)}
    (h : Inv i state (s :: rest) st) :
    let ctx := Pipe.context state
    let b := n.entropy i s ctx
    ∃ st', passNext pick n ctxLen st = some (some (n.dequantize b.latentQ b.features, n.bits i s ctx), st') ∧
      Inv (i + 1) (Pipe.sliceLast ctxLen (state ++ [(b.latentQ, n.process b.latentQ)])) rest st' := by
  intro ctx b
  have hctx : Pipe.context (st.encState.map fun e => (e.1.val, e.2.val)) = ctx := by
    have := h.encState hi
    unfold vals at this
    rw [this]
  set B := newBottleneck pick n st.world (stateIds st.encState) i s ctx with hB
  have hBc : B.2.cache = st.world.cache := rfl
  have hBv : B.1.lat.val = b.latentQ ∧ B.1.feat.val = b.features ∧ B.1.lik.val = n.bits i s ctx := ⟨rfl, rfl, rfl⟩
  have hnew : B.1.lat.id ∉ st.world.held := fun hm => hp _ _ (List.mem_append_right _ hm)
  have hne : ∀ e ∈ st.world.cache.results .decodeP, ∀ (b' : BRef Lat Feat Lik) (s' : List (Entry Lat Proc)),
      b'.lat.id = B.1.lat.id → e.1 ≠ keyEnc b' s' ∧ e.1 ≠ keyDec b' s' := by
    intro e he b' s' hb'
    obtain ⟨b0, s0, hk, hl⟩ := h.tidy e he
    have hh := held_of_mem he hl
    constructor <;> intro hcon
    · rcases hk with hk | hk
      · exact hnew (by rw [← hb', ← keyEnc_inj (hk.symm.trans hcon)]; exact hh)
      · exact keyEnc_ne_keyDec _ _ _ _ (hcon.symm.trans hk)
    · rcases hk with hk | hk
      · exact keyEnc_ne_keyDec _ _ _ _ (hk.symm.trans hcon)
      · exact hnew (by rw [← hb', ← keyDec_inj (hk.symm.trans hcon)]; exact hh)
  set R1 := (evalP pick n ctxLen B.1 st.encState B.2) with hR1
  have m1 : callMemo B.2 (callPenc B.1 st.encState) (evalP pick n ctxLen B.1 st.encState) =
      some (R1.1, stored B.2 .decodeP (keyEnc B.1 st.encState) R1.1 R1.2.count) :=
    callMemo_miss B.2 (callPenc B.1 st.encState) (evalP pick n ctxLen B.1 st.encState) rfl
      (lookup_none _ _ fun e he => (hne e he B.1 st.encState rfl).1)
  have e1 : encNext pick n ctxLen st = some (some B.1, { st with
      world := stored B.2 .decodeP (keyEnc B.1 st.encState) R1.1 R1.2.count
      todo := rest, encIndex := i + 1, encState := R1.1.state }) := by
    unfold encNext
    rw [h.todo]
    simp only [h.enc, if_neg hi, hctx, ← hB, m1]
  set st1 : St Scene Lat Feat Proc Rec Lik := { st with
      world := stored B.2 .decodeP (keyEnc B.1 st.encState) R1.1 R1.2.count
      todo := rest, encIndex := i + 1, encState := R1.1.state } with hst1
  have e2 : teeNext pick n ctxLen st = some (some B.1, { st1 with outs := [B.1] }) := by
    unfold teeNext
    rw [h.tee, e1]
    have ho : st1.outs = [] := h.outs
    show some (some B.1, { st1 with outs := st1.outs ++ [B.1] }) = _
    have ht : st1.outsTee = [] := h.tee
    rw [ho, List.nil_append, ht]
  have hres : st1.world.cache.results .decodeP = (keyEnc B.1 st.encState, R1.1) :: st.world.cache.results .decodeP := by
    simp [hst1, hBc, stored]
  set R2 := (evalP pick n ctxLen B.1 st.decState st1.world) with hR2
  have m2 : callMemo st1.world (callPdec B.1 st.decState) (evalP pick n ctxLen B.1 st.decState) =
      some (R2.1, stored st1.world .decodeP (keyDec B.1 st.decState) R2.1 R2.2.count) :=
    callMemo_miss st1.world (callPdec B.1 st.decState) (evalP pick n ctxLen B.1 st.decState) rfl (by
      refine lookup_none _ _ fun e he => ?_
      have he : e ∈ (keyEnc B.1 st.encState, R1.1) :: st.world.cache.results .decodeP := by rw [← hres]; exact he
      rcases List.mem_cons.1 he with rfl | he
      · exact keyEnc_ne_keyDec _ _ _ _
      · exact (hne e he B.1 st.decState rfl).2)
  have e3 : decNext pick n ctxLen st = some (some R2.1.recon, { st1 with
      outs := [B.1]
      world := stored st1.world .decodeP (keyDec B.1 st.decState) R2.1 R2.2.count
      decIndex := i + 1, decState := R2.1.state }) := by
    unfold decNext
    rw [e2]
    have hd : st1.decIndex = i := h.dec
    have hds : st1.decState = st.decState := rfl
    simp only [hd, if_neg hi, hds, m2]
  have hs1 : vals R1.1.state = Pipe.sliceLast ctxLen (state ++ [(b.latentQ, n.process b.latentQ)]) := by
    have : R1.1.state = Pipe.sliceLast ctxLen (st.encState ++ [(B.1.lat, ⟨_, n.process B.1.lat.val⟩)]) := rfl
    rw [this, vals_slice]
    congr 1
    unfold vals
    rw [List.map_append]
    have := h.encState hi
    unfold vals at this
    rw [this]
    rfl
  have hs2 : vals R2.1.state = Pipe.sliceLast ctxLen (state ++ [(b.latentQ, n.process b.latentQ)]) := by
    have : R2.1.state = Pipe.sliceLast ctxLen (st.decState ++ [(B.1.lat, ⟨_, n.process B.1.lat.val⟩)]) := rfl
    rw [this, vals_slice]
    congr 1
    unfold vals
    rw [List.map_append]
    have := h.decState hi
    unfold vals at this
    rw [this]
    rfl
  have hk1 : B.1.lat.id ∈ stateIds R1.1.state := by
    unfold stateIds
    rw [List.mem_flatMap]
    exact ⟨_, mem_slice ctxLen st.encState _, List.mem_cons_self⟩
  have hk2 : B.1.lat.id ∈ stateIds R2.1.state := by
    unfold stateIds
    rw [List.mem_flatMap]
    exact ⟨_, mem_slice ctxLen st.decState _, List.mem_cons_self⟩
  have hval : R2.1.recon.val = n.dequantize b.latentQ b.features ∧ B.1.lik.val = n.bits i s ctx := ⟨rfl, rfl⟩
  refine ⟨{ st1 with
      outs := []
      world := stored st1.world .decodeP (keyDec B.1 st.decState) R2.1 R2.2.count
      decIndex := i + 1, decState := R2.1.state }, ?_, ?_⟩
  · unfold passNext
    rw [e3]
    simp only [outsNext, hval.1, hval.2]
  · exact {
      todo := rfl
      outs := rfl
      tee := h.tee
      enc := rfl
      dec := rfl
      encState := fun _ => hs1
      decState := fun _ => hs2
      empty := fun hh => absurd hh (Nat.succ_ne_zero _)
      tidy := by
        intro e he
        have he : e ∈ (keyDec B.1 st.decState, R2.1) :: (keyEnc B.1 st.encState, R1.1) ::
            st.world.cache.results .decodeP := by
          rw [← hres]
          simpa [stored] using he
        rcases List.mem_cons.1 he with rfl | he
        · exact ⟨B.1, st.decState, Or.inr rfl, hk2⟩
        · rcases List.mem_cons.1 he with rfl | he
          · exact ⟨B.1, st.encState, Or.inl rfl, hk1⟩
          · exact h.tidy e he
      hitsI := fun _ => h.hitsI hi
      hitsP := h.hitsP }

/-! ### The whole pass -/

theorem take_spec {pick : Pick} (hp : Sound pick) (n : Nets Scene Lat Feat Proc Rec Lik) (ctxLen : ℕ) :
    ∀ (k i : ℕ) (state : List (Lat × Proc)) (scenes : List Scene) (st : St Scene Lat Feat Proc Rec Lik),
      Inv i state scenes st →
      ∃ st' state', take pick n ctxLen k st = some (plainFrom n ctxLen i state (scenes.take k), st') ∧
        Inv (i + min k scenes.length) state' (scenes.drop k) st' := by
  intro k
  induction k with
  | zero =>
    intro i state scenes st h
    exact ⟨st, state, by simp [take, plainFrom], by simpa using h⟩
  | succ k ih =>
    intro i state scenes st h
    cases scenes with
    | nil =>
      refine ⟨st, state, ?_, by simpa using h⟩
      have : passNext pick n ctxLen st = some (none, st) := by
        simp only [passNext, decNext, teeNext, h.tee, encNext, h.todo]
      simp [take, this, plainFrom]
    | cons s rest =>
      by_cases hi : i = 0
      · subst hi
        obtain ⟨st1, h1, h2⟩ := step_first (pick := pick) n ctxLen h
        obtain ⟨st2, state2, h3, h4⟩ := ih _ _ _ _ h2
        refine ⟨st2, state2, ?_, ?_⟩
        · simp only [take, h1, h3, List.take_succ_cons, plainFrom, if_true, Nat.zero_add]
        · have e : 0 + min (k + 1) (s :: rest).length = 1 + min k rest.length := by
            rw [List.length_cons]; omega
          rw [e, List.drop_succ_cons]
          exact h4
      · obtain ⟨st1, h1, h2⟩ := step_later hp n ctxLen hi h
        obtain ⟨st2, state2, h3, h4⟩ := ih _ _ _ _ h2
        refine ⟨st2, state2, ?_, ?_⟩
        · simp only [take, h1, h3, List.take_succ_cons, plainFrom, if_neg hi]
        · have e : i + min (k + 1) (s :: rest).length = i + 1 + min k rest.length := by
            rw [List.length_cons]; omega
          rw [e, List.drop_succ_cons]
          exact h4

theorem start_inv (scenes : List Scene) : Inv 0 [] scenes (start scenes : St Scene Lat Feat Proc Rec Lik) :=
  ⟨rfl, rfl, rfl, rfl, rfl, fun h => absurd rfl h, fun h => absurd rfl h, fun _ => rfl, by intro e he; simp [start, createCache] at he,
    fun h => absurd rfl h, rfl⟩

/-- **C123.** For every video, every context length and every memory allocator: asking `encode_and_decode_scenes` for `k` outputs
raises nothing and gives what the plain loop gives for the first `k` scenes alone; exactly these scenes have been taken from the
video, each of them once. -/
theorem C123_online {pick : Pick} (hp : Sound pick) (n : Nets Scene Lat Feat Proc Rec Lik) (ctxLen k : ℕ) (scenes : List Scene) :
    ∃ st, take pick n ctxLen k (start scenes) = some (plain n ctxLen (scenes.take k), st) ∧ st.todo = scenes.drop k ∧
      st.encIndex = min k scenes.length ∧ st.decIndex = min k scenes.length := by
  obtain ⟨st, state', h1, h2⟩ := take_spec hp n ctxLen k 0 [] scenes (start scenes) (start_inv scenes)
  exact ⟨st, h1, h2.todo, by rw [h2.enc, Nat.zero_add], by rw [h2.dec, Nat.zero_add]⟩

/-- **C123, whole video.** The loop of `forward` ends, with one output per scene, those of the plain loop. -/
theorem C123_forward {pick : Pick} (hp : Sound pick) (n : Nets Scene Lat Feat Proc Rec Lik) (ctxLen : ℕ) (scenes : List Scene) :
    ∃ st, take pick n ctxLen (scenes.length + 1) (start scenes) = some (plain n ctxLen scenes, st) ∧ st.todo = [] ∧
      (plain n ctxLen scenes).length = scenes.length ∧ passNext pick n ctxLen st = some (none, st) := by
  have hlen : ∀ (scenes : List Scene) (i : ℕ) (state : List (Lat × Proc)),
      (plainFrom n ctxLen i state scenes).length = scenes.length := by
    intro scenes
    induction scenes with
    | nil => intro i state; rfl
    | cons s rest ih => intro i state; simp [plainFrom, ih]
  obtain ⟨st, state', h1, h2⟩ := take_spec hp n ctxLen (scenes.length + 1) 0 [] scenes (start scenes) (start_inv scenes)
  rw [List.take_of_length_le (Nat.le_succ _)] at h1
  rw [List.drop_of_length_le (Nat.le_succ _)] at h2
  refine ⟨st, h1, h2.todo, hlen _ _ _, ?_⟩
  simp only [passNext, decNext, teeNext, h2.tee, encNext, h2.todo]

/-- **C123, work.** However many outputs are asked for, the only cached result that is ever used again is that of the first
scene: the latents of all later scenes are processed twice. -/
theorem C123_hits {pick : Pick} (hp : Sound pick) (n : Nets Scene Lat Feat Proc Rec Lik) (ctxLen k : ℕ) (scenes : List Scene)
    {os : List (Rec × Lik)} {st : St Scene Lat Feat Proc Rec Lik} (h : take pick n ctxLen k (start scenes) = some (os, st)) :
    totalHits st.world.cache .decodeP = 0 ∧ (0 < k → scenes ≠ [] → totalHits st.world.cache .decodeI = 1) := by
  obtain ⟨st', state', h1, h2⟩ := take_spec hp n ctxLen k 0 [] scenes (start scenes) (start_inv scenes)
  rw [h1] at h
  simp only [Option.some.injEq, Prod.mk.injEq] at h
  obtain ⟨-, rfl⟩ := h
  refine ⟨h2.hitsP, fun hk hs => h2.hitsI ?_⟩
  have := List.length_pos_iff.2 hs
  omega

/-- The plain loop is the loop of C32: its reconstructions are those of the latents that are coded there. -/
theorem C123_plain (n : Nets Scene Lat Feat Proc Rec Lik) (ctxLen : ℕ) (scenes : List Scene) :
    (plain n ctxLen scenes).map (·.1) =
      (Pipe.encodeScenes n.toNets ctxLen scenes).map fun r => n.dequantize r.2.latentQ r.2.features := by
  have key : ∀ (scenes : List Scene) (i : ℕ) (state : List (Lat × Proc)),
      (plainFrom n ctxLen i state scenes).map (·.1) =
        (Pipe.encodeFrom n.toNets ctxLen i state scenes).map fun r => n.dequantize r.2.latentQ r.2.features := by
    intro scenes
    induction scenes with
    | nil => intro i state; rfl
    | cons s rest ih =>
      intro i state
      by_cases hi : i = 0
      · subst hi
        simp only [plainFrom, Pipe.encodeFrom, if_true, List.map_cons, ih]
        rfl
      · simp only [plainFrom, Pipe.encodeFrom, if_neg hi, List.map_cons, ih]
        rfl
  exact key scenes 0 []

/-! ### Non-vacuity -/

/-- An allocator that reuses the smallest free identity. -/
def smallest : Pick := fun _ live => ((List.range (live.length + 1)).find? fun i => !live.contains i).getD (live.sum + 1)

theorem smallest_sound : Sound smallest := by
  intro n live hm
  unfold smallest at hm
  cases hf : (List.range (live.length + 1)).find? fun i => !live.contains i with
  | some i =>
    rw [hf] at hm
    have := List.find?_some hf
    simp at this
    exact this hm
  | none =>
    rw [hf] at hm
    simp only [Option.getD_none] at hm
    have : ∀ l : List ℕ, ∀ x ∈ l, x ≤ l.sum := by
      intro l
      induction l with
      | nil => intro x hx; cases hx
      | cons y l ih =>
        intro x hx
        rw [List.sum_cons]
        rcases List.mem_cons.1 hx with rfl | hx
        · omega
        · have := ih x hx
          omega
    have := this live _ hm
    omega

/-- Networks that mix all they see. -/
def mixing : Nets ℕ ℕ ℕ ℕ ℕ ℕ where
  fake s := s % 7
  process l := l * 2 + 1
  entropy i s ctx := ⟨s + ctx.sum, s * ctx.length + i⟩
  dequantize l f := l * 100 + f
  bits i s ctx := s * 3 + ctx.sum + i

/-- Five scenes, of which four are asked for; identities are reused on the way (only a few are ever in use). -/
example : ((take smallest mixing 2 4 (start [3, 5, 8, 13, 21])).map fun r => (r.1, r.2.todo)) =
    some (plain mixing 2 [3, 5, 8, 13], [21]) := by
  decide +kernel

end Verif.Vct.Online
