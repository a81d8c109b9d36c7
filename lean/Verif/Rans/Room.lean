import Verif.Rans.Encode

/-
When the stack has room, and what happens to the limit.
-/
namespace Verif.Rans

theorem pushStep_limit_le (sh : Nat) (fs : List Nat) (m : Msg) :
    (pushStep sh fs m).limit ≤ m.limit := by
  simp only [pushStep, tailPush]; omega

theorem pushStep_some {cap sh : Nat} {fs : List Nat} {m : Msg} {s : St} (h : Abs cap m s)
    (hl : (s.heads.length : Int) ≤ (pushStep sh fs m).limit) :
    ∃ s', aPushStep cap sh fs s = some s' := by
  have := pushStep_limit_le sh fs m
  have h2 := h.limit
  have : s.stack.length + s.heads.length ≤ cap := by have := h.room; omega
  simp only [aPushStep, if_pos this]
  exact ⟨_, rfl⟩

theorem aPushStep_len {cap sh : Nat} {fs : List Nat} {s s' : St} (hl : s.heads.length = fs.length)
    (h : aPushStep cap sh fs s = some s') : s'.heads.length = fs.length := by
  simp only [aPushStep] at h
  split at h
  · obtain rfl := Option.some.inj h
    simp only
    rw [shr8_length _ _ (condIdx_length hl), hl]
  · cases h

/-- If a push leaves the limit at or above the number of lanes, every write fitted. -/
theorem push_some {cap p : Nat} (hp : p ≤ 24) {S : List Slot} {m : Msg} {s : St} (h : Abs cap m s)
    (hl : LanesOk p s.heads S)
    (hr : (s.heads.length : Int) ≤ (pushSymbols m (S.map Prod.fst) (S.map fun s => s.1 + s.2) p).limit) :
    ∃ s', aPush cap p S s = some s' := by
  simp only [pushSymbols, freqsOf_eq hp S hl.slots] at hr
  rw [show 2 * 8 + 32 - p = 48 - p by omega, show 1 * 8 + 32 - p = 40 - p by omega] at hr
  have hlen := hl.heads.1
  have hf : s.heads.length = (S.map Prod.snd).length := by rw [hlen, List.length_map]
  generalize hm1 : pushStep (48 - p) (S.map Prod.snd) m = m1 at hr
  generalize hm2 : pushStep (40 - p) (S.map Prod.snd) m1 = m2 at hr
  have e3 := pushStep_limit_le (32 - p) (S.map Prod.snd) m2
  have e2 := pushStep_limit_le (40 - p) (S.map Prod.snd) m1
  rw [hm2] at e2
  obtain ⟨s1, h1⟩ := pushStep_some (sh := 48 - p) (fs := S.map Prod.snd) h (by rw [hm1]; omega)
  have a1 := pushStep_ref h hf h1
  have l1 := aPushStep_len hf h1
  rw [hm1] at a1
  obtain ⟨s2, h2⟩ := pushStep_some (sh := 40 - p) (fs := S.map Prod.snd) a1 (by rw [hm2, l1, ← hf]; omega)
  have a2 := pushStep_ref a1 l1 h2
  have l2 := aPushStep_len l1 h2
  rw [hm2] at a2
  obtain ⟨s3, h3⟩ := pushStep_some (sh := 32 - p) (fs := S.map Prod.snd) a2 (by rw [l2, ← hf]; omega)
  exact ⟨_, by simp only [aPush, h1, h2, h3, Option.bind_some, Option.map_some]; rfl⟩

theorem pushSymbols_limit_le (m : Msg) (lo hi : List Nat) (p : Nat) :
    (pushSymbols m lo hi p).limit ≤ m.limit := by
  simp only [pushSymbols]
  exact le_trans (pushStep_limit_le _ _ _) (le_trans (pushStep_limit_le _ _ _) (pushStep_limit_le _ _ _))

theorem countTrue_le (l : List Bool) : countTrue l ≤ l.length := List.countP_le_length

/-- A push takes at most three bytes per lane. -/
theorem aPush_room {cap p : Nat} {S : List Slot} {s : St}
    (hl : s.heads.length = S.length) (hr : s.stack.length + 3 * s.heads.length ≤ cap) :
    ∃ s', aPush cap p S s = some s' ∧ s'.stack.length ≤ s.stack.length + 3 * s.heads.length := by
  have step : ∀ {sh : Nat} {fs : List Nat} {s : St}, s.heads.length = fs.length →
      s.stack.length + s.heads.length ≤ cap →
      ∃ s', aPushStep cap sh fs s = some s' ∧ s'.heads.length = s.heads.length ∧
        s'.stack.length ≤ s.stack.length + s.heads.length := by
    intro sh fs s hl hr
    simp only [aPushStep, if_pos hr]
    refine ⟨_, rfl, shr8_length _ _ (condIdx_length hl), ?_⟩
    rw [List.length_append, outs_length _ _ (condIdx_length hl)]
    have := countTrue_le (condIdx sh s.heads fs)
    rw [condIdx_length hl] at this
    omega
  have hf : s.heads.length = (S.map Prod.snd).length := by rw [hl, List.length_map]
  obtain ⟨s1, h1, l1, r1⟩ := step (sh := 48 - p) hf (by omega)
  obtain ⟨s2, h2, l2, r2⟩ := step (sh := 40 - p) (l1.trans hf) (by omega)
  obtain ⟨s3, h3, l3, r3⟩ := step (sh := 32 - p) (l2.trans (l1.trans hf)) (by omega)
  refine ⟨_, by simp only [aPush, h1, h2, h3, Option.bind_some, Option.map_some]; rfl, ?_⟩
  show s3.stack.length ≤ _
  omega

theorem popStep_limit_ge (m : Msg) : m.limit ≤ (popStep false m).limit := by
  simp only [popStep, tailPop]; simp

theorem popStep_some {cap : Nat} {m : Msg} {s : St} (h : Abs cap m s)
    (hr : (s.heads.length : Int) ≤ m.limit) (hl : (popStep false m).limit ≤ cap) :
    ∃ s', aPopStep cap s = some s' := by
  have h2 := h.limit
  have h3 := h.room
  simp only [popStep, tailPop, h.head] at hl
  simp only [Bool.false_eq_true, if_false] at hl
  have e : countTrue (lowIdx s.heads) = countTrue (s.heads.map fun h => decide (h < HEAD_MIN)) := rfl
  have hc : countTrue (lowIdx s.heads) ≤ s.stack.length := by rw [e]; omega
  have : countTrue (lowIdx s.heads) ≤ s.stack.length ∧
      s.stack.length - countTrue (lowIdx s.heads) + s.heads.length ≤ cap := ⟨hc, by omega⟩
  simp only [aPopStep, if_pos this]
  exact ⟨_, rfl⟩

theorem aPopStep_len {cap : Nat} {s s' : St} (h : aPopStep cap s = some s') :
    s'.heads.length = s.heads.length := by
  simp only [aPopStep] at h
  split at h
  · obtain rfl := Option.some.inj h
    exact readL_length _ _ _ (by simp [lowIdx])
  · cases h

/-- If a pop leaves the limit within the tail, every read found its bytes. -/
theorem pop_some {cap p : Nat} (hp : p ≤ 24) {S : List Slot} {m : Msg} {s : St} (h : Abs cap m s)
    (hl : InSlots p s.heads S) (hr : (s.heads.length : Int) ≤ m.limit)
    (hb : (popSymbols m (peek m p) (S.map Prod.fst) (S.map fun s => s.1 + s.2) p false).limit ≤ cap) :
    ∃ s', aPop cap p S s = some s' := by
  have hlen := hl.lanesOk.heads.1
  simp only [popSymbols, freqsOf_eq hp S hl.lanesOk.slots, peek, h.head] at hb
  rw [popHead_eq hp hl] at hb
  have hl0 : (aPopHeads p s.heads S).length = s.heads.length := by simp [aPopHeads, hlen]
  have a0 : Abs cap { m with head := aPopHeads p s.heads S } ⟨aPopHeads p s.heads S, s.stack⟩ :=
    ⟨rfl, h.len, h.room, h.limit, h.live, h.bytes⟩
  rw [show ({ head := aPopHeads p s.heads S, limit := m.limit, data := m.data } : Msg)
    = { m with head := aPopHeads p s.heads S } from rfl] at hb
  generalize hm0 : ({ m with head := aPopHeads p s.heads S } : Msg) = m0 at hb a0
  have hlim0 : m0.limit = m.limit := by rw [← hm0]
  generalize hm1 : popStep false m0 = m1 at hb
  generalize hm2 : popStep false m1 = m2 at hb
  have g0 := popStep_limit_ge m0
  have g1 := popStep_limit_ge m1
  have g2 := popStep_limit_ge m2
  rw [hm1] at g0
  rw [hm2] at g1
  obtain ⟨s1, h1⟩ := popStep_some a0 (by simp only [hl0]; omega) (by rw [hm1]; omega)
  have a1 := popStep_ref false a0 h1
  rw [hm1] at a1
  have l1 := aPopStep_len h1
  simp only [hl0] at l1
  obtain ⟨s2, h2⟩ := popStep_some a1 (by rw [l1]; omega) (by rw [hm2]; omega)
  have a2 := popStep_ref false a1 h2
  rw [hm2] at a2
  have l2 := aPopStep_len h2
  obtain ⟨s3, h3⟩ := popStep_some a2 (by rw [l2, l1]; omega) (by omega)
  exact ⟨s3, by simp only [aPop, h1, h2, h3, Option.bind_some]⟩

/-- A larger capacity changes nothing. -/
theorem aPushStep_mono {cap cap' sh : Nat} (hc : cap ≤ cap') {fs : List Nat} {s s' : St}
    (h : aPushStep cap sh fs s = some s') : aPushStep cap' sh fs s = some s' := by
  simp only [aPushStep] at h ⊢
  split at h
  · rw [if_pos (by omega)]; exact h
  · cases h

theorem aPush_mono {cap cap' p : Nat} (hc : cap ≤ cap') {S : List Slot} {s s' : St}
    (h : aPush cap p S s = some s') : aPush cap' p S s = some s' := by
  simp only [aPush] at h
  rcases h1 : aPushStep cap (48 - p) (S.map Prod.snd) s with _ | s1
  · simp [h1] at h
  rcases h2 : aPushStep cap (40 - p) (S.map Prod.snd) s1 with _ | s2
  · simp [h1, h2] at h
  rcases h3 : aPushStep cap (32 - p) (S.map Prod.snd) s2 with _ | s3
  · simp [h1, h2, h3] at h
  simp only [h1, h2, h3, Option.bind_some, Option.map_some] at h
  simp only [aPush, aPushStep_mono hc h1, aPushStep_mono hc h2, aPushStep_mono hc h3, Option.bind_some,
    Option.map_some]
  exact h

end Verif.Rans
