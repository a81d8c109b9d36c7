import Verif.Rans.EmptyBits
import Verif.Rans.Rate

/-
From the specification's vocabulary to the lemmas, and the main arguments.
-/
namespace Verif.Rans

theorem WF.abs {L cap : Nat} {m : Msg} (h : WF L cap m) :
    Abs cap m ⟨m.head, m.data.drop m.limit.toNat⟩ ∧ Ok L ⟨m.head, m.data.drop m.limit.toNat⟩ := by
  have h1 := h.low
  have h2 := h.high
  have hl : (m.data.drop m.limit.toNat).length = cap - m.limit.toNat := by rw [List.length_drop, h.len]
  refine ⟨⟨rfl, h.len, by simp only; omega, by simp only; omega, ?_, h.bytes⟩,
    ⟨h.lanes, h.range, fun b hb => h.bytes b (List.mem_of_mem_drop hb)⟩⟩
  simp only [hl]
  congr 1
  omega

theorem Abs.same {cap : Nat} {m m' : Msg} {s : St} (h : Abs cap m s) (h' : Abs cap m' s) :
    SameState m m' := by
  refine ⟨by rw [h.head, h'.head], by rw [h.limit, h'.limit], ?_⟩
  have := h.room
  have e : ((cap : Int) - s.stack.length).toNat = cap - s.stack.length := by omega
  rw [h.limit, h'.limit, e, h.live, h'.live]

theorem Abs.wf {cap L : Nat} {m : Msg} {s : St} (h : Abs cap m s) (ho : Ok L s) : WF L cap m := by
  have := h.room
  have := h.limit
  exact ⟨by rw [h.head, ho.lanes], by rw [h.head]; exact ho.range, h.len, h.bytes, by omega, by omega⟩

theorem startsAs_of {L cap : Nat} {start : Option (List Nat)} (h : StartOk L cap start) :
    ∃ s, StartsAs L cap start s ∧ Ok L s ∧ s.stack.length = startBytes L start ∧
      planes s.heads ++ s.stack = start.getD (freshBuffer L) := by
  cases start with
  | none =>
    refine ⟨_, .empty, ?_, rfl, ?_⟩
    · refine ⟨by simp, ?_, by simp⟩
      intro h hh
      rw [List.eq_of_mem_replicate hh]
      exact ⟨le_refl _, by norm_num⟩
    · simp only [planes, List.map_replicate, List.append_nil, Option.getD_none, freshBuffer, u8,
        List.append_assoc]
      norm_num
      omega
  | some buf =>
    obtain ⟨hv, hl⟩ := h
    obtain ⟨H, T, rfl, h1, h2, h3⟩ := hv.split
    have hp : (planes H).length = L * 4 := by rw [planes_length, h1]
    rw [List.length_append] at hl
    exact ⟨_, .buffer h1 h2 h3 (by omega), ⟨h1, h2, h3⟩, by simp only [startBytes, List.length_append]; omega, rfl⟩

/-! ### The default codec -/

section Default
variable {σ : Type} {cdf : CdfFun σ} {icdf : InvCdfFun σ} {p L width cap : Nat}
  {V : σ → List Nat → Prop} {R : σ → σ → Prop}

theorem codable_run (msg : List (List Nat)) {s : St} {c c' : σ} (h : Codable cdf V msg c c') :
    AllCodable (aDefault cap p width cdf icdf).push V msg s c ∧
    ∀ r, aPushAll (aDefault cap p width cdf icdf).push msg s c = some r → r.2 = c' := by
  induction msg generalizing c' with
  | nil =>
    refine ⟨trivial, ?_⟩
    intro r hr
    simp only [aPushAll, Option.some.injEq] at hr
    subst hr
    exact h.symm
  | cons x rest ih =>
    obtain ⟨c1, h1, h2, rfl⟩ := h
    obtain ⟨i1, i2⟩ := ih h1
    refine ⟨⟨i1, fun r hr => by rw [i2 r hr]; exact h2⟩, ?_⟩
    intro r hr
    simp only [aPushAll, Option.bind_eq_some_iff] at hr
    obtain ⟨r1, e1, e2⟩ := hr
    simp only [aDefault, Option.map_eq_some_iff] at e2
    obtain ⟨s2, _, rfl⟩ := e2
    rw [i2 r1 e1]

/-- Every push takes at most `3 L` bytes, so a large enough tail suffices. -/
theorem default_run_room (hp : p ≤ 24) (h : CdfPair cdf icdf p L width V R) :
    ∀ (msg : List (List Nat)) {s : St} {c c' : σ}, Ok L s → Codable cdf V msg c c' →
    s.stack.length + 3 * L * msg.length ≤ cap →
    ∃ s', aPushAll (aDefault cap p width cdf icdf).push msg s c = some (s', c') ∧ Ok L s' ∧
      s'.stack.length ≤ s.stack.length + 3 * L * msg.length := by
  intro msg
  induction msg with
  | nil =>
    intro s c c' hs hc _
    have hc : c' = c := hc
    subst hc
    exact ⟨s, rfl, hs, by simp⟩
  | cons x rest ih =>
    intro s c c' hs hc hroom
    obtain ⟨c1, h1, h2, rfl⟩ := hc
    simp only [List.length_cons, Nat.mul_add, Nat.mul_one] at hroom ⊢
    obtain ⟨s1, e1, ok1, l1⟩ := ih hs h1 (by omega)
    obtain ⟨_, _, e3, _⟩ := slotsOf_spec (h.slots c1 x h2)
    obtain ⟨s2, hpush, hlen⟩ := aPush_room (cap := cap) (p := p)
      (S := slotsOf (cdf x c1).1 (cdf x c1).2.1) (s := s1) (by rw [ok1.lanes, e3])
      (by rw [ok1.lanes]; omega)
    rw [ok1.lanes] at hlen
    have hpush' : (aDefault cap p width cdf icdf).push x s1 c1 = some (s2, (cdf x c1).2.2) := by
      simp only [aDefault, hpush, Option.map_some]
    refine ⟨s2, by simp only [aPushAll, e1, Option.bind_some, hpush'], ?_, by omega⟩
    exact (default_popPush hp h ok1 h2 hpush').1

/-- If at the end the limit is still at least the number of lanes, every write fitted. -/
theorem default_run_of_limit (hp : p ≤ 24) (hL : L ≤ cap) (h : CdfPair cdf icdf p L width V R)
    (init : σ) (ae : Bool) :
    ∀ (msg : List (List Nat)) {m m' : Msg} {s : St} {c c' d : σ}, Abs cap m s → Ok L s →
    Codable cdf V msg c c' → pushAll (defaultCodec cdf icdf init p width ae) msg m c = .ok (m', d) →
    (L : Int) ≤ m'.limit →
    ∃ s', aPushAll (aDefault cap p width cdf icdf).push msg s c = some (s', c') ∧ d = c' := by
  intro msg
  induction msg with
  | nil =>
    intro m m' s c c' d hm hs hc he _
    have hc : c' = c := hc
    subst hc
    simp only [pushAll, Except.ok.injEq, Prod.mk.injEq] at he
    exact ⟨s, rfl, he.2.symm⟩
  | cons x rest ih =>
    intro m m' s c c' d hm hs hc he hlim
    obtain ⟨c1, h1, h2, rfl⟩ := hc
    simp only [pushAll] at he
    rcases hr : pushAll (defaultCodec cdf icdf init p width ae) rest m c with e | ⟨m1, d1⟩
    · rw [hr] at he; cases he
    rw [hr] at he
    have he : (defaultCodec cdf icdf init p width ae).push x m1 d1 = .ok (m', d) := he
    simp only [defaultCodec] at he
    split at he
    swap
    · cases he
    simp only [Except.ok.injEq, Prod.mk.injEq] at he
    obtain ⟨rfl, rfl⟩ := he
    have hle := pushSymbols_limit_le m1 (cdf x d1).1 (cdf x d1).2.1 p
    obtain ⟨s1, e1, rfl⟩ := ih hm hs h1 hr (by omega)
    obtain ⟨ha1, hb1⟩ := codable_run (icdf := icdf) (cap := cap) (p := p) (width := width) rest (s := s) h1
    obtain ⟨ok1, m1', p1, a1⟩ := pushAll_ref (default_lossless hp hL h init ae) rest hm hs ha1 e1
    rw [hr] at p1
    obtain ⟨rfl, _⟩ : m1 = m1' ∧ d1 = d1 := by simpa using p1
    obtain ⟨f1, f2, f3, f4⟩ := slotsOf_spec (h.slots d1 x h2)
    have hl := lanesOk_of (by rw [ok1.lanes, f3]) ok1.range f4
    obtain ⟨s2, hpush⟩ := push_some hp a1 hl (by rw [f1, f2, ok1.lanes]; exact hlim)
    have hpush' : (aDefault cap p width cdf icdf).push x s1 d1 = some (s2, (cdf x d1).2.2) := by
      simp only [aDefault, hpush, Option.map_some]
    exact ⟨s2, by simp only [aPushAll, e1, Option.bind_some, hpush'], rfl⟩

theorem aPushAll_mono {cap' : Nat} (hc : cap ≤ cap') : ∀ (msg : List (List Nat)) {s : St} {c : σ} {r : St × σ},
    aPushAll (aDefault cap p width cdf icdf).push msg s c = some r →
    aPushAll (aDefault cap' p width cdf icdf).push msg s c = some r := by
  intro msg
  induction msg with
  | nil => intro s c r h; exact h
  | cons x rest ih =>
    intro s c r h
    simp only [aPushAll, Option.bind_eq_some_iff] at h ⊢
    obtain ⟨r1, e1, e2⟩ := h
    refine ⟨r1, ih e1, ?_⟩
    simp only [aDefault, Option.map_eq_some_iff] at e2 ⊢
    obtain ⟨s2, e3, rfl⟩ := e2
    exact ⟨s2, aPush_mono hc e3, rfl⟩

/-- Decoding what an ideal run produced. -/
theorem default_decode (hp : p ≤ 24) (hL : L ≤ cap) (h : CdfPair cdf icdf p L width V R)
    (init : σ) (ae : Bool) {msg : List (List Nat)} {s s' : St} {c c' t' : σ} {junk : Nat} (hj : junk < 256)
    (hs : Ok L s) (hcod : Codable cdf V msg c c')
    (hrun : aPushAll (aDefault cap p width cdf icdf).push msg s c = some (s', c'))
    {cap' : Nat} (hcap : cap ≤ cap') (hroom : s'.stack.length + 1 ≤ cap') (hR : R c' t') :
    ∃ t, decodeOne (defaultCodec cdf icdf init p width ae) t' L cap' msg.length
        (planes s'.heads ++ junk :: s'.stack) = .ok (msg, planes s.heads ++ s.stack, t) ∧ R c t :=
  decodeOne_spec (le_trans hL hcap) (default_lossless hp (le_trans hL hcap) h init ae)
    (fun h1 h2 h3 => (default_popPush hp h h1 h2 h3).1) hj hs
    (codable_run msg hcod).1 (aPushAll_mono hcap msg hrun) hroom hR

/-- The concrete loop keeps the shape of the coder state. -/
theorem default_tailOk (hp : p ≤ 24) (h : CdfPair cdf icdf p L width V R) (init : σ) (ae : Bool) :
    ∀ (msg : List (List Nat)) {m m' : Msg} {c c' d : σ}, TailOk L cap m → (∀ x ∈ m.head, HeadOk x) →
    Codable cdf V msg c c' → pushAll (defaultCodec cdf icdf init p width ae) msg m c = .ok (m', d) →
    TailOk L cap m' ∧ (∀ x ∈ m'.head, HeadOk x) ∧ d = c' := by
  intro msg
  induction msg with
  | nil =>
    intro m m' c c' d ht hh hc he
    have hc : c' = c := hc
    simp only [pushAll, Except.ok.injEq, Prod.mk.injEq] at he
    obtain ⟨rfl, rfl⟩ := he
    exact ⟨ht, hh, hc.symm⟩
  | cons x rest ih =>
    intro m m' c c' d ht hh hc he
    obtain ⟨c1, h1, h2, rfl⟩ := hc
    simp only [pushAll] at he
    rcases hr : pushAll (defaultCodec cdf icdf init p width ae) rest m c with e | ⟨m1, d1⟩
    · rw [hr] at he; cases he
    rw [hr] at he
    have he : (defaultCodec cdf icdf init p width ae).push x m1 d1 = .ok (m', d) := he
    simp only [defaultCodec] at he
    split at he
    swap
    · cases he
    simp only [Except.ok.injEq, Prod.mk.injEq] at he
    obtain ⟨rfl, rfl⟩ := he
    obtain ⟨t1, hh1, rfl⟩ := ih ht hh h1 hr
    obtain ⟨f1, f2, f3, f4⟩ := slotsOf_spec (h.slots d1 x h2)
    have hl := lanesOk_of (by rw [t1.lanes, f3]) hh1 f4
    obtain ⟨g1, g2, _⟩ := pushSymbols_range hp t1 hl
    rw [f1, f2] at g1 g2
    exact ⟨g1, g2.lanesOk.heads.2, rfl⟩

end Default

theorem trim_length {arr : List Nat} {L cap : Nat} {lim : Int} (hL : 1 ≤ L) (ha : arr.length = 4 * L + cap)
    (h0 : 0 ≤ lim) (h1 : lim ≤ cap) :
    ((trim arr L ((L : Int) * 4 + lim)).length : Int) = 4 * L + cap - lim + 1 := by
  simp only [trim, List.length_append, List.length_take, List.length_drop, ha]
  omega

/-- `encode` succeeded: what happened inside. -/
theorem encodeOne_ok {α σ : Type} {codec : Codec α σ} {c c' : σ} {L cap : Nat} {rnd : List Nat}
    {start : Option (List Nat)} {msg : List α} {out : List Nat}
    (h : encodeOne codec c L cap rnd start msg = .ok (out, c')) :
    ∃ arr lim m', startState L cap rnd start = .ok (arr, lim) ∧ L ≤ cap ∧
      pushAll codec msg (ofArray arr L lim) c = .ok (m', c') ∧
      0 ≤ (toArray m').2 - ((L * 4 : Nat) : Int) ∧ out = trim (toArray m').1 L (toArray m').2 := by
  simp only [encodeOne] at h
  rcases hs : startState L cap rnd start with e | ⟨arr, lim⟩
  · rw [hs] at h; cases h
  rw [hs] at h
  change (if cap < L then _ else pushAll codec msg (ofArray arr L lim) c >>= _) = _ at h
  split at h
  · cases h
  rename_i hc
  rcases hp : pushAll codec msg (ofArray arr L lim) c with e | ⟨m', d⟩
  · rw [hp] at h; cases h
  rw [hp] at h
  change (if (toArray m').2 - ((L * 4 : Nat) : Int) < 0 then _ else _) = _ at h
  split at h
  · cases h
  rename_i hn
  simp only [pure, Except.pure, Except.ok.injEq, Prod.mk.injEq] at h
  obtain ⟨rfl, rfl⟩ := h
  exact ⟨arr, lim, m', rfl, by omega, hp, by omega, rfl⟩

/-- Pops need at most three bytes per lane. -/
theorem aPop_room {cap p : Nat} {S : List Slot} {s : St} (hl : s.heads.length = S.length)
    (hb : 3 * s.heads.length ≤ s.stack.length) (hr : s.stack.length + s.heads.length ≤ cap) :
    ∃ s', aPop cap p S s = some s' ∧ s'.stack.length ≤ s.stack.length ∧
      s.stack.length ≤ s'.stack.length + 3 * s.heads.length := by
  have step : ∀ {s : St} {L : Nat}, s.heads.length = L → L ≤ s.stack.length → s.stack.length + L ≤ cap →
      ∃ s', aPopStep cap s = some s' ∧ s'.heads.length = L ∧ s'.stack.length ≤ s.stack.length ∧
        s.stack.length ≤ s'.stack.length + L := by
    intro s L hL h1 h2
    have hc : countTrue (lowIdx s.heads) ≤ L := by
      rw [← hL]; simpa [lowIdx] using countTrue_le (lowIdx s.heads)
    have hcond : countTrue (lowIdx s.heads) ≤ s.stack.length ∧
        s.stack.length - countTrue (lowIdx s.heads) + s.heads.length ≤ cap := ⟨by omega, by omega⟩
    have he : aPopStep cap s = some ⟨readL (lowIdx s.heads) s.heads
        (s.stack.take (countTrue (lowIdx s.heads))), s.stack.drop (countTrue (lowIdx s.heads))⟩ := by
      simp only [aPopStep, if_pos hcond]
    refine ⟨_, he, (aPopStep_len he).trans hL, ?_, ?_⟩ <;> simp only [List.length_drop] <;> omega
  have h0 : (aPopHeads p s.heads S).length = s.heads.length := by simp [aPopHeads, hl]
  obtain ⟨s1, e1, l1, a1, b1⟩ := step (s := ⟨aPopHeads p s.heads S, s.stack⟩) h0
    (by simp only; omega) (by simp only; omega)
  simp only at a1 b1
  obtain ⟨s2, e2, l2, a2, b2⟩ := step l1 (by omega) (by omega)
  obtain ⟨s3, e3, l3, a3, b3⟩ := step l2 (by omega) (by omega)
  exact ⟨s3, by simp only [aPop, e1, e2, e3, Option.bind_some], by omega, by omega⟩

end Verif.Rans
