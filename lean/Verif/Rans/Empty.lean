import Verif.Rans.BitsBack

/-
Pops from an empty stack (`allow_empty_pops`): reads that find no byte left take bytes
of the unused tail, as if they had been below the stack.
-/
namespace Verif.Rans

/-- One read step that may run from an empty stack; `E` are the extra bytes. -/
def EStep (cap : Nat) (s : St) (E : List Nat) (s' : St) : Prop :=
  (E = [] ∧ aPopStep cap s = some s') ∨
  (s.stack = [] ∧ E.length = countTrue (lowIdx s.heads) ∧ (∀ b ∈ E, b < 256) ∧ s.heads.length ≤ cap ∧
    s' = ⟨readL (lowIdx s.heads) s.heads E, []⟩)

theorem popStep_empty {cap : Nat} {m : Msg} {H : List Nat} (hc : H.length ≤ cap)
    (h : Abs cap m ⟨H, []⟩) : ∃ E s', EStep cap ⟨H, []⟩ E s' ∧ Abs cap (popStep true m) s' := by
  set t := countTrue (lowIdx H) with ht
  have htl : t ≤ cap := le_trans (countTrue_le _) (by simpa [lowIdx] using hc)
  set E := m.data.drop (cap - t) with hE
  have hEl : E.length = t := by rw [hE, List.length_drop, h.len]; omega
  have hm : Abs cap { m with limit := (cap : Int) - t } ⟨H, E⟩ :=
    ⟨h.head, h.len, by simp only; omega, by simp only; omega, by simp only; rw [hEl], h.bytes⟩
  have hpop : aPopStep cap ⟨H, E⟩ = some ⟨readL (lowIdx H) H E, []⟩ := by
    simp only [aPopStep]
    rw [if_pos ⟨by omega, by omega⟩, List.take_of_length_le (by omega), List.drop_of_length_le (by omega)]
  have := popStep_ref true hm hpop
  refine ⟨E, _, Or.inr ⟨rfl, hEl, fun b hb => h.bytes b (List.mem_of_mem_drop hb), hc, rfl⟩, ?_⟩
  have e : popStep true m = popStep true { m with limit := (cap : Int) - t } := by
    have hl := h.limit
    have hh := h.head
    simp only at hl hh
    have e2 : (m.head.map fun h => decide (h < HEAD_MIN)) = lowIdx H := by rw [hh]; rfl
    simp only [popStep, tailPop, if_true, e2, h.len, hl, ← ht, List.length_nil]
    have : max 0 (min ((cap : Int) - ((0 : Nat) : Int) + t) cap) = max 0 (min ((cap : Int) - t + t) cap) := by
      omega
    rw [this]
  rw [e]
  exact this

/-- A read step either has its bytes or finds the stack empty. -/
theorem popStep_refE {cap : Nat} {m : Msg} {s : St} (h : Abs cap m s)
    (hr : s.stack = [] ∨ (countTrue (lowIdx s.heads) ≤ s.stack.length))
    (hc : s.stack.length + s.heads.length ≤ cap) :
    ∃ E s', EStep cap s E s' ∧ Abs cap (popStep true m) s' := by
  rcases hr with hr | hr
  · obtain ⟨H, T⟩ := s
    simp only at hr
    subst hr
    exact popStep_empty (by simpa using hc) h
  · have : aPopStep cap s = some ⟨readL (lowIdx s.heads) s.heads
        (s.stack.take (countTrue (lowIdx s.heads))), s.stack.drop (countTrue (lowIdx s.heads))⟩ := by
      simp only [aPopStep]; rw [if_pos ⟨hr, by omega⟩]
    exact ⟨[], _, Or.inl ⟨rfl, this⟩, popStep_ref true h this⟩

/-- With the extra bytes below the stack (and anything below them) the step is an
ordinary one. -/
theorem EStep.virtual {cap : Nat} {s s' : St} {E : List Nat} (h : EStep cap s E s') (X : List Nat)
    {cap' : Nat} (hc : cap + E.length + X.length ≤ cap') :
    aPopStep cap' ⟨s.heads, s.stack ++ E ++ X⟩ = some ⟨s'.heads, s'.stack ++ X⟩ := by
  rcases h with ⟨rfl, h⟩ | ⟨h1, h2, h3, h4, rfl⟩
  · simp only [aPopStep] at h ⊢
    split at h
    · rename_i hr
      obtain rfl := Option.some.inj h
      obtain ⟨r1, r2⟩ := hr
      rw [if_pos ⟨by simp; omega, by simp at hc ⊢; omega⟩]
      simp only [List.append_nil]
      rw [List.take_append_of_le_length r1, List.drop_append_of_le_length r1]
    · cases h
  · simp only [aPopStep, h1, List.nil_append]
    rw [if_pos ⟨by rw [List.length_append]; omega, by rw [List.length_append]; omega⟩, ← h2]
    rw [List.take_left, List.drop_left]

theorem EStep.shrink {cap : Nat} {s s' : St} {E : List Nat} (h : EStep cap s E s') :
    s'.stack.length ≤ s.stack.length ∧ s'.heads.length = s.heads.length ∧
    E.length ≤ s.heads.length ∧ (∀ b ∈ E, b < 256) ∧ s.stack.length ≤ s'.stack.length + s.heads.length := by
  have hll : countTrue (lowIdx s.heads) ≤ s.heads.length := by
    simpa [lowIdx] using countTrue_le (lowIdx s.heads)
  rcases h with ⟨rfl, h⟩ | ⟨h1, h2, h3, h4, rfl⟩
  · refine ⟨?_, aPopStep_len h, by simp, by simp, ?_⟩ <;>
    · simp only [aPopStep] at h
      split at h
      · obtain rfl := Option.some.inj h; simp only [List.length_drop]; omega
      · cases h
  · exact ⟨by simp, readL_length _ _ _ (by simp [lowIdx]), by omega, h3, by simp [h1]⟩

/-- The stack is empty, or holds enough for a whole pop, or there is only one lane. -/
def CleanStart (L : Nat) (s : St) : Prop := s.stack = [] ∨ 3 * L ≤ s.stack.length ∨ L = 1

theorem popSymbols_empty {cap p L : Nat} (hp : p ≤ 24) {S : List Slot} {m : Msg} {s : St}
    (h : Abs cap m s) (hL : s.heads.length = L) (hl : InSlots p s.heads S)
    (hclean : CleanStart L s) (hc : s.stack.length + L ≤ cap) :
    ∃ E s', Abs cap (popSymbols m (peek m p) (S.map Prod.fst) (S.map fun s => s.1 + s.2) p true) s' ∧
      s'.stack.length ≤ s.stack.length ∧ s'.heads.length = L ∧ E.length ≤ 3 * L ∧ (∀ b ∈ E, b < 256) ∧
      ∀ X cap', cap + E.length + X.length ≤ cap' →
        aPop cap' p S ⟨s.heads, s.stack ++ E ++ X⟩ = some ⟨s'.heads, s'.stack ++ X⟩ := by
  have hlen := hl.lanesOk.heads.1
  have hl0 : (aPopHeads p s.heads S).length = L := by simp [aPopHeads, hlen, ← hL]
  have a0 : Abs cap { m with head := aPopHeads p s.heads S } ⟨aPopHeads p s.heads S, s.stack⟩ :=
    ⟨rfl, h.len, h.room, h.limit, h.live, h.bytes⟩
  have hb := h.stack_bytes
  have step : ∀ (m : Msg) (s : St) (k : Nat), Abs cap m s → s.heads.length = L →
      s.stack.length + L ≤ cap → (s.stack = [] ∨ (k + 1) * L ≤ s.stack.length ∨ L = 1) →
      ∃ E s', EStep cap s E s' ∧ Abs cap (popStep true m) s' ∧
        (s'.stack = [] ∨ k * L ≤ s'.stack.length ∨ L = 1) := by
    intro m s k ha hl hc hk
    have hcnt : countTrue (lowIdx s.heads) ≤ L := by
      rw [← hl]; simpa [lowIdx] using countTrue_le (lowIdx s.heads)
    obtain ⟨E, s', h1, h2⟩ := popStep_refE ha (by
      rcases hk with hk | hk | hk
      · exact Or.inl hk
      · right; have : L ≤ (k + 1) * L := Nat.le_mul_of_pos_left _ (by omega)
        omega
      · rcases hs : s.stack with _ | ⟨b, bs⟩
        · simp
        · right; simp; omega) (by omega)
    refine ⟨E, s', h1, h2, ?_⟩
    have hsh := h1.shrink
    rcases hk with hk | hk | hk
    · left; have := hsh.1; rw [hk] at this; simpa using this
    · right; left; rw [Nat.succ_mul] at hk; have := hsh.2.2.2.2; omega
    · right; right; exact hk
  obtain ⟨E1, s1, x1, a1, c1⟩ := step _ _ 2 a0 hl0 hc hclean
  have g1 := x1.shrink
  obtain ⟨E2, s2, x2, a2, c2⟩ := step _ _ 1 a1 (g1.2.1.trans hl0) (by have := g1.1; simp only at this; omega) c1
  have g2 := x2.shrink
  obtain ⟨E3, s3, x3, a3, c3⟩ := step _ _ 0 a2 (g2.2.1.trans (g1.2.1.trans hl0))
    (by have := g1.1; have := g2.1; simp only at *; omega) c2
  have g3 := x3.shrink
  have hh : popSymbols m (peek m p) (S.map Prod.fst) (S.map fun s => s.1 + s.2) p true =
      popStep true (popStep true (popStep true { m with head := aPopHeads p s.heads S })) := by
    simp only [popSymbols, freqsOf_eq hp S hl.lanesOk.slots, peek, h.head]
    rw [popHead_eq hp hl]
  simp only [hl0] at g1
  refine ⟨E1 ++ E2 ++ E3, s3, hh ▸ a3, by omega, by omega, ?_, ?_, ?_⟩
  · simp only [List.length_append]; omega
  · intro b hb'
    simp only [List.mem_append] at hb'
    rcases hb' with (h1 | h1) | h1
    · exact g1.2.2.2.1 b h1
    · exact g2.2.2.2.1 b h1
    · exact g3.2.2.2.1 b h1
  · intro X cap' hcap
    simp only [List.length_append] at hcap
    have v1 := x1.virtual (E2 ++ E3 ++ X) (cap' := cap') (by simp only [List.length_append]; omega)
    have v2 := x2.virtual (E3 ++ X) (cap' := cap') (by simp only [List.length_append]; omega)
    have v3 := x3.virtual X (cap' := cap') (by omega)
    simp only [List.append_assoc] at v1 v2 v3 ⊢
    simp only [aPop, v1, v2, v3, Option.bind_some]

theorem aPushStep_frame {cap sh : Nat} {fs : List Nat} {s s' : St} (h : aPushStep cap sh fs s = some s')
    (X : List Nat) {cap' : Nat} (hc : cap + X.length ≤ cap') :
    aPushStep cap' sh fs ⟨s.heads, s.stack ++ X⟩ = some ⟨s'.heads, s'.stack ++ X⟩ := by
  simp only [aPushStep] at h ⊢
  split at h
  · obtain rfl := Option.some.inj h
    rw [if_pos (by rw [List.length_append]; omega)]
    simp
  · cases h

theorem aPush_frame {cap p : Nat} {S : List Slot} {s s' : St} (h : aPush cap p S s = some s')
    (X : List Nat) {cap' : Nat} (hc : cap + X.length ≤ cap') :
    aPush cap' p S ⟨s.heads, s.stack ++ X⟩ = some ⟨s'.heads, s'.stack ++ X⟩ := by
  simp only [aPush] at h
  rcases h1 : aPushStep cap (48 - p) (S.map Prod.snd) s with _ | s1
  · simp [h1] at h
  rcases h2 : aPushStep cap (40 - p) (S.map Prod.snd) s1 with _ | s2
  · simp [h1, h2] at h
  rcases h3 : aPushStep cap (32 - p) (S.map Prod.snd) s2 with _ | s3
  · simp [h1, h2, h3] at h
  simp only [h1, h2, h3, Option.bind_some, Option.map_some, Option.some.injEq] at h
  simp only [aPush, aPushStep_frame h1 X hc, aPushStep_frame h2 X hc, aPushStep_frame h3 X hc,
    Option.bind_some, Option.map_some]
  rw [← h]

/-! ### The table codecs -/

section Tables
variable {p width L cap : Nat} {tbls : List (List Nat)}

/-- Tables for `L` lanes. -/
structure Tables (p width L : Nat) (tbls : List (List Nat)) : Prop where
  lanes : tbls.length = L
  valid : ∀ t ∈ tbls, ValidTable p t
  fits : ∀ t ∈ tbls, t.length ≤ width + 1

theorem table_push {m : Msg} {s : St} {x : List Nat} (hp : p ≤ 24) (ht : Tables p width L tbls)
    (hm : Abs cap m s) (hs : Ok L s) (hx : TableSymbols tbls x)
    (hroom : s.stack.length + 3 * L ≤ cap) (ae : Bool) :
    ∃ m' s', (fixedArrayCodec tbls p width ae).push x m tbls = .ok (m', tbls) ∧ Abs cap m' s' ∧ Ok L s' ∧
      s'.stack.length ≤ s.stack.length + 3 * L ∧
      ∀ X cap' m'', cap + X.length ≤ cap' → (∀ b ∈ X, b < 256) →
        Abs cap' m'' ⟨s'.heads, s'.stack ++ X⟩ → ∀ flag,
        ∃ m0, (fixedArrayCodec tbls p width ae).pop flag m'' tbls = .ok (m0, x, tbls) ∧
          Abs cap' m0 ⟨s.heads, s.stack ++ X⟩ := by
  have hl := ht.lanes
  subst hl
  have hlaw := table_lawful (width := width) (cap := cap) hp (by omega) ht.valid ht.fits ae
  have hpair := table_pair ht.valid ht.fits
  obtain ⟨e1, e2, e3, e4⟩ := slotsOf_spec (hpair.slots tbls x ⟨rfl, hx⟩)
  obtain ⟨s', hpush, hlen⟩ := aPush_room (cap := cap) (p := p)
    (S := slotsOf (tableCdf x tbls).1 (tableCdf x tbls).2.1) (s := s)
    (by rw [hs.lanes, e3]) (by rw [hs.lanes]; omega)
  rw [hs.lanes] at hlen
  have hap : (aDefault cap p width tableCdf tableInv).push x s tbls = some (s', tbls) := by
    simp only [aDefault, hpush, Option.map_some]; rfl
  obtain ⟨m', hm', ha'⟩ := hlaw.refines.push hm hs ⟨rfl, hx⟩ hap
  obtain ⟨ok', _⟩ := hlaw.static.popPush hs hx hap
  refine ⟨m', s', hm', ha', ok', hlen, ?_⟩
  intro X cap' m'' hc hX ha'' flag
  have hlaw' := table_lawful (width := width) (cap := cap') hp (by omega) ht.valid ht.fits ae
  have hpush' := aPush_frame hpush X hc
  have hap' : (aDefault cap' p width tableCdf tableInv).push x ⟨s.heads, s.stack ++ X⟩ tbls
      = some (⟨s'.heads, s'.stack ++ X⟩, tbls) := by
    simp only [aDefault, hpush', Option.map_some]; rfl
  have okX : Ok tbls.length ⟨s.heads, s.stack ++ X⟩ :=
    ⟨hs.lanes, hs.range, fun b hb => by
      rcases List.mem_append.mp hb with h | h
      · exact hs.bytes b h
      · exact hX b h⟩
  obtain ⟨ok2, t, hpop⟩ := hlaw'.static.popPush okX hx hap'
  obtain ⟨m0, h1, h2⟩ := hlaw'.refines.pop (ae := flag) trivial rfl ha'' ok2 hpop
  have htt : t = tbls := by
    simp only [aDefault, Option.map_eq_some_iff, Prod.mk.injEq] at hpop
    obtain ⟨_, _, _, _, rfl⟩ := hpop; rfl
  subst htt
  exact ⟨m0, h1, h2⟩

theorem table_popE {m : Msg} {s : St} (hp : p ≤ 24) (ht : Tables p width L tbls)
    (hm : Abs cap m s) (hs : Ok L s) (hclean : CleanStart L s)
    (hroom : s.stack.length + L ≤ cap) (ae : Bool) :
    ∃ m' s' x E, (fixedArrayCodec tbls p width ae).pop (some true) m tbls = .ok (m', x, tbls) ∧
      TableSymbols tbls x ∧ Abs cap m' s' ∧ Ok L s' ∧
      s'.stack.length ≤ s.stack.length ∧ E.length ≤ 3 * L ∧ (∀ b ∈ E, b < 256) ∧
      ∀ X cap' m'', cap + E.length + X.length ≤ cap' → (∀ b ∈ X, b < 256) →
        Abs cap' m'' ⟨s'.heads, s'.stack ++ X⟩ →
        ∃ m0, (fixedArrayCodec tbls p width ae).push x m'' tbls = .ok (m0, tbls) ∧
          Abs cap' m0 ⟨s.heads, s.stack ++ E ++ X⟩ := by
  have hl := ht.lanes
  subst hl
  obtain ⟨v1, v2, v3, v4⟩ := (table_total (width := width) ht.valid).total (peekA p s.heads)
    (by simp [peekA, hs.lanes])
    (by intro y hy; simp only [peekA, List.mem_map] at hy; obtain ⟨z, _, rfl⟩ := hy
        exact Nat.mod_lt _ (by positivity))
  have hpair := table_pair ht.valid ht.fits
  have hslots := hpair.slots tbls _ ⟨rfl, v1⟩
  rw [v2, v3] at hslots
  obtain ⟨e1, e2, e3, e4⟩ := slotsOf_spec hslots
  have hin := (within_iff hslots hs.range).mpr v4
  obtain ⟨E, s', ha, b1, b2, b3, b4, b5⟩ := popSymbols_empty hp hm hs.lanes hin hclean (by omega)
  rw [e1, e2] at ha
  have hpk : peek m p = peekA p s.heads := by
    simp only [peek, peekA, hm.head, Nat.and_two_pow_sub_one_eq_mod]
  have hdt := hpair.dtype tbls _ ⟨rfl, v1⟩
  have hok' : ∀ X : List Nat, (∀ b ∈ X, b < 256) → Ok tbls.length ⟨s'.heads, s'.stack ++ X⟩ := by
    intro X hX
    have hb : ∀ b ∈ s.stack ++ E ++ X, b < 256 := by
      intro b hb
      simp only [List.mem_append] at hb
      rcases hb with (h | h) | h
      · exact hs.bytes b h
      · exact b4 b h
      · exact hX b h
    obtain ⟨_, hl, hbb⟩ := aPush_aPop hp (s := ⟨s.heads, s.stack ++ E ++ X⟩) hin hb
      (b5 X _ (le_refl _))
    exact ⟨b2, hl.heads.2, hbb⟩
  refine ⟨_, s', _, E, ?_, v1, ha, ?_, b1, b3, b4, ?_⟩
  · simp only [fixedArrayCodec, defaultCodec, hm.shapeOk hs (by omega), if_true, hpk,
      map_mod_eq hdt, Option.getD_some]
    rfl
  · have := hok' [] (by simp)
    simpa using this
  · intro X cap' m'' hc hX ha''
    have hb : ∀ b ∈ s.stack ++ E ++ X, b < 256 := by
      intro b hb
      simp only [List.mem_append] at hb
      rcases hb with (h | h) | h
      · exact hs.bytes b h
      · exact b4 b h
      · exact hX b h
    obtain ⟨hpush, hl, hbb⟩ := aPush_aPop hp (s := ⟨s.heads, s.stack ++ E ++ X⟩) hin hb
      (b5 X _ hc)
    have hlaw' := table_lawful (width := width) (cap := cap') hp (by omega) ht.valid ht.fits ae
    have hap : (aDefault cap' p width tableCdf tableInv).push
        (tableInv (peekA p s.heads) tbls).2.2.1 ⟨s'.heads, s'.stack ++ X⟩ tbls
        = some (⟨s.heads, s.stack ++ E ++ X⟩, tbls) := by
      simp only [aDefault, v2, v3, hpush, Option.map_some]; rfl
    exact hlaw'.refines.push ha'' (hok' X hX) ⟨rfl, v1⟩ hap

end Tables

end Verif.Rans
