import Verif.Rans.Abs

/-
Push and pop on the abstract state are inverse partial functions.
-/
namespace Verif.Rans

theorem condIdx_length {sh : Nat} {hs fs : List Nat} (h : hs.length = fs.length) :
    (condIdx sh hs fs).length = hs.length := by simp [condIdx, h]

theorem popStep_of_pushStep {cap sh : Nat} {fs : List Nat} {s s' : St}
    (hl : s.heads.length = fs.length) (h : aPushStep cap sh fs s = some s')
    (hi : lowIdx s'.heads = condIdx sh s.heads fs) : aPopStep cap s' = some s := by
  have hcl := condIdx_length (sh := sh) hl
  simp only [aPushStep] at h
  split at h
  · rename_i hroom
    obtain rfl := Option.some.inj h
    have hol := outs_length _ _ hcl
    simp only at hi
    simp only [aPopStep, hi]
    rw [if_pos]
    · congr 1
      rw [← hol, List.take_left, List.drop_left, readL_outs _ _ hcl]
    · rw [shr8_length _ _ hcl, List.length_append, hol]
      omega
  · cases h

theorem pushStep_of_popStep {cap sh : Nat} {fs : List Nat} {s s' : St}
    (h : aPopStep cap s = some s') (hb : ∀ x ∈ s.stack, x < 256)
    (hi : condIdx sh s'.heads fs = lowIdx s.heads) : aPushStep cap sh fs s' = some s := by
  simp only [aPopStep] at h
  split at h
  · rename_i hroom
    obtain rfl := Option.some.inj h
    simp only at hi
    have hll : (lowIdx s.heads).length = s.heads.length := by simp [lowIdx]
    have htl : (s.stack.take (countTrue (lowIdx s.heads))).length = countTrue (lowIdx s.heads) := by
      rw [List.length_take]; omega
    obtain ⟨e1, e2⟩ := outs_readL _ _ _ hll htl (fun b hb' => hb b (List.mem_of_mem_take hb'))
    simp only [aPushStep, hi]
    rw [if_pos]
    · rw [e1, e2, List.take_append_drop]
    · rw [readL_length _ _ _ hll, List.length_drop]
      exact hroom.2
  · cases h

theorem shr8_condIdx (sh : Nat) : ∀ (hs fs : List Nat), hs.length = fs.length →
    shr8 (condIdx sh hs fs) hs = List.zipWith (fun h f => laneStep sh f h) hs fs := by
  intro hs
  induction hs with
  | nil => intro fs _; simp [condIdx, shr8]
  | cons h hs ih =>
    intro fs hl
    cases fs with
    | nil => simp at hl
    | cons f fs =>
      have := ih fs (by simpa using hl)
      simp only [condIdx] at this
      by_cases hc : f ≤ h / 2 ^ sh <;> simp [condIdx, shr8, laneStep, hc, this]

/-- Heads and slots that belong together. -/
def LanesOk (p : Nat) (heads : List Nat) (slots : List Slot) : Prop :=
  List.Forall₂ (fun h s => HeadOk h ∧ SlotOk p s) heads slots

/-- The slot each lane's peeked value lies in. -/
def InSlots (p : Nat) (heads : List Nat) (slots : List Slot) : Prop :=
  List.Forall₂ (fun h s => HeadOk h ∧ SlotOk p s ∧ s.1 ≤ h % 2 ^ p ∧ h % 2 ^ p < s.1 + s.2)
    heads slots

theorem push_lanes {p : Nat} (hp : p ≤ 24) {H : List Nat} {S : List Slot} (h : LanesOk p H S) :
    let F := S.map Prod.snd
    let H1 := shr8 (condIdx (48 - p) H F) H
    let H2 := shr8 (condIdx (40 - p) H1 F) H1
    let H3 := shr8 (condIdx (32 - p) H2 F) H2
    H.length = F.length ∧ H1.length = F.length ∧ H2.length = F.length ∧ H3.length = F.length ∧
    lowIdx H1 = condIdx (48 - p) H F ∧ lowIdx H2 = condIdx (40 - p) H1 F ∧
    lowIdx H3 = condIdx (32 - p) H2 F ∧ List.Forall₂ (MidOk p) H3 S := by
  intro F H1 H2 H3
  have l0 : H.length = F.length := by simp [F, h.length_eq]
  have e1 : H1 = _ := shr8_condIdx (48 - p) H F l0
  have l1 : H1.length = F.length := by rw [e1]; simp [l0]
  have e2 : H2 = _ := shr8_condIdx (40 - p) H1 F l1
  have l2 : H2.length = F.length := by rw [e2]; simp [l1]
  have e3 : H3 = _ := shr8_condIdx (32 - p) H2 F l2
  have l3 : H3.length = F.length := by rw [e3]; simp [l2]
  refine ⟨l0, l1, l2, l3, ?_⟩
  rw [e3, e2, e1]
  clear e1 e2 e3 l0 l1 l2 l3 H1 H2 H3
  unfold F
  clear F
  induction h with
  | nil => simp [lowIdx, condIdx]
  | cons hd _ ih =>
    obtain ⟨a1, a2, a3, a4, a5⟩ := lane_push hp hd.2 hd.1
    obtain ⟨i1, i2, i3, i4⟩ := ih
    simp only [lowIdx, condIdx, List.map_cons, List.zipWith_cons_cons] at *
    have hmin : HEAD_MIN = 16777216 := by norm_num
    refine ⟨?_, ?_, ?_, ?_⟩
    · rw [i1]; simp only [hmin, a1]
    · rw [i2]; simp only [hmin, a2]
    · rw [i3]; simp only [hmin, a3]
    · exact .cons ⟨hd.2, a4, a5⟩ i4

theorem pushHeads_inSlots {p : Nat} (hp : p ≤ 24) {H : List Nat} {S : List Slot}
    (h : List.Forall₂ (MidOk p) H S) :
    InSlots p (aPushHeads p H S) S ∧ aPopHeads p (aPushHeads p H S) S = H := by
  induction h with
  | nil => exact ⟨.nil, rfl⟩
  | @cons x s H S hd _ ih =>
    obtain ⟨i1, i2⟩ := ih
    obtain ⟨e1, e2, e3⟩ := head_roundtrip hd.1 x
    have hlt : x % s.2 < s.2 := Nat.mod_lt _ hd.1.pos
    simp only [aPushHeads, aPopHeads, List.zipWith_cons_cons] at *
    refine ⟨.cons ⟨push_head_range hp hd, hd.1, by omega, by omega⟩ i1, ?_⟩
    rw [i2, e3]

/-- **Pop inverts push** on abstract states. -/
theorem aPop_aPush {cap p : Nat} (hp : p ≤ 24) {S : List Slot} {s s' : St}
    (hl : LanesOk p s.heads S) (h : aPush cap p S s = some s') :
    aPop cap p S s' = some s ∧ InSlots p s'.heads S := by
  simp only [aPush] at h
  obtain ⟨l0, l1, l2, l3, c1, c2, c3, hm⟩ := push_lanes hp hl
  rcases h1 : aPushStep cap (48 - p) (S.map Prod.snd) s with _ | s1
  · simp [h1] at h
  rcases h2 : aPushStep cap (40 - p) (S.map Prod.snd) s1 with _ | s2
  · simp [h1, h2] at h
  rcases h3 : aPushStep cap (32 - p) (S.map Prod.snd) s2 with _ | s3
  · simp [h1, h2, h3] at h
  simp only [h1, h2, h3, Option.bind_some, Option.map_some, Option.some.injEq] at h
  have g1 : s1.heads = shr8 (condIdx (48 - p) s.heads (S.map Prod.snd)) s.heads := by
    simp only [aPushStep] at h1; split at h1
    · exact (Option.some.inj h1) ▸ rfl
    · cases h1
  have g2 : s2.heads = shr8 (condIdx (40 - p) s1.heads (S.map Prod.snd)) s1.heads := by
    simp only [aPushStep] at h2; split at h2
    · exact (Option.some.inj h2) ▸ rfl
    · cases h2
  have g3 : s3.heads = shr8 (condIdx (32 - p) s2.heads (S.map Prod.snd)) s2.heads := by
    simp only [aPushStep] at h3; split at h3
    · exact (Option.some.inj h3) ▸ rfl
    · cases h3
  rw [← g1] at c1 c2 c3 hm l1 l2 l3
  rw [← g2] at c2 c3 hm l2 l3
  rw [← g3] at c3 hm l3
  have p3 := popStep_of_pushStep l2 h3 c3
  have p2 := popStep_of_pushStep l1 h2 c2
  have p1 := popStep_of_pushStep l0 h1 c1
  obtain ⟨i1, i2⟩ := pushHeads_inSlots hp hm
  subst h
  refine ⟨?_, i1⟩
  simp only [aPop, i2]
  rw [p3]; simp only [Option.bind_some, p2, p1]

/-! ### Push inverts pop -/

theorem readL_rel : ∀ (hs bs : List Nat), countTrue (lowIdx hs) ≤ bs.length →
    (∀ b ∈ bs, b < 256) →
    List.Forall₂ ReadRel hs (readL (lowIdx hs) hs (bs.take (countTrue (lowIdx hs)))) := by
  intro hs
  induction hs with
  | nil => intro bs _ _; simp [lowIdx, readL]
  | cons h hs ih =>
    intro bs hc hb
    have hmin : HEAD_MIN = 16777216 := by norm_num
    have hcons : lowIdx (h :: hs) = decide (h < 16777216) :: lowIdx hs := by
      simp [lowIdx]
    rw [hcons] at hc ⊢
    by_cases hlt : h < 16777216
    · simp only [hlt, decide_true, countTrue_cons, if_true] at hc ⊢
      cases bs with
      | nil => simp at hc
      | cons b bs =>
        have := ih bs (by simp at hc; omega) (fun x hx => hb x (by simp [hx]))
        rw [Nat.add_comm 1, List.take_succ_cons]
        simp only [readL]
        exact .cons (.inr ⟨hlt, b, hb b (by simp), rfl⟩) this
    · simp only [hlt, decide_false, countTrue_cons] at hc ⊢
      simp only [Bool.false_eq_true, if_false, Nat.zero_add] at hc ⊢
      simp only [readL]
      exact .cons (.inl ⟨by omega, rfl⟩) (ih bs hc hb)

theorem popStep_rel {cap : Nat} {s s' : St} (h : aPopStep cap s = some s')
    (hb : ∀ x ∈ s.stack, x < 256) :
    List.Forall₂ ReadRel s.heads s'.heads ∧ (∀ x ∈ s'.stack, x < 256) := by
  simp only [aPopStep] at h
  split at h
  · rename_i hr
    obtain rfl := Option.some.inj h
    exact ⟨readL_rel _ _ hr.1 hb, fun x hx => hb x (List.mem_of_mem_drop hx)⟩
  · cases h

theorem pop_lanes {p : Nat} (hp : p ≤ 24) {H3 H2 H1 H0 : List Nat} {S : List Slot}
    (hm : List.Forall₂ (MidOk p) H3 S) (r2 : List.Forall₂ ReadRel H3 H2)
    (r1 : List.Forall₂ ReadRel H2 H1) (r0 : List.Forall₂ ReadRel H1 H0) :
    condIdx (48 - p) H0 (S.map Prod.snd) = lowIdx H1 ∧
    condIdx (40 - p) H1 (S.map Prod.snd) = lowIdx H2 ∧
    condIdx (32 - p) H2 (S.map Prod.snd) = lowIdx H3 ∧ LanesOk p H0 S := by
  induction hm generalizing H2 H1 H0 with
  | nil => cases r2; cases r1; cases r0; exact ⟨rfl, rfl, rfl, .nil⟩
  | cons hd _ ih =>
    cases r2 with
    | cons a2 r2 =>
      cases r1 with
      | cons a1 r1 =>
        cases r0 with
        | cons a0 r0 =>
          obtain ⟨b1, b2, b3, b4⟩ := lane_pop hp hd a2 a1 a0
          obtain ⟨i1, i2, i3, i4⟩ := ih r2 r1 r0
          simp only [condIdx, lowIdx, List.map_cons, List.zipWith_cons_cons] at *
          refine ⟨?_, ?_, ?_, .cons ⟨b1, hd.1⟩ i4⟩
          · rw [i1]; simp only [b2]
          · rw [i2]; simp only [b3]
          · rw [i3]; simp only [b4]

theorem popHeads_mid {p : Nat} (hp : p ≤ 24) {H : List Nat} {S : List Slot} (h : InSlots p H S) :
    List.Forall₂ (MidOk p) (aPopHeads p H S) S ∧ aPushHeads p (aPopHeads p H S) S = H := by
  induction h with
  | nil => exact ⟨.nil, rfl⟩
  | cons hd _ ih =>
    obtain ⟨i1, i2⟩ := ih
    obtain ⟨a1, a2, a3, a4⟩ := hd
    simp only [aPushHeads, aPopHeads, List.zipWith_cons_cons] at *
    exact ⟨.cons (mid_of_head hp a2 a1 a3 a4) i1, by rw [i2, head_roundtrip' a3 a4]⟩

/-- **Push inverts pop** on abstract states. -/
theorem aPush_aPop {cap p : Nat} (hp : p ≤ 24) {S : List Slot} {s s' : St}
    (hl : InSlots p s.heads S) (hb : ∀ x ∈ s.stack, x < 256) (h : aPop cap p S s = some s') :
    aPush cap p S s' = some s ∧ LanesOk p s'.heads S ∧ (∀ x ∈ s'.stack, x < 256) := by
  simp only [aPop] at h
  obtain ⟨hm, he⟩ := popHeads_mid hp hl
  rcases h1 : aPopStep cap ⟨aPopHeads p s.heads S, s.stack⟩ with _ | s1
  · simp [h1] at h
  rcases h2 : aPopStep cap s1 with _ | s2
  · simp [h1, h2] at h
  simp only [h1, h2, Option.bind_some] at h
  obtain ⟨r1, b1⟩ := popStep_rel h1 hb
  obtain ⟨r2, b2⟩ := popStep_rel h2 b1
  obtain ⟨r3, b3⟩ := popStep_rel h b2
  obtain ⟨i1, i2, i3, i4⟩ := pop_lanes hp hm r1 r2 r3
  have q1 := pushStep_of_popStep h b2 i1
  have q2 := pushStep_of_popStep h2 b1 i2
  have q3 := pushStep_of_popStep h1 hb i3
  refine ⟨?_, i4, b3⟩
  simp only [aPush, q1, q2, q3, Option.bind_some, Option.map_some, he]

theorem InSlots.lanesOk {p : Nat} {H : List Nat} {S : List Slot} (h : InSlots p H S) :
    LanesOk p H S := by
  induction h with
  | nil => exact .nil
  | cons hd _ ih => exact .cons ⟨hd.1, hd.2.1⟩ ih

theorem aPush_bytes {cap p : Nat} {S : List Slot} {s s' : St} (h : aPush cap p S s = some s')
    (hb : ∀ x ∈ s.stack, x < 256) : ∀ x ∈ s'.stack, x < 256 := by
  have step : ∀ {sh : Nat} {f : List Nat} {s s' : St}, aPushStep cap sh f s = some s' →
      (∀ x ∈ s.stack, x < 256) → ∀ x ∈ s'.stack, x < 256 := by
    intro sh f s s' h hb x hx
    simp only [aPushStep] at h
    split at h
    · obtain rfl := Option.some.inj h
      rcases List.mem_append.mp hx with h1 | h1
      · exact outs_bytes _ _ x h1
      · exact hb x h1
    · cases h
  simp only [aPush] at h
  rcases h1 : aPushStep cap (48 - p) (S.map Prod.snd) s with _ | s1
  · simp [h1] at h
  rcases h2 : aPushStep cap (40 - p) (S.map Prod.snd) s1 with _ | s2
  · simp [h1, h2] at h
  rcases h3 : aPushStep cap (32 - p) (S.map Prod.snd) s2 with _ | s3
  · simp [h1, h2, h3] at h
  simp only [h1, h2, h3, Option.bind_some, Option.map_some, Option.some.injEq] at h
  subst h
  have := step h3 (step h2 (step h1 hb))
  exact this

end Verif.Rans
