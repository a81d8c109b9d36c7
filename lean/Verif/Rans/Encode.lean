import Verif.Rans.Coder

/-
`encode` and `decode` of one batch element, for any codec satisfying the laws.
-/
namespace Verif.Rans

theorem join_lt : ∀ (A B C D : List Nat), (∀ x ∈ A, x < 256) → (∀ x ∈ B, x < 256) →
    (∀ x ∈ C, x < 256) → (∀ x ∈ D, x < 256) →
    ∀ h ∈ List.zipWith (fun ab cd => joinHead ab.1 ab.2 cd.1 cd.2) (A.zip B) (C.zip D), h < 2 ^ 32 := by
  intro A
  induction A with
  | nil => intro B C D _ _ _ _ h hh; simp at hh
  | cons a A ih =>
    intro B C D bA bB bC bD h hh
    cases B with
    | nil => simp at hh
    | cons b B =>
    cases C with
    | nil => simp at hh
    | cons c C =>
    cases D with
    | nil => simp at hh
    | cons d D =>
      simp only [List.zip_cons_cons, List.zipWith_cons_cons, List.mem_cons] at hh
      rcases hh with rfl | hh
      · rw [joinHead_eq (bA a (by simp)) (bB b (by simp)) (bC c (by simp)) (bD d (by simp))]
        have := bA a (by simp)
        have := bB b (by simp)
        have := bC c (by simp)
        have := bD d (by simp)
        norm_num; omega
      · exact ih B C D (fun x hx => bA x (by simp [hx])) (fun x hx => bB x (by simp [hx]))
          (fun x hx => bC x (by simp [hx])) (fun x hx => bD x (by simp [hx])) h hh

/-- A valid buffer consists of in-range heads and a tail of bytes. -/
theorem ValidBuffer.split {L : Nat} {buf : List Nat} (h : ValidBuffer L buf) :
    ∃ H T, buf = planes H ++ T ∧ H.length = L ∧ (∀ x ∈ H, HeadOk x) ∧ (∀ x ∈ T, x < 256) := by
  obtain ⟨h1, h2, h3, h4⟩ := array_split h.heads h.bytes 0
  refine ⟨_, _, h2, h1, ?_, fun x hx => h.bytes x (List.mem_of_mem_drop hx)⟩
  have hlt : ∀ x ∈ (ofArray buf L 0).head, x < 2 ^ 32 := by
    simp only [ofArray]
    exact join_lt _ _ _ _ (fun x hx => h.bytes x (List.mem_of_mem_take hx))
      (fun x hx => h.bytes x (List.mem_of_mem_drop (List.mem_of_mem_take hx)))
      (fun x hx => h.bytes x (List.mem_of_mem_drop (List.mem_of_mem_take hx)))
      (fun x hx => h.bytes x (List.mem_of_mem_drop (List.mem_of_mem_take hx)))
  intro x hx
  refine ⟨?_, hlt x hx⟩
  have htop : u8 (x / 2 ^ 24) ∈ buf.take L := by
    rw [h2, planes]
    simp only [List.append_assoc]
    rw [List.take_left' (by simp [h1])]
    exact List.mem_map.mpr ⟨x, hx, rfl⟩
  have := h.top _ htop
  simp only [u8] at this
  by_contra hc
  have h0 : x / 2 ^ 24 = 0 := Nat.div_eq_of_lt (by omega)
  rw [h0] at this
  omega

theorem planes_valid {L : Nat} {H T : List Nat} (hl : H.length = L) (hH : ∀ x ∈ H, HeadOk x)
    (hT : ∀ x ∈ T, x < 256) : ValidBuffer L (planes H ++ T) := by
  have hb : ∀ x ∈ planes H, x < 256 := by
    intro x hx
    simp only [planes, List.mem_append, List.mem_map] at hx
    rcases hx with ((⟨y, _, rfl⟩ | ⟨y, _, rfl⟩) | ⟨y, _, rfl⟩) | ⟨y, _, rfl⟩ <;> simp only [u8] <;> omega
  refine ⟨?_, ?_, ?_⟩
  · intro x hx
    rcases List.mem_append.mp hx with h | h
    · exact hb x h
    · exact hT x h
  · rw [List.length_append, planes_length, hl]; omega
  · intro x hx
    rw [planes] at hx
    simp only [List.append_assoc] at hx
    rw [List.take_left' (by simp [hl])] at hx
    obtain ⟨y, hy, rfl⟩ := List.mem_map.mp hx
    obtain ⟨h1, h2⟩ := hH y hy
    simp only [u8]
    norm_num at h1 h2 ⊢
    omega

/-- The start buffer given to `encode`, as an abstract state. -/
inductive StartsAs (L cap : Nat) : Option (List Nat) → St → Prop
  | empty : StartsAs L cap none ⟨List.replicate L (2 ^ 24), []⟩
  | buffer {H T : List Nat} : H.length = L → (∀ x ∈ H, HeadOk x) → (∀ x ∈ T, x < 256) →
      T.length ≤ cap → StartsAs L cap (some (planes H ++ T)) ⟨H, T⟩

theorem startState_spec {L cap : Nat} {rnd : List Nat} {start : Option (List Nat)} {s : St}
    (hr : rnd.length = cap) (hrb : ∀ x ∈ rnd, x < 256) (h : StartsAs L cap start s) :
    ∃ arr lim, startState L cap rnd start = .ok (arr, lim) ∧ Abs cap (ofArray arr L lim) s ∧ Ok L s := by
  cases h with
  | empty =>
    refine ⟨_, _, rfl, ?_, ?_⟩
    · have hlt : ∀ h ∈ List.replicate L (2 ^ 24), h < 2 ^ 32 := by
        intro h hh; rw [List.eq_of_mem_replicate hh]; norm_num
      rw [toArray_eq, show (emptyMessage L rnd).head = List.replicate L (2 ^ 24) from rfl,
        ofArray_planes hlt (by simp)]
      exact ⟨rfl, hr, by simp, by simp, by simp [emptyMessage, hr], hrb⟩
    · refine ⟨by simp, ?_, by simp⟩
      intro h hh
      rw [List.eq_of_mem_replicate hh]
      exact ⟨le_refl _, by norm_num⟩
  | @buffer H T hl hH hT hc =>
    refine ⟨_, _, by simp only [startState, insertZeros_spec hl hc]; rfl, ?_, ?_⟩
    · rw [ofArray_planes (fun h hh => (hH h hh).2) hl]
      refine ⟨rfl, by simp; omega, hc, by simp only; omega, ?_, ?_⟩
      · rw [List.drop_left' (by simp)]
      · intro x hx
        rcases List.mem_append.mp hx with h | h
        · rw [List.eq_of_mem_replicate h]; norm_num
        · exact hT x h
    · exact ⟨hl, hH, hT⟩

/-- What `encode` returns: the heads, one byte of no meaning, and the live stack. -/
theorem encodeOne_of_pushAll {α σ : Type} {cap L : Nat} (hL : 1 ≤ L) (hc : L ≤ cap) {codec : Codec α σ}
    {msg : List α} {rnd : List Nat} {start : Option (List Nat)} {s' : St} {c c' : σ} {arr : List Nat}
    {lim : Int} {m' : Msg} (hs1 : startState L cap rnd start = .ok (arr, lim))
    (hp : pushAll codec msg (ofArray arr L lim) c = .ok (m', c')) (ha' : Abs cap m' s') (hok' : Ok L s') :
    ∃ junk, junk < 256 ∧
      encodeOne codec c L cap rnd start msg = .ok (planes s'.heads ++ junk :: s'.stack, c') := by
  have hhl : m'.head.length = L := by rw [ha'.head, hok'.lanes]
  have hroom := ha'.room
  have henc : encodeOne codec c L cap rnd start msg =
      .ok (trim (planes s'.heads ++ m'.data) L ((L : Int) * 4 + ((cap - s'.stack.length : Nat) : Int)), c') := by
    simp only [encodeOne, hs1]
    show (if cap < L then _ else pushAll codec msg (ofArray arr L lim) c >>= _) = _
    rw [if_neg (by omega), hp]
    show (if (toArray m').2 - ((L * 4 : Nat) : Int) < 0 then _ else _) = _
    rw [toArray_eq, hhl, ha'.limit, if_neg (by simp only; push_cast; omega), ha'.head]
    have : (L : Int) * 4 + ((cap : Int) - s'.stack.length)
        = (L : Int) * 4 + ((cap - s'.stack.length : Nat) : Int) := by omega
    simp only [this]
    rfl
  rw [henc]
  have hpl : (planes s'.heads).length = L * 4 := by rw [planes_length, hok'.lanes]
  rcases Nat.eq_zero_or_pos (cap - s'.stack.length) with h0 | hpos
  · -- the tail is full: the byte before it is the last byte of the heads
    have hlive : m'.data = s'.stack := by have := ha'.live; rwa [h0, List.drop_zero] at this
    rw [h0, hlive]
    have hne : planes s'.heads ≠ [] := by
      intro hn; rw [hn] at hpl; simp at hpl; omega
    have hsplit := List.dropLast_append_getLast hne
    refine ⟨(planes s'.heads).getLast hne, ?_, ?_⟩
    · exact (planes_valid (T := []) hok'.lanes hok'.range (by simp)).bytes _ (by simp)
    · simp only [trim]
      rw [List.take_left' hpl]
      have e : ((L : Int) * 4 + ((0 : Nat) : Int) - 1).toNat = (planes s'.heads).dropLast.length := by
        rw [List.length_dropLast, hpl]; omega
      rw [e]
      conv_lhs => enter [1, 1, 2, 2, 1]; rw [← hsplit]
      rw [List.append_assoc, List.drop_left]
      rfl
  · obtain ⟨k, hk⟩ : ∃ k, cap - s'.stack.length = k + 1 := ⟨cap - s'.stack.length - 1, by omega⟩
    have hklt : k < m'.data.length := by rw [ha'.len]; omega
    refine ⟨m'.data[k], ha'.bytes _ (List.getElem_mem hklt), ?_⟩
    rw [hk, show ((L : Int) * 4 + ((k + 1 : Nat) : Int)) = (L : Int) * 4 + (k : Int) + 1 by push_cast; ring,
      trim_spec hok'.lanes k]
    rw [← List.getElem_cons_drop hklt, ← hk, ha'.live]

theorem encodeOne_spec {α σ : Type} {cap L : Nat} (hL : 1 ≤ L) (hc : L ≤ cap) {codec : Codec α σ}
    {push : α → St → σ → Option (St × σ)} {V : σ → α → Prop} {R : σ → σ → Prop}
    (h : Lossless cap L codec push V R) {msg : List α} {rnd : List Nat} {start : Option (List Nat)}
    {s s' : St} {c c' : σ} (hr : rnd.length = cap) (hrb : ∀ x ∈ rnd, x < 256)
    (hst : StartsAs L cap start s) (hcod : AllCodable push V msg s c)
    (hrun : aPushAll push msg s c = some (s', c')) :
    ∃ junk, junk < 256 ∧
      encodeOne codec c L cap rnd start msg = .ok (planes s'.heads ++ junk :: s'.stack, c') ∧
      Ok L s' ∧ s'.stack.length ≤ cap := by
  obtain ⟨arr, lim, hs1, ha, hok⟩ := startState_spec hr hrb hst
  obtain ⟨hok', m', hp, ha'⟩ := pushAll_ref h msg ha hok hcod hrun
  obtain ⟨j, h1, h2⟩ := encodeOne_of_pushAll hL hc hs1 hp ha' hok'
  exact ⟨j, h1, h2, hok', ha'.room⟩

/-- The array `decode` starts from represents the coded state. -/
theorem decode_start {cap L : Nat} {s' : St} {junk : Nat} (hj : junk < 256) (hs' : Ok L s')
    (hroom : s'.stack.length + 1 ≤ cap) :
    ∃ arr lim, insertZeros (planes s'.heads ++ junk :: s'.stack) L cap = .ok (arr, lim) ∧
      Abs cap (ofArray arr L lim) s' := by
  have hins := insertZeros_spec (H := s'.heads) (T := junk :: s'.stack) (cap := cap) hs'.lanes
    (by simpa using hroom)
  refine ⟨_, _, hins, ?_⟩
  rw [ofArray_planes (fun h hh => (hs'.range h hh).2) hs'.lanes]
  refine ⟨rfl, by simp; omega, by omega, by simp only [List.length_cons]; push_cast; omega, ?_, ?_⟩
  · simp only [List.length_cons]
    rw [show List.replicate (cap - (s'.stack.length + 1)) 0 ++ junk :: s'.stack =
      (List.replicate (cap - (s'.stack.length + 1)) 0 ++ [junk]) ++ s'.stack by simp,
      List.drop_left' (by simp; omega)]
  · intro x hx
    rcases List.mem_append.mp hx with h | h
    · rw [List.eq_of_mem_replicate h]; norm_num
    · rcases List.mem_cons.mp h with rfl | h
      · exact hj
      · exact hs'.bytes x h

theorem decodeOne_of_popAll {α σ : Type} {cap L n : Nat} (hc : L ≤ cap) {codec : Codec α σ}
    {buf arr : List Nat} {lim : Int} {t' t : σ} {msg : List α} {m : Msg} {s : St}
    (hi : insertZeros buf L cap = .ok (arr, lim))
    (hp : popAll codec n (ofArray arr L lim) t' = .ok (m, msg, t)) (ha : Abs cap m s)
    (hl : s.heads.length = L) :
    decodeOne codec t' L cap n buf = .ok (msg, planes s.heads ++ s.stack, t) := by
  simp only [decodeOne, hi]
  show (if cap < L then _ else popAll codec n (ofArray _ L _) t' >>= _) = _
  rw [if_neg (by omega), hp]
  show Except.ok (msg, trim (toArray m).1 L ((toArray m).2 + 1), t) = _
  have hr := ha.room
  rw [toArray_eq, ha.head, hl, ha.limit]
  have e : (L : Int) * 4 + ((cap : Int) - s.stack.length) + 1
      = (L : Int) * 4 + ((cap - s.stack.length : Nat) : Int) + 1 := by omega
  simp only [e]
  rw [trim_spec hl, ha.live]

/-- `decode` on bytes of that form restores the message and the start buffer. -/
theorem decodeOne_spec {α σ : Type} {cap L : Nat} (hc : L ≤ cap) {codec : Codec α σ}
    {push : α → St → σ → Option (St × σ)} {V : σ → α → Prop} {R : σ → σ → Prop}
    (h : Lossless cap L codec push V R) (hok : ∀ {s x c s' c'}, Ok L s → V c x →
      push x s c = some (s', c') → Ok L s')
    {msg : List α} {s s' : St} {c c' t' : σ} {junk : Nat} (hj : junk < 256) (hs : Ok L s)
    (hcod : AllCodable push V msg s c) (hrun : aPushAll push msg s c = some (s', c'))
    (hroom : s'.stack.length + 1 ≤ cap) (hR : R c' t') :
    ∃ t, decodeOne codec t' L cap msg.length (planes s'.heads ++ junk :: s'.stack) =
      .ok (msg, planes s.heads ++ s.stack, t) ∧ R c t := by
  have hs' : Ok L s' := aPushAll_ok hok msg hs hcod hrun
  obtain ⟨arr, lim, hi, habs⟩ := decode_start hj hs' hroom
  obtain ⟨t, m, hp, ha, hRt⟩ := popAll_ref h hok msg hs hcod hrun habs hR
  exact ⟨t, decodeOne_of_popAll hc hi hp ha hs.lanes, hRt⟩

end Verif.Rans
