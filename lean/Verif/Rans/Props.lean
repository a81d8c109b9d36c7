import Verif.Rans.Main
import Verif.Basic

/-
Properties C08-C13 and C17 of the vectorised rANS coder.  The vocabulary is in
`Verif.Rans.Spec`.
-/
namespace Verif.Rans

theorem peek_eq (m : Msg) (p : Nat) : peek m p = peekA p m.head := by
  simp only [peek, peekA, Nat.and_two_pow_sub_one_eq_mod]

/-! ### C08 -/

/-- **C08.**  If after the push at least one free byte per lane is left, the state shows
slot values inside the pushed slots, and popping them restores heads, limit and
stack. -/
theorem C08_pop_push {L cap p : Nat} (hp : p ≤ 24) {m : Msg} (hm : WF L cap m) {lo hi : List Nat}
    (hs : ValidSlots p L lo hi) (hroom : (L : Int) ≤ (pushSymbols m lo hi p).limit)
    (allowEmpty : Bool) :
    WF L cap (pushSymbols m lo hi p) ∧ Within (peek (pushSymbols m lo hi p) p) lo hi ∧
    SameState (popSymbols (pushSymbols m lo hi p) (peek (pushSymbols m lo hi p) p) lo hi p allowEmpty) m := by
  obtain ⟨ha, ho⟩ := hm.abs
  obtain ⟨e1, e2, e3, e4⟩ := slotsOf_spec hs
  have hl : LanesOk p m.head (slotsOf lo hi) := lanesOk_of (by rw [hm.lanes, e3]) hm.range e4
  obtain ⟨s', hpush⟩ := push_some hp ha hl (by rw [e1, e2]; simpa [hm.lanes] using hroom)
  obtain ⟨hpop, hin⟩ := aPop_aPush hp hl hpush
  have ha' := pushSymbols_ref hp ha hl hpush
  rw [e1, e2] at ha'
  have hlen := hin.lanesOk.heads
  have hb := aPush_bytes hpush ho.bytes
  refine ⟨ha'.wf ⟨by rw [hlen.1, e3], hlen.2, hb⟩, ?_, ?_⟩
  · rw [peek_eq, ha'.head]
    exact (within_iff hs hlen.2).1 hin
  · have := popSymbols_ref hp allowEmpty ha' hin hpop
    rw [e1, e2] at this
    exact this.same ha

/-- **C08 with the room stated before the push:** three free bytes per lane suffice, whatever the
slots. -/
theorem C08_pop_push_room {L cap p : Nat} (hp : p ≤ 24) {m : Msg} (hm : WF L cap m) {lo hi : List Nat}
    (hs : ValidSlots p L lo hi) (hroom : 3 * (L : Int) ≤ m.limit) (allowEmpty : Bool) :
    WF L cap (pushSymbols m lo hi p) ∧ Within (peek (pushSymbols m lo hi p) p) lo hi ∧
    SameState (popSymbols (pushSymbols m lo hi p) (peek (pushSymbols m lo hi p) p) lo hi p allowEmpty) m := by
  obtain ⟨ha, ho⟩ := hm.abs
  obtain ⟨e1, e2, e3, e4⟩ := slotsOf_spec hs
  have hl : LanesOk p m.head (slotsOf lo hi) := lanesOk_of (by rw [hm.lanes, e3]) hm.range e4
  have hlim := ha.limit
  have hlow := hm.low
  obtain ⟨s', hpush, _⟩ := aPush_room (cap := cap) (p := p) (S := slotsOf lo hi)
    (s := ⟨m.head, m.data.drop m.limit.toNat⟩) (by simp only [hm.lanes, e3])
    (by simp only [hm.lanes]; simp only at hlim; omega)
  obtain ⟨hpop, hin⟩ := aPop_aPush hp hl hpush
  have ha' := pushSymbols_ref hp ha hl hpush
  rw [e1, e2] at ha'
  have hlen := hin.lanesOk.heads
  have hb := aPush_bytes hpush ho.bytes
  refine ⟨ha'.wf ⟨by rw [hlen.1, e3], hlen.2, hb⟩, ?_, ?_⟩
  · rw [peek_eq, ha'.head]
    exact (within_iff hs hlen.2).1 hin
  · have := popSymbols_ref hp allowEmpty ha' hin hpop
    rw [e1, e2] at this
    exact this.same ha

/-- **C08 for codecs.**  For every pair of CDF functions that agree, the codec's `pop` returns
the symbols its `push` was given and the previous state. -/
theorem C08_codec {σ : Type} {cdf : CdfFun σ} {icdf : InvCdfFun σ} {p L width cap : Nat}
    {V : σ → List Nat → Prop} {R : σ → σ → Prop} (hp : p ≤ 24) (h : CdfPair cdf icdf p L width V R)
    {m : Msg} (hm : WF L cap m) (hroom : 3 * (L : Int) ≤ m.limit) {c : σ} {x : List Nat} (hx : V c x)
    (init : σ) (ae : Bool) :
    ∃ m1 c1, (defaultCodec cdf icdf init p width ae).push x m c = .ok (m1, c1) ∧ WF L cap m1 ∧
      ∀ t1, R c1 t1 → ∀ flag, ∃ m2 t, (defaultCodec cdf icdf init p width ae).pop flag m1 t1 = .ok (m2, x, t) ∧
        SameState m2 m ∧ R c t := by
  have hv := h.slots c x hx
  obtain ⟨g1, g2, _⟩ := C08_pop_push_room hp hm hv hroom false
  have hlow := hm.low
  have hhigh := hm.high
  have hsh : shapeOk m = true := by simp only [shapeOk, hm.lanes, hm.len, decide_eq_true_eq]; omega
  have hsh1 : shapeOk (pushSymbols m (cdf x c).1 (cdf x c).2.1 p) = true := by
    simp only [shapeOk, g1.lanes, g1.len, decide_eq_true_eq]; omega
  refine ⟨pushSymbols m (cdf x c).1 (cdf x c).2.1 p, (cdf x c).2.2, by simp only [defaultCodec, hsh, if_true],
    g1, ?_⟩
  intro t1 hR flag
  obtain ⟨t, e, hRt⟩ := h.inverse c x _ t1 hx g2 hR
  obtain ⟨_, _, g3⟩ := C08_pop_push_room hp hm hv hroom (flag.getD false)
  refine ⟨_, t, ?_, g3, hRt⟩
  simp only [defaultCodec, hsh1, if_true, e, map_mod_eq (h.dtype c x hx)]

/-- A state with two lanes. -/
def exMsg : Msg := ⟨[2 ^ 24 + 5, 3000000000], 9, [0, 0, 0, 0, 0, 0, 0, 0, 0, 17, 33, 200]⟩

theorem exMsg_wf : WF 2 12 exMsg := by
  refine ⟨rfl, ?_, rfl, ?_, by decide, by decide⟩ <;> decide

/-- The hypotheses are met: slots of size 1 and 100 at precision 8, six bytes free. -/
example : WF 2 12 exMsg ∧ ValidSlots 8 2 [3, 100] [4, 200] ∧ 3 * (2 : Int) ≤ exMsg.limit ∧
    (2 : Int) ≤ (pushSymbols exMsg [3, 100] [4, 200] 8).limit ∧
    pushSymbols exMsg [3, 100] [4, 200] 8 ≠ exMsg :=
  ⟨exMsg_wf, ⟨rfl, by simp⟩, by decide, by decide +kernel, by decide +kernel⟩

/-! ### C09 -/

/-- **C09.**  Popping the slot the state shows and pushing it back restores the state, if the
stack held the bytes the pop reads (the limit stays inside the tail) and one byte per
lane was free. -/
theorem C09_push_pop {L cap p : Nat} (hp : p ≤ 24) {m : Msg} (hm : WF L cap m) {lo hi : List Nat}
    (hs : ValidSlots p L lo hi) (hw : Within (peek m p) lo hi) (hroom : (L : Int) ≤ m.limit)
    (hbytes : (popSymbols m (peek m p) lo hi p false).limit ≤ cap) :
    WF L cap (popSymbols m (peek m p) lo hi p false) ∧
    SameState (pushSymbols (popSymbols m (peek m p) lo hi p false) lo hi p) m := by
  obtain ⟨ha, ho⟩ := hm.abs
  obtain ⟨e1, e2, e3, e4⟩ := slotsOf_spec hs
  rw [peek_eq] at hw
  have hin : InSlots p m.head (slotsOf lo hi) := (within_iff hs hm.range).2 hw
  obtain ⟨s', hpop⟩ := pop_some hp ha hin (by simpa [hm.lanes] using hroom) (by rw [e1, e2]; exact hbytes)
  obtain ⟨hpush, hl, hb⟩ := aPush_aPop hp hin ho.bytes hpop
  have ha' := popSymbols_ref hp false ha hin hpop
  rw [e1, e2] at ha'
  refine ⟨ha'.wf ⟨by rw [hl.heads.1, e3], hl.heads.2, hb⟩, ?_⟩
  have := pushSymbols_ref hp ha' hl hpush
  rw [e1, e2] at this
  exact this.same ha

/-- **C09 with the bytes stated before the pop:** three bytes per lane on the stack suffice. -/
theorem C09_push_pop_bytes {L cap p : Nat} (hp : p ≤ 24) {m : Msg} (hm : WF L cap m) {lo hi : List Nat}
    (hs : ValidSlots p L lo hi) (hw : Within (peek m p) lo hi) (hroom : (L : Int) ≤ m.limit)
    (hbytes : m.limit + 3 * L ≤ cap) (allowEmpty : Bool) :
    WF L cap (popSymbols m (peek m p) lo hi p allowEmpty) ∧
    SameState (pushSymbols (popSymbols m (peek m p) lo hi p allowEmpty) lo hi p) m := by
  obtain ⟨ha, ho⟩ := hm.abs
  obtain ⟨e1, e2, e3, e4⟩ := slotsOf_spec hs
  rw [peek_eq] at hw
  have hin : InSlots p m.head (slotsOf lo hi) := (within_iff hs hm.range).2 hw
  have hlim := ha.limit
  have hlow := hm.low
  simp only at hlim
  obtain ⟨s', hpop, _⟩ := aPop_room (cap := cap) (p := p) (S := slotsOf lo hi)
    (s := ⟨m.head, m.data.drop m.limit.toNat⟩) (by simp only [hm.lanes, e3])
    (by simp only [hm.lanes]; omega) (by simp only [hm.lanes]; omega)
  obtain ⟨hpush, hl, hb⟩ := aPush_aPop hp hin ho.bytes hpop
  have ha' := popSymbols_ref hp allowEmpty ha hin hpop
  rw [e1, e2] at ha'
  refine ⟨ha'.wf ⟨by rw [hl.heads.1, e3], hl.heads.2, hb⟩, ?_⟩
  have := pushSymbols_ref hp ha' hl hpush
  rw [e1, e2] at this
  exact this.same ha

/-- **C09 for codecs.**  If every slot value decodes to a symbol that owns it, pushing what `pop`
returned restores the state. -/
theorem C09_codec {σ : Type} {cdf : CdfFun σ} {icdf : InvCdfFun σ} {p L width cap : Nat}
    {V : σ → List Nat → Prop} {R : σ → σ → Prop} (hp : p ≤ 24) (h : CdfPair cdf icdf p L width V R)
    {m : Msg} (hm : WF L cap m) (hroom : (L : Int) ≤ m.limit) (hbytes : m.limit + 3 * L ≤ cap) {c : σ}
    (ht : CdfTotal cdf icdf p L width (V c) c) (init : σ) (ae : Bool) (flag : Option Bool) :
    ∃ m1 x t, (defaultCodec cdf icdf init p width ae).pop flag m c = .ok (m1, x, t) ∧ V c x ∧ WF L cap m1 ∧
      ∃ m2 c1, (defaultCodec cdf icdf init p width ae).push x m1 c = .ok (m2, c1) ∧ SameState m2 m := by
  obtain ⟨v1, v2, v3, v4⟩ := ht.total (peek m p) (by simp [peek, hm.lanes])
    (by intro y hy; rw [peek_eq] at hy; simp only [peekA, List.mem_map] at hy; obtain ⟨z, _, rfl⟩ := hy
        exact Nat.mod_lt _ (by positivity))
  have hv := h.slots c _ v1
  rw [v2, v3] at hv
  obtain ⟨g1, g2⟩ := C09_push_pop_bytes hp hm hv v4 hroom hbytes (flag.getD false)
  have hlow := hm.low
  have hhigh := hm.high
  have hsh : shapeOk m = true := by simp only [shapeOk, hm.lanes, hm.len, decide_eq_true_eq]; omega
  have hsh1 : shapeOk (popSymbols m (peek m p) (icdf (peek m p) c).1 (icdf (peek m p) c).2.1 p
      (flag.getD false)) = true := by
    simp only [shapeOk, g1.lanes, g1.len, decide_eq_true_eq]; omega
  refine ⟨_, (icdf (peek m p) c).2.2.1, (icdf (peek m p) c).2.2.2,
    by simp only [defaultCodec, hsh, if_true, map_mod_eq (h.dtype c _ v1)], v1, g1, ?_⟩
  refine ⟨_, (cdf (icdf (peek m p) c).2.2.1 c).2.2, ?_, g2⟩
  simp only [defaultCodec, hsh1, if_true, v2, v3]

/-- The hypotheses are met by a state with three bytes per lane on the stack; the pop changes
the state. -/
example : let m : Msg := ⟨[2 ^ 24 + 5, 3000000000], 3, [0, 0, 0, 9, 8, 7, 6, 5, 4, 17, 33, 200]⟩
    WF 2 12 m ∧ ValidSlots 8 2 [5, 0] [6, 1] ∧ Within (peek m 8) [5, 0] [6, 1] ∧ (2 : Int) ≤ m.limit ∧
    m.limit + 3 * (2 : Nat) ≤ (12 : Nat) ∧ (popSymbols m (peek m 8) [5, 0] [6, 1] 8 false).limit = 5 := by
  refine ⟨⟨rfl, ?_, rfl, ?_, by decide, by decide⟩, ⟨rfl, by simp⟩, ?_, by decide, by decide, by decide +kernel⟩
  · decide
  · decide
  · simp [Within, peek]

/-- Without the bytes the law fails: one lane with an empty stack. -/
example : let m : Msg := ⟨[2 ^ 24 + 5], 6, [9, 8, 7, 6, 5, 4]⟩
    (popSymbols m (peek m 8) [5] [6] 8 false).limit > 6 := by decide +kernel

/-! ### C10 -/

theorem op_range {L cap : Nat} {m : Msg} (ht : TailOk L cap m) (hh : ∀ h ∈ m.head, HeadOk h) {o : Op}
    (ho : o.Ok L m) : TailOk L cap (o.run m) ∧ (∀ h ∈ (o.run m).head, HeadOk h) := by
  cases o with
  | push p lo hi =>
    obtain ⟨hp, hs⟩ := ho
    obtain ⟨e1, e2, e3, e4⟩ := slotsOf_spec hs
    have hl := lanesOk_of (by rw [ht.lanes, e3]) hh e4
    obtain ⟨g1, g2, _⟩ := pushSymbols_range hp ht hl
    rw [e1, e2] at g1 g2
    exact ⟨g1, g2.lanesOk.heads.2⟩
  | pop p lo hi ae =>
    obtain ⟨hp, hs, hw⟩ := ho
    obtain ⟨e1, e2, e3, e4⟩ := slotsOf_spec hs
    rw [peek_eq] at hw
    obtain ⟨g1, g2, _⟩ := popSymbols_range hp ae ht ((within_iff hs hh).2 hw)
    rw [e1, e2] at g1 g2
    exact ⟨g1, g2.heads.2⟩

/-- **C10.**  After any history of pushes and pops — whatever the precisions, with or without room
left and with or without bytes left — all heads are in `[2^24, 2^32)` and the tail keeps
its length and holds bytes. -/
theorem C10_range {L cap : Nat} (hL : L ≤ cap) : ∀ (ops : List Op) {m : Msg}, m.head.length = L →
    m.data.length = cap → (∀ x ∈ m.data, x < 256) → (∀ h ∈ m.head, 2 ^ 24 ≤ h ∧ h < 2 ^ 32) →
    OpsOk L m ops →
    (runOps m ops).head.length = L ∧ (∀ h ∈ (runOps m ops).head, 2 ^ 24 ≤ h ∧ h < 2 ^ 32) ∧
    (runOps m ops).data.length = cap ∧ ∀ x ∈ (runOps m ops).data, x < 256 := by
  intro ops
  induction ops with
  | nil => intro m h1 h2 h3 h4 _; exact ⟨h1, h4, h2, h3⟩
  | cons o ops ih =>
    intro m h1 h2 h3 h4 ho
    obtain ⟨t, r⟩ := op_range ⟨h1, h2, hL, h3⟩ h4 ho.1
    exact ih t.lanes t.len t.bytes r ho.2

/-- **C10, no overflow.**  Every operation computes what it would compute with unbounded
integers: dropping all reductions modulo `2^32` gives the same result. -/
theorem C10_no_overflow {L cap : Nat} (hL : L ≤ cap) {ops : List Op} {m : Msg} (h1 : m.head.length = L)
    (h2 : m.data.length = cap) (h3 : ∀ x ∈ m.data, x < 256) (h4 : ∀ h ∈ m.head, 2 ^ 24 ≤ h ∧ h < 2 ^ 32)
    (ho : OpsOk L m ops) {o : Op} (hok : o.Ok L (runOps m ops)) :
    o.run (runOps m ops) = match o with
      | .push p lo hi => pushExact (runOps m ops) lo hi p
      | .pop p lo hi ae => popExact (runOps m ops) (peek (runOps m ops) p) lo hi p ae := by
  obtain ⟨r1, r2, r3, r4⟩ := C10_range hL ops h1 h2 h3 h4 ho
  have ht : TailOk L cap (runOps m ops) := ⟨r1, r3, hL, r4⟩
  cases o with
  | push p lo hi =>
    obtain ⟨hp, hs⟩ := hok
    obtain ⟨e1, e2, e3, e4⟩ := slotsOf_spec hs
    have g := (pushSymbols_range hp ht (lanesOk_of (by rw [ht.lanes, e3]) r2 e4)).2.2
    rw [e1, e2] at g
    exact g
  | pop p lo hi ae =>
    obtain ⟨hp, hs, hw⟩ := hok
    obtain ⟨e1, e2, e3, e4⟩ := slotsOf_spec hs
    rw [peek_eq] at hw
    have g := (popSymbols_range hp ae ht ((within_iff hs r2).2 hw)).2.2
    rw [e1, e2] at g
    exact g

/-- A history with three operations at three precisions. -/
example : OpsOk 2 exMsg [.push 8 [3, 100] [4, 200], .pop 1 [0, 0] [2, 2] false, .push 24 [0, 5] [1, 6]] := by
  exact ⟨⟨by decide, rfl, by simp⟩, ⟨by decide, ⟨rfl, by simp⟩, by decide +kernel⟩,
    ⟨by decide, rfl, by simp⟩, trivial⟩

/-! ### C12 -/

/-- **C12.**  The inverse lookup of a slot value finds a symbol of the table whose interval
contains the value, with non-zero frequency. -/
theorem C12_inverse {p : Nat} {tbl : List Nat} (h : ValidTable p tbl) {v : Nat} (hv : v < 2 ^ p) :
    ∃ s : Nat, findSymbol v tbl = s ∧ s + 1 < tbl.length ∧
      tbl.getD s 0 ≤ v ∧ v < tbl.getD (s + 1) 0 := by
  obtain ⟨a, b, c, d⟩ := findSymbol_spec h hv
  exact ⟨(findSymbol v tbl).toNat, by omega, a, c, d⟩

/-- **C12, uniqueness.**  A symbol is returned exactly for the values of its interval. -/
theorem C12_unique {p : Nat} {tbl : List Nat} (h : ValidTable p tbl) {v : Nat} (hv : v < 2 ^ p) (s : Nat)
    (hs : s + 1 < tbl.length) :
    findSymbol v tbl = s ↔ tbl.getD s 0 ≤ v ∧ v < tbl.getD (s + 1) 0 := by
  obtain ⟨s', e, a, c, d⟩ := C12_inverse h hv
  constructor
  · intro e'
    obtain rfl : s' = s := by omega
    exact ⟨c, d⟩
  · rintro ⟨c', d'⟩
    rw [e, owner_unique h.mono a c d hs c' d']

/-- **C12, zero frequencies** are never returned. -/
theorem C12_zero {p : Nat} {tbl : List Nat} (h : ValidTable p tbl) {v : Nat} (hv : v < 2 ^ p) (s : Nat)
    (hs : s + 1 < tbl.length) (hz : tbl.getD s 0 = tbl.getD (s + 1) 0) : findSymbol v tbl ≠ s := by
  rw [Ne, C12_unique h hv s hs]
  omega

/-- **C12 for the codec of `fixed_array_cdf_codec`:** lane by lane, `inverse_cdf_fun` returns the
unique symbols that own the values, and the slots `cdf_fun` gives for them. -/
theorem C12_lanes {p : Nat} {tbls : List (List Nat)} (ht : ∀ t ∈ tbls, ValidTable p t) {v : List Nat}
    (hl : v.length = tbls.length) (hv : ∀ x ∈ v, x < 2 ^ p) :
    let r := tableInv v tbls
    TableSymbols tbls r.2.2.1 ∧ tableCdf r.2.2.1 tbls = (r.1, r.2.1, tbls) ∧ Within v r.1 r.2.1 := by
  obtain ⟨v1, v2, v3, v4⟩ := (table_total (width := 0) ht).total v hl hv
  exact ⟨v1, Prod.ext v2 (Prod.ext v3 rfl), v4⟩

/-- A table with a symbol of frequency 0. -/
example : ValidTable 3 [0, 2, 2, 7, 8] ∧ (List.range 8).map (findSymbol · [0, 2, 2, 7, 8]) =
    [0, 0, 2, 2, 2, 2, 2, 3] := ⟨⟨rfl, rfl, by decide⟩, by decide⟩

/-! ### C13 -/

/-- **C13, bytes and back.**  Serialising a state and reading the array back gives the same
state. -/
theorem C13_array_roundtrip {L cap : Nat} {m : Msg} (hm : WF L cap m) :
    (toArray m).2 = 4 * L + m.limit ∧ (∀ x ∈ (toArray m).1, x < 256) ∧
    ofArray (toArray m).1 L m.limit = m := by
  rw [toArray_eq]
  refine ⟨by simp only [hm.lanes]; omega, ?_, ?_⟩
  · intro x hx
    rcases List.mem_append.1 hx with hx | hx
    · simp only [planes, List.mem_append, List.mem_map, u8] at hx
      rcases hx with ((⟨_, _, rfl⟩ | ⟨_, _, rfl⟩) | ⟨_, _, rfl⟩) | ⟨_, _, rfl⟩ <;> exact Nat.mod_lt _ (by decide)
    · exact hm.bytes x hx
  · simp only
    rw [ofArray_planes (fun h hh => (hm.range h hh).2) hm.lanes]

/-- **C13, the other way round:** every byte array with room for the heads is the array of the
state read from it. -/
theorem C13_state_roundtrip {arr : List Nat} {n : Nat} (hl : 4 * n ≤ arr.length)
    (hb : ∀ x ∈ arr, x < 256) (lim : Int) :
    toArray (ofArray arr n lim) = (arr, 4 * n + lim) := by
  obtain ⟨a, b, c, d⟩ := array_split hl hb lim
  rw [toArray_eq]
  refine Prod.ext ?_ (by simp only [a, d]; omega)
  simp only [c]
  exact b.symm

/-- **C13, trimming.**  Removing the free space of a serialised state as `decode` does and
inserting it again for any capacity `cap'` that holds the live bytes gives a state with
the same heads, the same live bytes, and free space in front of them. -/
theorem C13_trim_insert {L cap cap' : Nat} {m : Msg} (hm : WF L cap m)
    (hc : cap - m.limit ≤ (cap' : Int)) :
    ∃ arr, insertZeros (trim (toArray m).1 L ((toArray m).2 + 1)) L cap' = .ok (arr, cap' - (cap - m.limit) + 1) ∧
      (ofArray arr L (cap' - (cap - m.limit))).head = m.head ∧
      (ofArray arr L (cap' - (cap - m.limit))).data.length = cap' ∧
      (ofArray arr L (cap' - (cap - m.limit))).data.drop (cap' - (cap - m.limit.toNat)) =
        m.data.drop m.limit.toNat := by
  have hlow := hm.low
  have hhigh := hm.high
  have e : (toArray m).2 + 1 = (L : Int) * 4 + (m.limit.toNat : Nat) + 1 := by
    rw [toArray_eq]; simp only [hm.lanes]; omega
  have hd : (m.data.drop m.limit.toNat).length = cap - m.limit.toNat := by rw [List.length_drop, hm.len]
  rw [e, toArray_eq]
  simp only
  rw [trim_spec hm.lanes, insertZeros_spec hm.lanes (by rw [hd]; omega), hd]
  refine ⟨_, congrArg Except.ok (Prod.ext rfl (by simp only; omega)), ?_⟩
  rw [ofArray_planes (fun h hh => (hm.range h hh).2) hm.lanes]
  refine ⟨rfl, by simp only [List.length_append, List.length_replicate, hd]; omega, ?_⟩
  simp only
  rw [List.drop_append_of_le_length (by simp), List.drop_of_length_le (by simp)]
  simp

example : WF 2 12 exMsg ∧ (12 : Int) - exMsg.limit ≤ (7 : Nat) ∧
    (toArray exMsg).1.length = 20 := ⟨exMsg_wf, by decide, by decide⟩

/-! ### C17 -/

/-- **C17.**  The symbols a codec's `pop` returns, and the CDF state after it, are those that
`inverse_cdf_fun` gives for the peeked values.  `peek` is a function of the heads alone
and returns one value below `2^p` per lane. -/
theorem C17_peek {σ : Type} {cdf : CdfFun σ} {icdf : InvCdfFun σ} {p width : Nat} (init : σ) (ae : Bool)
    (flag : Option Bool) {m m1 : Msg} {c t : σ} {x : List Nat}
    (h : (defaultCodec cdf icdf init p width ae).pop flag m c = .ok (m1, x, t)) :
    x = (icdf (peek m p) c).2.2.1.map (· % width) ∧ t = (icdf (peek m p) c).2.2.2 ∧
    (peek m p).length = m.head.length ∧ ∀ v ∈ peek m p, v < 2 ^ p := by
  simp only [defaultCodec] at h
  split at h
  swap
  · cases h
  simp only [Except.ok.injEq, Prod.mk.injEq] at h
  refine ⟨h.2.1.symm, h.2.2.symm, by simp [peek], ?_⟩
  intro v hv
  rw [peek_eq] at hv
  simp only [peekA, List.mem_map] at hv
  obtain ⟨z, _, rfl⟩ := hv
  exact Nat.mod_lt _ (by positivity)

/-- **C17, after a push** the peeked values decode to the symbols just pushed, as often as one
peeks. -/
theorem C17_peek_push {σ : Type} {cdf : CdfFun σ} {icdf : InvCdfFun σ} {p L width cap : Nat}
    {V : σ → List Nat → Prop} {R : σ → σ → Prop} (hp : p ≤ 24) (h : CdfPair cdf icdf p L width V R)
    {m : Msg} (hm : WF L cap m) (hroom : 3 * (L : Int) ≤ m.limit) {c : σ} {x : List Nat} (hx : V c x)
    {t : σ} (hR : R (cdf x c).2.2 t) :
    (icdf (peek (pushSymbols m (cdf x c).1 (cdf x c).2.1 p) p) t).2.2.1 = x := by
  obtain ⟨_, g2, _⟩ := C08_pop_push_room hp hm (h.slots c x hx) hroom false
  obtain ⟨t', e, _⟩ := h.inverse c x _ t hx g2 hR
  rw [e]

example : peek exMsg 8 = [5, 0] ∧
    ∃ m, (fixedArrayCodec [[0, 5, 9, 256], [0, 200, 256]] 8 256 false).pop none exMsg
      [[0, 5, 9, 256], [0, 200, 256]] = .ok (m, [1, 0], [[0, 5, 9, 256], [0, 200, 256]]) := by
  refine ⟨by decide +kernel, _, rfl⟩

end Verif.Rans
