import Verif.Rans.PropsOptimal

/-!
# C151: coding in steps with the rANS coder

`decode` "returns the compressed buffer at the end to allow the removal of subsequent messages" (coder.py:236-237), and `encode`
can push on what an earlier `encode` returned.  What `encode` returns has one free byte between the heads and the stack, and
`decode` skips it (coder.py:193, 217-218, 303, 308-309); what `decode` returns has none.
-/

namespace Verif.Rans

/-- The bytes with a free byte after the `L` heads of four bytes. -/
def withFree (L b : Nat) (buf : List Nat) : List Nat := buf.take (4 * L) ++ b :: buf.drop (4 * L)

/-- The bytes without the one after the `L` heads of four bytes. -/
def dropFree (L : Nat) (buf : List Nat) : List Nat := buf.take (4 * L) ++ buf.drop (4 * L + 1)

section
variable {σ : Type} {cdf : CdfFun σ} {icdf : InvCdfFun σ} {p L width cap : Nat} {V : σ → List Nat → Prop} {R : σ → σ → Prop}

theorem Codable.append : ∀ {a b : List (List Nat)} {c c1 c' : σ}, Codable cdf V b c c1 → Codable cdf V a c1 c' →
    Codable cdf V (a ++ b) c c'
  | [], _, _, _, _, hb, ha => by
    have ha : _ = _ := ha
    rw [ha]
    exact hb
  | _ :: _, _, _, _, _, hb, ⟨c2, h1, h2, h3⟩ => ⟨c2, hb.append h1, h2, h3⟩

theorem aPushAll_append {push : List Nat → St → σ → Option (St × σ)} {b : List (List Nat)} {s : St} {c : σ} {r : St × σ}
    (hb : aPushAll push b s c = some r) : ∀ a : List (List Nat), aPushAll push (a ++ b) s c = aPushAll push a r.1 r.2
  | [] => hb
  | x :: a => by simp only [List.cons_append, aPushAll, aPushAll_append hb a]

theorem planes_take {H : List Nat} (h : H.length = L) (T : List Nat) : (planes H ++ T).take (4 * L) = planes H :=
  List.take_left' (by rw [planes_length, h]; omega)

theorem planes_drop {H : List Nat} (h : H.length = L) (T : List Nat) : (planes H ++ T).drop (4 * L) = T :=
  List.drop_left' (by rw [planes_length, h]; omega)

theorem withFree_planes {H : List Nat} (h : H.length = L) (b : Nat) (T : List Nat) :
    withFree L b (planes H ++ T) = planes H ++ b :: T := by
  rw [withFree, planes_take h, planes_drop h]

theorem dropFree_planes {H : List Nat} (h : H.length = L) (b : Nat) (T : List Nat) :
    dropFree L (planes H ++ b :: T) = planes H ++ T := by
  rw [dropFree, planes_take h, ← List.drop_drop, planes_drop h]
  rfl

/-- What the steps have in common: the state between the two parts of a message. -/
theorem between (hp : p ≤ 24) (h : CdfPair cdf icdf p L width V R) {a b : List (List Nat)} {c c1 c' : σ}
    (hb : Codable cdf V b c c1) (ha : Codable cdf V a c1 c') {start : Option (List Nat)} (hst : StartOk L cap start)
    (hroom : startBytes L start + 3 * L * (a.length + b.length) + 1 ≤ cap) :
    ∃ s s1 s2, StartsAs L cap start s ∧ Ok L s ∧ Ok L s1 ∧ Ok L s2 ∧ planes s.heads ++ s.stack = start.getD (freshBuffer L) ∧
      aPushAll (aDefault cap p width cdf icdf).push b s c = some (s1, c1) ∧
      aPushAll (aDefault cap p width cdf icdf).push a s1 c1 = some (s2, c') ∧
      aPushAll (aDefault cap p width cdf icdf).push (a ++ b) s c = some (s2, c') ∧
      s1.stack.length + 1 ≤ cap ∧ s2.stack.length + 1 ≤ cap := by
  obtain ⟨s, hsa, hok, hlen, hbytes⟩ := startsAs_of hst
  rw [Nat.mul_add] at hroom
  obtain ⟨s1, hrun1, hok1, hl1⟩ := default_run_room hp h b (cap := cap) hok hb (by omega)
  obtain ⟨s2, hrun2, hok2, hl2⟩ := default_run_room hp h a (cap := cap) hok1 ha (by omega)
  exact ⟨s, s1, s2, hsa, hok, hok1, hok2, hbytes, hrun1, hrun2, by rw [aPushAll_append hrun1 a, hrun2], by omega, by omega⟩

/-- **C151, decoding in steps.**  Of a message `a ++ b` the rows `a` can be decoded alone, and *if a byte is put after the heads of
the bytes that remain*, whatever it is, decoding these returns the rows `b`, and the start buffer.  Missing: decoding the
remaining bytes as they are (`C151_violated_decode`). -/
theorem C151_decode_partial (hp : p ≤ 24) (hL : 1 ≤ L) (hLc : L ≤ cap) (h : CdfPair cdf icdf p L width V R)
    {a b : List (List Nat)} {c c1 c' t' : σ} (hb : Codable cdf V b c c1) (ha : Codable cdf V a c1 c') (hR : R c' t')
    {start : Option (List Nat)} (hst : StartOk L cap start)
    (hroom : startBytes L start + 3 * L * (a.length + b.length) + 1 ≤ cap) {rnd : List Nat} (hr : rnd.length = cap)
    (hrb : ∀ x ∈ rnd, x < 256) (init : σ) (ae : Bool) :
    ∃ out rest, encodeOne (defaultCodec cdf icdf init p width ae) c L cap rnd start (a ++ b) = .ok (out, c') ∧
      ∀ cap1, cap ≤ cap1 → ∃ t1,
        decodeOne (defaultCodec cdf icdf init p width ae) t' L cap1 a.length out = .ok (a, rest, t1) ∧ R c1 t1 ∧
        ∀ free, free < 256 → ∀ cap2, cap ≤ cap2 → ∃ t,
          decodeOne (defaultCodec cdf icdf init p width ae) t1 L cap2 b.length (withFree L free rest) =
            .ok (b, start.getD (freshBuffer L), t) ∧ R c t := by
  obtain ⟨s, s1, s2, hsa, hok, hok1, hok2, hbytes, hrun1, hrun2, hrun, hl1, hl2⟩ :=
    between (icdf := icdf) (width := width) (R := R) hp h hb ha hst hroom
  obtain ⟨hcod, _⟩ := codable_run (icdf := icdf) (cap := cap) (p := p) (width := width) (a ++ b) (s := s) (hb.append ha)
  obtain ⟨junk, hj, he, _, _⟩ := encodeOne_spec hL hLc (default_lossless hp hLc h init ae) hr hrb hsa hcod hrun
  refine ⟨_, planes s1.heads ++ s1.stack, he, fun cap1 hcap1 => ?_⟩
  obtain ⟨t1, hd1, hR1⟩ := default_decode hp hLc h init ae hj hok1 ha hrun2 hcap1 (by omega) hR
  refine ⟨t1, hd1, hR1, fun free hf cap2 hcap2 => ?_⟩
  obtain ⟨t, hd, hRt⟩ := default_decode hp hLc h init ae hf hok hb hrun1 hcap2 (by omega) hR1
  rw [withFree_planes hok1.lanes]
  exact ⟨t, by rw [hd, hbytes], hRt⟩

/-- **C151, encoding in steps.**  Encoding the rows `b`, taking out the free byte, and encoding the rows `a` on top gives what
encoding `a ++ b` at once gives, up to the free byte; so it can be decoded at once or in steps.  Missing: encoding on the bytes
as they are (`C151_violated_encode`). -/
theorem C151_encode_partial (hp : p ≤ 24) (hL : 1 ≤ L) (hLc : L ≤ cap) (h : CdfPair cdf icdf p L width V R)
    {a b : List (List Nat)} {c c1 c' : σ} (hb : Codable cdf V b c c1) (ha : Codable cdf V a c1 c')
    {start : Option (List Nat)} (hst : StartOk L cap start)
    (hroom : startBytes L start + 3 * L * (a.length + b.length) + 1 ≤ cap) {rnd rnd1 rnd2 : List Nat} (hr : rnd.length = cap)
    (hrb : ∀ x ∈ rnd, x < 256) (hr1 : rnd1.length = cap) (hrb1 : ∀ x ∈ rnd1, x < 256) (hr2 : rnd2.length = cap)
    (hrb2 : ∀ x ∈ rnd2, x < 256) (init : σ) (ae : Bool) :
    ∃ out out1 out2, encodeOne (defaultCodec cdf icdf init p width ae) c L cap rnd start (a ++ b) = .ok (out, c') ∧
      encodeOne (defaultCodec cdf icdf init p width ae) c L cap rnd1 start b = .ok (out1, c1) ∧
      encodeOne (defaultCodec cdf icdf init p width ae) c1 L cap rnd2 (some (dropFree L out1)) a = .ok (out2, c') ∧
      dropFree L out2 = dropFree L out ∧ out2.length = out.length := by
  obtain ⟨s, s1, s2, hsa, hok, hok1, hok2, hbytes, hrun1, hrun2, hrun, hl1, hl2⟩ :=
    between (icdf := icdf) (width := width) (R := R) hp h hb ha hst hroom
  obtain ⟨hcod, _⟩ := codable_run (icdf := icdf) (cap := cap) (p := p) (width := width) (a ++ b) (s := s) (hb.append ha)
  obtain ⟨hcod1, _⟩ := codable_run (icdf := icdf) (cap := cap) (p := p) (width := width) b (s := s) hb
  obtain ⟨hcod2, _⟩ := codable_run (icdf := icdf) (cap := cap) (p := p) (width := width) a (s := s1) ha
  obtain ⟨j, hj, he, _, _⟩ := encodeOne_spec hL hLc (default_lossless hp hLc h init ae) hr hrb hsa hcod hrun
  obtain ⟨j1, hj1, he1, _, _⟩ := encodeOne_spec hL hLc (default_lossless hp hLc h init ae) hr1 hrb1 hsa hcod1 hrun1
  have hsa1 : StartsAs L cap (some (planes s1.heads ++ s1.stack)) s1 :=
    .buffer hok1.lanes hok1.range hok1.bytes (by omega)
  obtain ⟨j2, hj2, he2, _, _⟩ := encodeOne_spec hL hLc (default_lossless hp hLc h init ae) hr2 hrb2 hsa1 hcod2 hrun2
  refine ⟨_, _, planes s2.heads ++ j2 :: s2.stack, he, he1, ?_, ?_, ?_⟩
  · rw [dropFree_planes hok1.lanes]
    exact he2
  · rw [dropFree_planes hok2.lanes, dropFree_planes hok2.lanes]
  · simp

/-- **C151, undoing and redoing.**  What `decode` leaves can be given to `encode` as it is: pushing the decoded rows again, or
other rows `a'`, gives what encoding the message with the rows replaced gives at once, up to the free byte. -/
theorem C151_replace (hp : p ≤ 24) (hL : 1 ≤ L) (hLc : L ≤ cap) (h : CdfPair cdf icdf p L width V R)
    {a a' b : List (List Nat)} {c c1 c' d' t' : σ} (hb : Codable cdf V b c c1) (ha : Codable cdf V a c1 c')
    (ha' : Codable cdf V a' c1 d') (hR : R c' t') {start : Option (List Nat)} (hst : StartOk L cap start)
    (hroom : startBytes L start + 3 * L * (a.length + b.length) + 1 ≤ cap)
    (hroom' : startBytes L start + 3 * L * (a'.length + b.length) + 1 ≤ cap) {rnd : List Nat} (hr : rnd.length = cap)
    (hrb : ∀ x ∈ rnd, x < 256) (init : σ) (ae : Bool) :
    ∃ out rest t1 out' new, encodeOne (defaultCodec cdf icdf init p width ae) c L cap rnd start (a ++ b) = .ok (out, c') ∧
      decodeOne (defaultCodec cdf icdf init p width ae) t' L cap a.length out = .ok (a, rest, t1) ∧ R c1 t1 ∧
      encodeOne (defaultCodec cdf icdf init p width ae) c1 L cap rnd (some rest) a' = .ok (out', d') ∧
      encodeOne (defaultCodec cdf icdf init p width ae) c L cap rnd start (a' ++ b) = .ok (new, d') ∧
      dropFree L out' = dropFree L new ∧ out'.length = new.length := by
  obtain ⟨s, s1, s2, hsa, hok, hok1, hok2, hbytes, hrun1, hrun2, hrun, hl1, hl2⟩ :=
    between (icdf := icdf) (width := width) (R := R) hp h hb ha hst hroom
  obtain ⟨hcod, _⟩ := codable_run (icdf := icdf) (cap := cap) (p := p) (width := width) (a ++ b) (s := s) (hb.append ha)
  obtain ⟨j, hj, he, _, _⟩ := encodeOne_spec hL hLc (default_lossless hp hLc h init ae) hr hrb hsa hcod hrun
  obtain ⟨t1, hd1, hR1⟩ := default_decode hp hLc h init ae hj hok1 ha hrun2 (le_refl cap) (by omega) hR
  obtain ⟨s3, s4, s5, hsa', _, hok4, hok5, _, hrun4, hrun5, hrun', hl4, hl5⟩ :=
    between (icdf := icdf) (width := width) (R := R) hp h hb ha' hst hroom'
  have e3 : s3 = s := by
    cases hsa with
    | empty => cases hsa'; rfl
    | @buffer H T e1 e2 _ _ =>
      generalize hq : some (planes H ++ T) = q at hsa'
      cases hsa' with
      | empty => cases hq
      | @buffer H' T' e1' e2' _ _ =>
        have hq := Option.some.inj hq
        have hH : planes H = planes H' := by
          rw [← planes_take e1 T, hq, planes_take e1' T']
        have hT : T = T' := by rw [← planes_drop e1 T, hq, planes_drop e1' T']
        subst hT
        have : ofArray (planes H ++ T) L 0 = ofArray (planes H' ++ T) L 0 := by rw [hq]
        rw [ofArray_planes (fun h hh => (e2 h hh).2) e1, ofArray_planes (fun h hh => (e2' h hh).2) e1'] at this
        rw [(Msg.mk.inj this).1]
  subst e3
  rw [hrun1] at hrun4
  obtain rfl : s1 = s4 := (Prod.mk.inj (Option.some.inj hrun4)).1
  obtain ⟨hcod', _⟩ := codable_run (icdf := icdf) (cap := cap) (p := p) (width := width) (a' ++ b) (s := s3) (hb.append ha')
  obtain ⟨hcod2, _⟩ := codable_run (icdf := icdf) (cap := cap) (p := p) (width := width) a' (s := s1) ha'
  obtain ⟨j1, _, he1, _, _⟩ := encodeOne_spec hL hLc (default_lossless hp hLc h init ae) hr hrb hsa hcod' hrun'
  have hsa1 : StartsAs L cap (some (planes s1.heads ++ s1.stack)) s1 :=
    .buffer hok1.lanes hok1.range hok1.bytes (by omega)
  obtain ⟨j2, _, he2, _, _⟩ := encodeOne_spec hL hLc (default_lossless hp hLc h init ae) hr hrb hsa1 hcod2 hrun5
  refine ⟨_, _, t1, _, _, he, hd1, hR1, he2, he1, ?_, ?_⟩
  · rw [dropFree_planes hok5.lanes, dropFree_planes hok5.lanes]
  · simp

end

/-- **C151 is violated when decoding.**  One lane, symbols 0, 1 and 2 of frequencies 1, 254 and 1, six rows.  Decoding all rows
returns the message.  Decoding two rows returns the first two; decoding four from the bytes that remain raises nothing and returns
rows that were never encoded there. -/
theorem C151_violated_decode :
    ∃ out rest, encodeOne (fixedArrayCodec [[0, 1, 255, 256]] 8 256 false) [[0, 1, 255, 256]] 1 40 (List.replicate 40 7) none
        [[0], [2], [0], [2], [0], [2]] = .ok (out, [[0, 1, 255, 256]]) ∧
      decodeOne (fixedArrayCodec [[0, 1, 255, 256]] 8 256 false) [[0, 1, 255, 256]] 1 40 6 out =
        .ok ([[0], [2], [0], [2], [0], [2]], freshBuffer 1, [[0, 1, 255, 256]]) ∧
      decodeOne (fixedArrayCodec [[0, 1, 255, 256]] 8 256 false) [[0, 1, 255, 256]] 1 40 2 out =
        .ok ([[0], [2]], rest, [[0, 1, 255, 256]]) ∧
      decodeOne (fixedArrayCodec [[0, 1, 255, 256]] 8 256 false) [[0, 1, 255, 256]] 1 40 4 rest =
        .ok ([[0], [0], [2], [0]], freshBuffer 1, [[0, 1, 255, 256]]) :=
  ⟨[1, 0, 0, 0, 7, 255, 0, 255, 0, 255, 0], [1, 0, 0, 0, 255, 0, 255, 0], by decide +kernel, by decide +kernel,
    by decide +kernel, by decide +kernel⟩

/-- **C151 is violated when encoding.**  The same rows, the last four encoded first and the other two on top of the result, are
not what decoding six rows returns. -/
theorem C151_violated_encode :
    ∃ out out2 rest, encodeOne (fixedArrayCodec [[0, 1, 255, 256]] 8 256 false) [[0, 1, 255, 256]] 1 40 (List.replicate 40 7) none
        [[0], [2], [0], [2]] = .ok (out, [[0, 1, 255, 256]]) ∧
      encodeOne (fixedArrayCodec [[0, 1, 255, 256]] 8 256 false) [[0, 1, 255, 256]] 1 40 (List.replicate 40 7) (some out)
        [[0], [2]] = .ok (out2, [[0, 1, 255, 256]]) ∧
      decodeOne (fixedArrayCodec [[0, 1, 255, 256]] 8 256 false) [[0, 1, 255, 256]] 1 40 6 out2 =
        .ok ([[0], [2], [0], [1], [2], [0]], rest, [[0, 1, 255, 256]]) :=
  ⟨[1, 0, 0, 0, 7, 255, 0, 255, 0], [1, 0, 0, 0, 0, 255, 0, 7, 255, 0, 255, 0], [254, 0, 6, 255, 0], by decide +kernel,
    by decide +kernel, by decide +kernel⟩

/-- **C151 for tables**, without abstract hypotheses: decoding a message in any two steps, with a byte put in between, and what a
single decoding returns are the same. -/
theorem C151_table_partial {p width cap : Nat} (hp : p ≤ 24) {tbls : List (List Nat)} (hL : tbls ≠ [])
    (ht : ∀ t ∈ tbls, ValidTable p t) (hw : ∀ t ∈ tbls, t.length ≤ width + 1) {msg : List (List Nat)}
    (hmsg : ∀ x ∈ msg, TableSymbols tbls x) {start : Option (List Nat)} (hst : StartOk tbls.length cap start)
    (hLc : tbls.length ≤ cap) (hroom : startBytes tbls.length start + 3 * tbls.length * msg.length + 1 ≤ cap)
    {rnd : List Nat} (hr : rnd.length = cap) (hrb : ∀ x ∈ rnd, x < 256) (ae : Bool) :
    ∃ out, encodeOne (fixedArrayCodec tbls p width ae) tbls tbls.length cap rnd start msg = .ok (out, tbls) ∧
      ∀ k ≤ msg.length, ∃ rest,
        decodeOne (fixedArrayCodec tbls p width ae) tbls tbls.length cap k out = .ok (msg.take k, rest, tbls) ∧
        ∀ free < 256,
          decodeOne (fixedArrayCodec tbls p width ae) tbls tbls.length cap (msg.length - k)
            (withFree tbls.length free rest) = .ok (msg.drop k, start.getD (freshBuffer tbls.length), tbls) := by
  have hpos : 1 ≤ tbls.length := List.length_pos_iff.2 hL
  obtain ⟨out, h1, _, _⟩ := C11_table hp hL ht hw hmsg hst hLc hroom hr hrb ae
  refine ⟨out, h1, fun k hk => ?_⟩
  have hk' : (msg.take k).length = k := by rw [List.length_take]; omega
  have hd' : (msg.drop k).length = msg.length - k := List.length_drop
  obtain ⟨out', rest, e, hd⟩ := C151_decode_partial (cap := cap) hp hpos hLc (table_pair ht hw)
    (tables_codable (msg.drop k) fun x hx => hmsg x (List.mem_of_mem_drop hx))
    (tables_codable (msg.take k) fun x hx => hmsg x (List.mem_of_mem_take hx)) ⟨rfl, rfl⟩ hst
    (by rw [hk', hd', Nat.add_sub_cancel' hk]; exact hroom) hr hrb tbls ae
  rw [List.take_append_drop] at e
  have e' := h1.symm.trans e
  obtain rfl : out = out' := (Prod.mk.inj (Except.ok.inj e')).1
  obtain ⟨t1, r1, ⟨_, rfl⟩, r2⟩ := hd cap (le_refl _)
  rw [hk'] at r1
  refine ⟨rest, r1, fun free hf => ?_⟩
  obtain ⟨t, r3, ⟨_, rfl⟩⟩ := r2 free hf cap (le_refl _)
  rw [hd'] at r3
  exact r3

/-- The hypotheses of `C151_table_partial` are met by the message and the table of `C151_violated_decode`; with the free byte put
back, the second step returns the other four rows. -/
example : ValidTable 8 [0, 1, 255, 256] ∧
    (∀ x ∈ [[0], [2], [0], [2], [0], [2]], TableSymbols [[0, 1, 255, 256]] x) ∧ StartOk 1 40 none ∧
    startBytes 1 none + 3 * 1 * 6 + 1 ≤ 40 ∧
    decodeOne (fixedArrayCodec [[0, 1, 255, 256]] 8 256 false) [[0, 1, 255, 256]] 1 40 4
        (withFree 1 99 [1, 0, 0, 0, 255, 0, 255, 0]) =
      .ok ([[0], [2], [0], [2]], freshBuffer 1, [[0, 1, 255, 256]]) := by
  refine ⟨⟨rfl, rfl, by decide⟩, ?_, trivial, by decide, by decide +kernel⟩
  intro x hx
  fin_cases hx <;> simp [TableSymbols]

end Verif.Rans
