import Verif.Rans.Props

/-
Properties C11 and C14 (encode/decode) of the vectorised rANS coder.
-/
namespace Verif.Rans

/-! ### C11 -/

section
variable {σ : Type} {cdf : CdfFun σ} {icdf : InvCdfFun σ} {p L width cap : Nat}
  {V : σ → List Nat → Prop} {R : σ → σ → Prop}

/-- **C11.**  Suppose `encode` returned bytes and did not use the last `L` bytes of the tail
(`out` has one byte more than heads and stack).  Then decoding with the same or a larger
capacity returns the message, and with it the start buffer byte for byte (the bytes of
an empty coder if there was none). -/
theorem C11_roundtrip (hp : p ≤ 24) (hL : 1 ≤ L) (h : CdfPair cdf icdf p L width V R)
    {msg : List (List Nat)} {c c' d t' : σ} (hcod : Codable cdf V msg c c') (hR : R c' t')
    {start : Option (List Nat)} (hst : StartOk L cap start) {rnd : List Nat} (hr : rnd.length = cap)
    (hrb : ∀ x ∈ rnd, x < 256) (init : σ) (ae : Bool) {out : List Nat}
    (henc : encodeOne (defaultCodec cdf icdf init p width ae) c L cap rnd start msg = .ok (out, d))
    (hfit : out.length + L ≤ 4 * L + cap + 1) {cap' : Nat} (hcap : cap ≤ cap') :
    d = c' ∧ ValidBuffer L out ∧
    ∃ t, decodeOne (defaultCodec cdf icdf init p width ae) t' L cap' msg.length out =
      .ok (msg, start.getD (freshBuffer L), t) ∧ R c t := by
  obtain ⟨s, hsa, hok, hlen, hbytes⟩ := startsAs_of hst
  obtain ⟨arr, lim, hss, ha, _⟩ := startState_spec hr hrb hsa
  obtain ⟨arr', lim', m', e1, e2, e3, e4, e5⟩ := encodeOne_ok henc
  rw [hss] at e1
  obtain ⟨rfl, rfl⟩ : arr = arr' ∧ lim = lim' := by simpa using e1
  have hwf := ha.wf hok
  obtain ⟨t1, t2, t3⟩ := default_tailOk hp h init ae msg (m := ofArray arr L lim)
    ⟨hwf.lanes, hwf.len, e2, hwf.bytes⟩ hwf.range hcod e3
  have hlimit : (L : Int) ≤ m'.limit := by
    have hta := toArray_eq m'
    have h2 : (toArray m').2 = (L : Int) * 4 + m'.limit := by rw [hta]; simp only [t1.lanes]
    have h1 : (toArray m').1.length = 4 * L + cap := by
      rw [hta]; simp only [List.length_append, planes_length, t1.lanes, t1.len]; omega
    rw [h2] at e4 e5
    by_cases hbig : m'.limit ≤ cap
    · have := trim_length hL h1 (by omega) hbig
      rw [← e5] at this
      omega
    · omega
  obtain ⟨s', hrun, rfl⟩ := default_run_of_limit hp e2 h init ae msg ha hok hcod e3 hlimit
  obtain ⟨ha1, _⟩ := codable_run (icdf := icdf) (cap := cap) (p := p) (width := width) msg (s := s) hcod
  obtain ⟨junk, hj, he, hok', hle⟩ := encodeOne_spec hL e2 (default_lossless hp e2 h init ae) hr hrb hsa ha1 hrun
  rw [he] at henc
  obtain ⟨rfl, _⟩ : planes s'.heads ++ junk :: s'.stack = out ∧ d = d := by simpa using henc
  have hroom : s'.stack.length + 1 ≤ cap' := by
    simp only [List.length_append, planes_length, hok'.lanes, List.length_cons] at hfit
    omega
  obtain ⟨t, hd, hRt⟩ := default_decode hp e2 h init ae hj hok hcod hrun hcap hroom hR
  refine ⟨rfl, planes_valid hok'.lanes hok'.range ?_, t, ?_, hRt⟩
  · intro x hx
    rcases List.mem_cons.1 hx with rfl | hx
    · exact hj
    · exact hok'.bytes x hx
  · rw [hd, hbytes]

/-- **C11, a priori.**  With three free bytes per lane and row (and one more), encoding always
succeeds and decoding returns the message and the start buffer. -/
theorem C11_roundtrip_total (hp : p ≤ 24) (hL : 1 ≤ L) (hLc : L ≤ cap) (h : CdfPair cdf icdf p L width V R)
    {msg : List (List Nat)} {c c' t' : σ} (hcod : Codable cdf V msg c c') (hR : R c' t')
    {start : Option (List Nat)} (hst : StartOk L cap start)
    (hroom : startBytes L start + 3 * L * msg.length + 1 ≤ cap) {rnd : List Nat} (hr : rnd.length = cap)
    (hrb : ∀ x ∈ rnd, x < 256) (init : σ) (ae : Bool) :
    ∃ out, encodeOne (defaultCodec cdf icdf init p width ae) c L cap rnd start msg = .ok (out, c') ∧
      ValidBuffer L out ∧ out.length ≤ 4 * L + startBytes L start + 3 * L * msg.length + 1 ∧
      ∀ cap', cap ≤ cap' → ∃ t, decodeOne (defaultCodec cdf icdf init p width ae) t' L cap' msg.length out =
        .ok (msg, start.getD (freshBuffer L), t) ∧ R c t := by
  obtain ⟨s, hsa, hok, hlen, hbytes⟩ := startsAs_of hst
  obtain ⟨s', hrun, hok', hl'⟩ := default_run_room hp h msg (cap := cap) hok hcod (by omega)
  obtain ⟨ha1, _⟩ := codable_run (icdf := icdf) (cap := cap) (p := p) (width := width) msg (s := s) hcod
  obtain ⟨junk, hj, he, _, hle⟩ := encodeOne_spec hL hLc (default_lossless hp hLc h init ae) hr hrb hsa ha1 hrun
  refine ⟨_, he, planes_valid hok'.lanes hok'.range ?_, ?_, ?_⟩
  · intro x hx
    rcases List.mem_cons.1 hx with rfl | hx
    · exact hj
    · exact hok'.bytes x hx
  · simp only [List.length_append, planes_length, hok'.lanes, List.length_cons]
    omega
  · intro cap' hcap
    obtain ⟨t, hd, hRt⟩ := default_decode hp hLc h init ae hj hok hcod hrun hcap (by omega) hR
    exact ⟨t, by rw [hd, hbytes], hRt⟩

theorem tables_codable {tbls : List (List Nat)} : ∀ (msg : List (List Nat)),
    (∀ x ∈ msg, TableSymbols tbls x) →
    Codable tableCdf (fun c x => c = tbls ∧ TableSymbols tbls x) msg tbls tbls := by
  intro msg
  induction msg with
  | nil => intro _; rfl
  | cons x rest ih =>
    intro hx
    exact ⟨tbls, ih (fun y hy => hx y (by simp [hy])), ⟨rfl, hx x (by simp)⟩, rfl⟩

/-- **C11 for tables**, without abstract hypotheses: one table per lane. -/
theorem C11_table (hp : p ≤ 24) {tbls : List (List Nat)} (hL : tbls ≠ [])
    (ht : ∀ t ∈ tbls, ValidTable p t) (hw : ∀ t ∈ tbls, t.length ≤ width + 1) {msg : List (List Nat)}
    (hmsg : ∀ x ∈ msg, TableSymbols tbls x) {start : Option (List Nat)}
    (hst : StartOk tbls.length cap start) (hLc : tbls.length ≤ cap)
    (hroom : startBytes tbls.length start + 3 * tbls.length * msg.length + 1 ≤ cap) {rnd : List Nat}
    (hr : rnd.length = cap) (hrb : ∀ x ∈ rnd, x < 256) (ae : Bool) :
    ∃ out, encodeOne (fixedArrayCodec tbls p width ae) tbls tbls.length cap rnd start msg = .ok (out, tbls) ∧
      ValidBuffer tbls.length out ∧
      decodeOne (fixedArrayCodec tbls p width ae) tbls tbls.length cap msg.length out =
        .ok (msg, start.getD (freshBuffer tbls.length), tbls) := by
  have hpos : 1 ≤ tbls.length := by
    rcases tbls with _ | ⟨a, l⟩
    · exact absurd rfl hL
    · simp
  obtain ⟨out, h1, h2, _, h3⟩ := C11_roundtrip_total hp hpos hLc (table_pair ht hw) (tables_codable msg hmsg)
    ⟨rfl, rfl⟩ hst hroom hr hrb tbls ae
  obtain ⟨t, h4, _, rfl⟩ := h3 cap (le_refl _)
  exact ⟨out, h1, h2, h4⟩

theorem mapExcept_ok {α β : Type} {f : α → Except Err β} : ∀ {l : List α} {g : List β},
    List.Forall₂ (fun a b => f a = .ok b) l g → mapExcept f l = .ok g := by
  intro l g h
  induction h with
  | nil => rfl
  | cons h1 _ ih => simp only [mapExcept, h1, ih, bind, Except.bind, pure, Except.pure]

/-- **C11 for batches.**  Every element of a batch is returned in its place, with its start
buffer. -/
theorem C11_batch (hp : p ≤ 24) (hL : 1 ≤ L) (hLc : L ≤ cap) (h : CdfPair cdf icdf p L width V R) {n : Nat}
    {jobs : List (EncJob (List Nat) σ)}
    (hjobs : ∀ j ∈ jobs, StartOk L cap j.start ∧ j.msg.length = n ∧ (∃ c', Codable cdf V j.msg j.state c') ∧
      startBytes L j.start + 3 * L * n + 1 ≤ cap)
    {rnd : List Nat} (hr : rnd.length = cap) (hrb : ∀ x ∈ rnd, x < 256) (init : σ) (ae : Bool) :
    ∃ outs, encode (defaultCodec cdf icdf init p width ae) L cap rnd jobs = .ok outs ∧
      ∀ ts, List.Forall₂ (fun (o : List Nat × σ) t => R o.2 t) outs ts →
        ∃ res, decode (defaultCodec cdf icdf init p width ae) L cap n
            (List.zipWith (fun o t => (o.1, t)) outs ts) = .ok res ∧
          List.Forall₂ (fun (j : EncJob (List Nat) σ) r => r.1 = j.msg ∧
            r.2.1 = j.start.getD (freshBuffer L) ∧ R j.state r.2.2) jobs res := by
  have key : ∃ outs : List (List Nat × σ), List.Forall₂ (fun (j : EncJob (List Nat) σ) o =>
      encodeOne (defaultCodec cdf icdf init p width ae) j.state L cap rnd j.start j.msg = .ok o ∧
      ∀ t', R o.2 t' → ∃ t, decodeOne (defaultCodec cdf icdf init p width ae) t' L cap n o.1 =
        .ok (j.msg, j.start.getD (freshBuffer L), t) ∧ R j.state t) jobs outs := by
    induction jobs with
    | nil => exact ⟨[], .nil⟩
    | cons j jobs ih =>
      obtain ⟨outs, ho⟩ := ih (fun j' hj' => hjobs j' (by simp [hj']))
      obtain ⟨a1, a2, ⟨c', a3⟩, a4⟩ := hjobs j (by simp)
      subst a2
      by_cases hR : ∃ t', R c' t'
      · obtain ⟨t0, ht0⟩ := hR
        obtain ⟨out, b1, _, _, _⟩ := C11_roundtrip_total hp hL hLc h a3 ht0 a1 a4 hr hrb init ae
        refine ⟨(out, c') :: outs, .cons ⟨b1, ?_⟩ ho⟩
        intro t' ht'
        obtain ⟨out', b1', _, _, b3⟩ := C11_roundtrip_total hp hL hLc h a3 ht' a1 a4 hr hrb init ae
        rw [b1] at b1'
        obtain rfl : out = out' := by simpa using b1'
        exact b3 cap (le_refl _)
      · obtain ⟨s, hsa, hok, hlen, hbytes⟩ := startsAs_of a1
        obtain ⟨s', hrun, hok', hl'⟩ := default_run_room hp h j.msg (cap := cap) hok a3 (by omega)
        obtain ⟨ha1, _⟩ := codable_run (icdf := icdf) (cap := cap) (p := p) (width := width) j.msg (s := s) a3
        obtain ⟨junk, hj, he, _, hle⟩ :=
          encodeOne_spec hL hLc (default_lossless hp hLc h init ae) hr hrb hsa ha1 hrun
        exact ⟨(_, c') :: outs, .cons ⟨he, fun t' ht' => absurd ⟨t', ht'⟩ hR⟩ ho⟩
  obtain ⟨outs, ho⟩ := key
  refine ⟨outs, mapExcept_ok (ho.imp fun _ _ h => h.1), ?_⟩
  intro ts hts
  clear hjobs
  have : ∃ res, List.Forall₂ (fun (j : List Nat × σ) r =>
        decodeOne (defaultCodec cdf icdf init p width ae) j.2 L cap n j.1 = .ok r)
        (List.zipWith (fun o t => (o.1, t)) outs ts) res ∧
      List.Forall₂ (fun (j : EncJob (List Nat) σ) r => r.1 = j.msg ∧
            r.2.1 = j.start.getD (freshBuffer L) ∧ R j.state r.2.2) jobs res := by
    induction ho generalizing ts with
    | nil => cases hts; exact ⟨[], .nil, .nil⟩
    | cons h1 _ ih =>
      cases hts with
      | cons g1 g2 =>
        obtain ⟨res, r1, r2⟩ := ih _ g2
        obtain ⟨t, q1, q2⟩ := h1.2 _ g1
        exact ⟨_ :: res, .cons q1 r1, .cons ⟨rfl, rfl, q2⟩ r2⟩
  obtain ⟨res, r1, r2⟩ := this
  exact ⟨res, mapExcept_ok r1, r2⟩

/-- **C11, LIFO.**  Encoding a second message on top of the bytes of a first one: decoding
returns the second message and the first bytes unchanged, and decoding those returns the
first message. -/
theorem C11_lifo (hp : p ≤ 24) {tbls tbls2 : List (List Nat)} (hL : tbls ≠ [])
    (h2 : tbls2.length = tbls.length)
    (ht : ∀ t ∈ tbls, ValidTable p t) (hw : ∀ t ∈ tbls, t.length ≤ width + 1)
    (ht2 : ∀ t ∈ tbls2, ValidTable p t) (hw2 : ∀ t ∈ tbls2, t.length ≤ width + 1)
    {msg msg2 : List (List Nat)} (hmsg : ∀ x ∈ msg, TableSymbols tbls x)
    (hmsg2 : ∀ x ∈ msg2, TableSymbols tbls2 x)
    (hroom : 3 * tbls.length * (msg.length + msg2.length) + tbls.length + 2 ≤ cap) {rnd : List Nat}
    (hr : rnd.length = cap) (hrb : ∀ x ∈ rnd, x < 256) (ae : Bool) :
    ∃ out out2, encodeOne (fixedArrayCodec tbls p width ae) tbls tbls.length cap rnd none msg = .ok (out, tbls) ∧
      encodeOne (fixedArrayCodec tbls2 p width ae) tbls2 tbls.length cap rnd (some out) msg2 = .ok (out2, tbls2) ∧
      decodeOne (fixedArrayCodec tbls2 p width ae) tbls2 tbls.length cap msg2.length out2 =
        .ok (msg2, out, tbls2) ∧
      decodeOne (fixedArrayCodec tbls p width ae) tbls tbls.length cap msg.length out =
        .ok (msg, freshBuffer tbls.length, tbls) := by
  have hpos : 1 ≤ tbls.length := by
    rcases tbls with _ | ⟨a, l⟩
    · exact absurd rfl hL
    · simp
  rw [Nat.mul_add] at hroom
  obtain ⟨out, a1, a2, a3, a4⟩ := C11_roundtrip_total (cap := cap) hp hpos (by omega) (table_pair ht hw)
    (tables_codable msg hmsg) ⟨rfl, rfl⟩ (start := none) trivial (by simp only [startBytes]; omega) hr hrb tbls ae
  obtain ⟨t, a5, _, rfl⟩ := a4 cap (le_refl _)
  have hpair := table_pair (width := width) ht2 hw2
  rw [h2] at hpair
  have hh := a2.heads
  simp only [startBytes] at a3
  obtain ⟨out2, b1, b2, b3, b4⟩ := C11_roundtrip_total (cap := cap) hp hpos (by omega) hpair
    (tables_codable msg2 hmsg2) ⟨rfl, rfl⟩ (start := some out) ⟨a2, by omega⟩ (by simp only [startBytes]; omega)
    hr hrb tbls2 ae
  obtain ⟨t2, b5, _, rfl⟩ := b4 cap (le_refl _)
  exact ⟨out, out2, a1, b1, b5, a5⟩

end

/-- The hypotheses of `C11_table` are met: two lanes with different tables, a start buffer with
two stack bytes, a message of three rows. -/
example : (∀ t ∈ [[0, 5, 9, 256], [0, 200, 256]], ValidTable 8 t) ∧
    (∀ x ∈ [[2, 1], [0, 0], [1, 1]], TableSymbols [[0, 5, 9, 256], [0, 200, 256]] x) ∧
    StartOk 2 40 (some [1, 2, 0, 0, 0, 0, 7, 7, 55, 66]) ∧ startBytes 2 (some [1, 2, 0, 0, 0, 0, 7, 7, 55, 66]) = 2 := by
  refine ⟨?_, ?_, ⟨⟨by decide, by decide, by decide⟩, by decide⟩, rfl⟩
  · intro t ht
    fin_cases ht
    · exact ⟨rfl, rfl, by decide⟩
    · exact ⟨rfl, rfl, by decide⟩
  · intro x hx
    fin_cases hx <;> simp [TableSymbols]

example : encodeOne (fixedArrayCodec [[0, 5, 9, 256], [0, 200, 256]] 8 256 false)
      [[0, 5, 9, 256], [0, 200, 256]] 2 40 (List.replicate 40 7) (some [1, 2, 0, 0, 0, 0, 7, 7, 55, 66])
      [[2, 1], [0, 0], [1, 1]] =
    .ok ([13, 53, 68, 127, 50, 178, 203, 255, 39, 8, 55, 66], [[0, 5, 9, 256], [0, 200, 256]]) := by
  decide +kernel

/-! ### C14 -/

/-- **C14 is violated.**  With a tail of four bytes `encode` writes past the free space, does not
raise (the final limit is not negative), and decoding gives another message, with the
same and with a larger capacity.  The message is codable: with a larger tail it round-trips. -/
theorem C14_violated :
    ∃ (tbls : List (List Nat)) (msg : List (List Nat)) (rnd out : List Nat),
      (∀ t ∈ tbls, ValidTable 8 t) ∧ (∀ x ∈ msg, TableSymbols tbls x) ∧ tbls.length = 3 ∧ rnd.length = 4 ∧
      encodeOne (fixedArrayCodec tbls 8 256 false) tbls 3 4 rnd none msg = .ok (out, tbls) ∧
      (∃ msg' rest, decodeOne (fixedArrayCodec tbls 8 256 false) tbls 3 4 msg.length out = .ok (msg', rest, tbls) ∧
        msg' ≠ msg) ∧
      (∃ msg' rest, decodeOne (fixedArrayCodec tbls 8 256 false) tbls 3 40 msg.length out = .ok (msg', rest, tbls) ∧
        msg' ≠ msg) := by
  refine ⟨List.replicate 3 [0, 1, 2, 256], [[0, 2, 2], [1, 2, 2], [1, 2, 2]], List.replicate 4 7,
    [1, 1, 1, 0, 6, 6, 0, 24, 24, 0, 86, 86, 10, 36, 36, 1], ?_, ?_, rfl, rfl, by decide +kernel,
    ⟨[[0, 2, 2], [1, 2, 2], [2, 2, 2]], [254, 1, 1, 0, 0, 0, 34, 0, 0, 1, 0, 0], by decide +kernel, by decide⟩,
    ⟨[[0, 2, 2], [2, 2, 2], [2, 2, 2]], _, by rfl, by decide⟩⟩
  · intro t ht
    rw [List.eq_of_mem_replicate ht]
    exact ⟨rfl, rfl, by decide⟩
  · intro x hx
    fin_cases hx <;> simp [TableSymbols, List.replicate]

/-- **C14, what holds.**  If encode returns, and the output shows that at least `L` bytes of
the tail stayed free, decoding recovers message and start buffer. -/
theorem C14_partial {σ : Type} {cdf : CdfFun σ} {icdf : InvCdfFun σ} {p L width cap : Nat}
    {V : σ → List Nat → Prop} {R : σ → σ → Prop} (hp : p ≤ 24) (hL : 1 ≤ L)
    (h : CdfPair cdf icdf p L width V R)
    {msg : List (List Nat)} {c c' t' : σ} (hcod : Codable cdf V msg c c') (hR : R c' t')
    {start : Option (List Nat)} (hst : StartOk L cap start) {rnd : List Nat} (hr : rnd.length = cap)
    (hrb : ∀ x ∈ rnd, x < 256) (init : σ) (ae : Bool) :
    (∃ e, encodeOne (defaultCodec cdf icdf init p width ae) c L cap rnd start msg = .error e) ∨
    ∃ out, encodeOne (defaultCodec cdf icdf init p width ae) c L cap rnd start msg = .ok (out, c') ∧
      (out.length ≤ 3 * L + cap + 1 → ∃ t, decodeOne (defaultCodec cdf icdf init p width ae) t' L cap
        msg.length out = .ok (msg, start.getD (freshBuffer L), t) ∧ R c t) := by
  rcases he : encodeOne (defaultCodec cdf icdf init p width ae) c L cap rnd start msg with e | ⟨out, d⟩
  · exact .inl ⟨e, rfl⟩
  · obtain ⟨s, hsa, hok, hlen, hbytes⟩ := startsAs_of hst
    obtain ⟨arr, lim, hss, ha, _⟩ := startState_spec hr hrb hsa
    obtain ⟨arr', lim', m', e1, e2, e3, e4, e5⟩ := encodeOne_ok he
    rw [hss] at e1
    obtain ⟨rfl, rfl⟩ : arr = arr' ∧ lim = lim' := by simpa using e1
    have hwf := ha.wf hok
    obtain ⟨_, _, rfl⟩ := default_tailOk hp h init ae msg (m := ofArray arr L lim)
      ⟨hwf.lanes, hwf.len, e2, hwf.bytes⟩ hwf.range hcod e3
    refine .inr ⟨out, rfl, fun hfit => ?_⟩
    exact (C11_roundtrip hp hL h hcod hR hst hr hrb init ae he (by omega) (le_refl _)).2.2

/-- **C14 holds for one lane:** with a single lane and the same capacity for decoding, either
encode raises, or decode raises, or the message is recovered. -/
theorem C14_single_lane {σ : Type} {cdf : CdfFun σ} {icdf : InvCdfFun σ} {p width cap : Nat}
    {V : σ → List Nat → Prop} {R : σ → σ → Prop} (hp : p ≤ 24)
    (h : CdfPair cdf icdf p 1 width V R)
    {msg : List (List Nat)} {c c' t' : σ} (hcod : Codable cdf V msg c c') (hR : R c' t')
    {start : Option (List Nat)} (hst : StartOk 1 cap start) {rnd : List Nat} (hr : rnd.length = cap)
    (hrb : ∀ x ∈ rnd, x < 256) (init : σ) (ae : Bool) :
    (∃ e, encodeOne (defaultCodec cdf icdf init p width ae) c 1 cap rnd start msg = .error e) ∨
    ∃ out, encodeOne (defaultCodec cdf icdf init p width ae) c 1 cap rnd start msg = .ok (out, c') ∧
      (decodeOne (defaultCodec cdf icdf init p width ae) t' 1 cap msg.length out = .error .capacity ∨
       ∃ t, decodeOne (defaultCodec cdf icdf init p width ae) t' 1 cap
        msg.length out = .ok (msg, start.getD (freshBuffer 1), t) ∧ R c t) := by
  rcases C14_partial hp (le_refl 1) h hcod hR hst hr hrb init ae with he | ⟨out, he, hd⟩
  · exact .inl he
  · refine .inr ⟨out, he, ?_⟩
    by_cases hfit : out.length ≤ 3 * 1 + cap + 1
    · exact .inr (hd hfit)
    · left
      have : cap < (out.drop (1 * 4)).length := by rw [List.length_drop]; omega
      simp only [decodeOne, insertZeros, if_pos this, bind, Except.bind]

/-- Not vacuous: a one-lane message of which `encode` fills the tail completely; decoding then
raises, while one byte more makes it round-trip. -/
example : (∃ out, encodeOne (fixedArrayCodec [[0, 1, 256]] 8 256 false) [[0, 1, 256]] 1 3 [7, 7, 7] none
      [[0], [0], [0]] = .ok (out, [[0, 1, 256]]) ∧ out.length = 8 ∧
      decodeOne (fixedArrayCodec [[0, 1, 256]] 8 256 false) [[0, 1, 256]] 1 3 3 out = .error .capacity) ∧
    (∃ out, encodeOne (fixedArrayCodec [[0, 1, 256]] 8 256 false) [[0, 1, 256]] 1 4 [7, 7, 7, 7] none
      [[0], [0], [0]] = .ok (out, [[0, 1, 256]]) ∧
      decodeOne (fixedArrayCodec [[0, 1, 256]] 8 256 false) [[0, 1, 256]] 1 4 3 out =
        .ok ([[0], [0], [0]], [1, 0, 0, 0], [[0, 1, 256]])) := by
  refine ⟨⟨_, rfl, rfl, by decide +kernel⟩, ⟨_, rfl, by decide +kernel⟩⟩

end Verif.Rans
