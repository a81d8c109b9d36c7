import Verif.Rans.Props2
import Mathlib.Tactic.IntervalCases

/-
Properties C15 and C16 (bits-back coding) and C18 (rate) of the vectorised rANS coder.
-/
namespace Verif.Rans

/-! ### C15 -/

theorem SameState.symm {m m' : Msg} (h : SameState m m') : SameState m' m :=
  ⟨h.1.symm, h.2.1.symm, h.2.2.symm⟩

theorem SameState.abs {L cap : Nat} {m m' : Msg} (h : SameState m' m) (hm' : WF L cap m') :
    Abs cap m' ⟨m.head, m.data.drop m.limit.toNat⟩ := by
  have := hm'.abs.1
  rw [h.1, h.2.2] at this
  exact this

/-- The codec of `default_rans_codec` satisfies the laws, with three bytes per lane. -/
theorem default_laws {σ : Type} {cdf : CdfFun σ} {icdf : InvCdfFun σ} {p L width cap : Nat}
    {V : σ → List Nat → Prop} {R : σ → σ → Prop} (hp : p ≤ 24) (h : CdfPair cdf icdf p L width V R)
    {init : σ} (hR : ∀ x, V init x → R (cdf x init).2.2 init)
    (ht : CdfTotal cdf icdf p L width (V init) init) (ae : Bool) :
    CodecLaws cap L (defaultCodec cdf icdf init p width ae) (V init) (fun _ => True) (3 * L) where
  push := by
    intro m x hm h1 h2 hx
    have hlow := hm.low
    have hLc : L ≤ cap := by push_cast at h1; omega
    have hs := h.slots init x hx
    obtain ⟨e1, e2, e3, e4⟩ := slotsOf_spec hs
    obtain ⟨ha, ho⟩ := hm.abs
    have hl : LanesOk p m.head (slotsOf (cdf x init).1 (cdf x init).2.1) :=
      lanesOk_of (by rw [hm.lanes, e3]) hm.range e4
    have hlim := ha.limit
    obtain ⟨s', hpush, hlen⟩ := aPush_room (cap := cap) (p := p) (S := slotsOf (cdf x init).1 (cdf x init).2.1)
      (s := ⟨m.head, m.data.drop m.limit.toNat⟩) (by simp only [hm.lanes, e3])
      (by simp only [hm.lanes]; simp only at hlim; push_cast at h1; omega)
    obtain ⟨hpop, hin⟩ := aPop_aPush hp hl hpush
    have ha' := pushSymbols_ref hp ha hl hpush
    rw [e1, e2] at ha'
    have hok' : Ok L s' := ⟨by rw [hin.lanesOk.heads.1, e3], hin.lanesOk.heads.2, aPush_bytes hpush ho.bytes⟩
    have hwf' := ha'.wf hok'
    have hsh : shapeOk m = true := by simp only [shapeOk, hm.lanes, hm.len, decide_eq_true_eq]; omega
    refine ⟨_, (cdf x init).2.2, ?_, hwf', ?_, ?_, ?_⟩
    · simp only [defaultCodec, hsh, if_true]
    · have := ha'.limit
      simp only at hlim
      simp only [hm.lanes] at hlen
      push_cast
      omega
    · have := pushSymbols_limit_le m (cdf x init).1 (cdf x init).2.1 p
      push_cast
      omega
    · intro m1' flag hm1' hsame _
      have ha1 : Abs cap m1' s' := by
        have := hsame.abs hm1'
        rw [ha'.head, ha'.limit] at this
        have hr := ha'.room
        rw [show ((cap : Int) - s'.stack.length).toNat = cap - s'.stack.length by omega, ha'.live] at this
        exact this
      have hpk : peek m1' p = peekA p s'.heads := by rw [peek_eq, ha1.head]
      have hw := (within_iff hs hok'.range).1 hin
      obtain ⟨t, et, _⟩ := h.inverse init x _ init hx hw (hR x hx)
      have hres := popSymbols_ref hp (flag.getD false) ha1 hin hpop
      rw [e1, e2] at hres
      have hsh1 : shapeOk m1' = true := by simp only [shapeOk, hm1'.lanes, hm1'.len, decide_eq_true_eq]; omega
      refine ⟨_, t, ?_, hres.wf ho, hres.same ha⟩
      simp only [defaultCodec, hsh1, if_true, hpk, et, map_mod_eq (h.dtype init x hx)]
  pop := by
    intro m flag hm h1 h2 _
    have hlow := hm.low
    have hLc : L ≤ cap := by push_cast at h1; omega
    obtain ⟨v1, v2, v3, v4⟩ := ht.total (peek m p) (by simp [peek, hm.lanes])
      (by intro y hy; rw [peek_eq] at hy; simp only [peekA, List.mem_map] at hy; obtain ⟨z, _, rfl⟩ := hy
          exact Nat.mod_lt _ (by positivity))
    have hs := h.slots init _ v1
    rw [v2, v3] at hs
    obtain ⟨e1, e2, e3, e4⟩ := slotsOf_spec hs
    obtain ⟨ha, ho⟩ := hm.abs
    have hin : InSlots p m.head (slotsOf (icdf (peek m p) init).1 (icdf (peek m p) init).2.1) :=
      (within_iff hs hm.range).2 (by rw [← peek_eq]; exact v4)
    have hlim := ha.limit
    simp only at hlim
    push_cast at h1 h2
    obtain ⟨s', hpop, hle, hge⟩ := aPop_room (cap := cap) (p := p)
      (S := slotsOf (icdf (peek m p) init).1 (icdf (peek m p) init).2.1)
      (s := ⟨m.head, m.data.drop m.limit.toNat⟩) (by simp only [hm.lanes, e3])
      (by simp only [hm.lanes]; omega) (by simp only [hm.lanes]; omega)
    obtain ⟨hpush, hl, hb⟩ := aPush_aPop hp hin ho.bytes hpop
    have ha' := popSymbols_ref hp (flag.getD false) ha hin hpop
    rw [e1, e2] at ha'
    have hok' : Ok L s' := ⟨by rw [hl.heads.1, e3], hl.heads.2, hb⟩
    have hsh : shapeOk m = true := by simp only [shapeOk, hm.lanes, hm.len, decide_eq_true_eq]; omega
    refine ⟨_, (icdf (peek m p) init).2.2.1, (icdf (peek m p) init).2.2.2, ?_, v1, ha'.wf hok', ?_, ?_, ?_⟩
    · simp only [defaultCodec, hsh, if_true, map_mod_eq (h.dtype init _ v1)]
    · have := ha'.limit
      simp only [hm.lanes] at hle hge
      push_cast
      omega
    · have := ha'.limit
      simp only [hm.lanes] at hle hge
      push_cast
      omega
    · intro m1' hm1' hsame
      have ha1 : Abs cap m1' s' := by
        have := hsame.abs hm1'
        rw [ha'.head, ha'.limit] at this
        have hr := ha'.room
        rw [show ((cap : Int) - s'.stack.length).toNat = cap - s'.stack.length by omega, ha'.live] at this
        exact this
      have hres := pushSymbols_ref hp ha1 hl hpush
      rw [e1, e2] at hres
      have hsh1 : shapeOk m1' = true := by simp only [shapeOk, hm1'.lanes, hm1'.len, decide_eq_true_eq]; omega
      refine ⟨_, (cdf (icdf (peek m p) init).2.2.1 init).2.2, ?_, hres.wf ho, hres.same ha⟩
      simp only [defaultCodec, hsh1, if_true, v2, v3]

/-- **C15, components.**  The table codec satisfies the laws a component needs, for every value of
the optional argument. -/
theorem C15_table_laws {p width cap : Nat} (hp : p ≤ 24) {tbls : List (List Nat)}
    (ht : ∀ t ∈ tbls, ValidTable p t) (hw : ∀ t ∈ tbls, t.length ≤ width + 1) (ae : Bool) :
    CodecLaws cap tbls.length (fixedArrayCodec tbls p width ae) (TableSymbols tbls) (fun _ => True)
      (3 * tbls.length) := by
  have := default_laws (cap := cap) hp (table_pair ht hw) (init := tbls) (fun x _ => ⟨rfl, rfl⟩)
    ⟨fun v h1 h2 => by
      obtain ⟨a, b, c, d⟩ := (table_total (width := width) ht).total v h1 h2
      exact ⟨⟨rfl, a⟩, b, c, d⟩⟩ ae
  refine ⟨fun h1 h2 h3 h4 => this.push h1 h2 h3 ⟨rfl, h4⟩, fun h1 h2 h3 h4 => ?_⟩
  obtain ⟨m1, x, t, a, b, c⟩ := this.pop h1 h2 h3 h4
  exact ⟨m1, x, t, a, b.2, c⟩

/-- **C15 (partial: components that accept the optional argument).**  If prior, posterior (for
every datum) and likelihood (for every latent) satisfy the laws and accept the optional
argument, the bits-back codec satisfies the same laws, when its `pop` is called without the
optional argument as `decode` does. -/
theorem C15_partial {α β ρ θ ω : Type} {cap L Kp Kq Ko : Nat} {prior : Codec β ρ}
    {posterior : α → Codec β θ} {obs : β → Codec α ω} {X : α → Prop} {Z : β → Prop}
    (hp : CodecLaws cap L prior Z (fun _ => True) Kp)
    (hq : ∀ x, X x → CodecLaws cap L (posterior x) Z (fun _ => True) Kq)
    (ho : ∀ z, Z z → CodecLaws cap L (obs z) X (fun _ => True) Ko) :
    CodecLaws cap L (bitsback prior posterior obs) X (fun flag => flag = none) (Kq + Ko + Kp) where
  push := by
    intro m x hm h1 h2 hx
    push_cast at h1 h2
    obtain ⟨m1, z, t1, a1, hz, a2, a3, a4, a5⟩ := (hq x hx).pop (flag := some (posterior x).allowEmpty) hm
      (by omega) (by omega) trivial
    obtain ⟨m2, c2, b1, b2, b3, b4, b5⟩ := (ho z hz).push a2 (by omega) (by omega) hx
    obtain ⟨m3, c3, d1, d2, d3, d4, d5⟩ := hp.push b2 (by omega) (by omega) hz
    refine ⟨m3, (), ?_, d2, by push_cast; omega, by push_cast; omega, ?_⟩
    · simp only [bitsback, a1, b1, d1, bind, Except.bind, pure, Except.pure]
    · intro m3' flag hm3 hs3 hflag
      subst hflag
      obtain ⟨m2', t2, f1, f2, f3⟩ := d5 m3' (some prior.allowEmpty) hm3 hs3 trivial
      obtain ⟨m1', t3, g1, g2, g3⟩ := b5 m2' (some (obs z).allowEmpty) f2 f3 trivial
      obtain ⟨m0', c0, k1, k2, k3⟩ := a5 m1' g2 g3
      refine ⟨m0', (), ?_, k2, k3⟩
      simp only [bitsback, f1, g1, k1, bind, Except.bind, pure, Except.pure]
  pop := by
    intro m flag hm h1 h2 hflag
    subst hflag
    push_cast at h1 h2
    obtain ⟨m1, z, t1, a1, hz, a2, a3, a4, a5⟩ := hp.pop (flag := some prior.allowEmpty) hm
      (by omega) (by omega) trivial
    obtain ⟨m2, x, t2, b1, hx, b2, b3, b4, b5⟩ := (ho z hz).pop (flag := some (obs z).allowEmpty) a2
      (by omega) (by omega) trivial
    obtain ⟨m3, c3, d1, d2, d3, d4, d5⟩ := (hq x hx).push b2 (by omega) (by omega) hz
    refine ⟨m3, x, (), ?_, hx, d2, by push_cast; omega, by push_cast; omega, ?_⟩
    · simp only [bitsback, a1, b1, d1, bind, Except.bind, pure, Except.pure]
    · intro m3' hm3 hs3
      obtain ⟨m2', t2, f1, f2, f3⟩ := d5 m3' (some (posterior x).allowEmpty) hm3 hs3 trivial
      obtain ⟨m1', t3, g1, g2, g3⟩ := b5 m2' f2 f3
      obtain ⟨m0', c0, k1, k2, k3⟩ := a5 m1' g2 g3
      refine ⟨m0', (), ?_, k2, k3⟩
      simp only [bitsback, f1, g1, k1, bind, Except.bind, pure, Except.pure]

/-- **C15 is violated for nested codecs.**  The components' `pop` is always called with the
optional argument, which a bits-back codec does not accept: as a posterior it makes every
push raise, as a prior every pop, and as a likelihood every pop whose prior succeeds. -/
theorem C15_violated {α β γ ρ θ ω ρ' θ' ω' : Type} :
    (∀ (prior : Codec β ρ) (p1 : α → Codec γ ρ') (q1 : α → β → Codec γ θ') (o1 : α → γ → Codec β ω')
        (obs : β → Codec α ω) (x : α) (m : Msg),
      (bitsback prior (fun a => bitsback (p1 a) (q1 a) (o1 a)) obs).push x m () = .error .typeError) ∧
    (∀ (p1 : Codec γ ρ') (q1 : β → Codec γ θ') (o1 : γ → Codec β ω') (posterior : α → Codec β θ)
        (obs : β → Codec α ω) (m : Msg),
      (bitsback (bitsback p1 q1 o1) posterior obs).pop none m () = .error .typeError) ∧
    (∀ (prior : Codec β ρ) (posterior : α → Codec β θ) (p1 : β → Codec γ ρ') (q1 : β → α → Codec γ θ')
        (o1 : β → γ → Codec α ω') (m : Msg),
      (bitsback prior posterior (fun b => bitsback (p1 b) (q1 b) (o1 b))).pop none m () =
        (prior.pop (some prior.allowEmpty) m prior.state).bind fun _ => .error .typeError) := by
  refine ⟨fun _ _ _ _ _ _ _ => rfl, fun _ _ _ _ _ _ => rfl, ?_⟩
  intro prior posterior p1 q1 o1 m
  simp only [bitsback, bind, Except.bind]

/-- A bits-back codec whose `pop` ignored the optional argument would accept every value of
it. -/
theorem ignoreFlag_laws {α σ : Type} {cap L K : Nat} {codec : Codec α σ} {V : α → Prop}
    (h : CodecLaws cap L codec V (fun flag => flag = none) K) :
    CodecLaws cap L (ignoreFlag codec) V (fun _ => True) K where
  push := by
    intro m x h1 h2 h3 h4
    obtain ⟨m1, c1, a, b, c, d, e⟩ := h.push h1 h2 h3 h4
    exact ⟨m1, c1, a, b, c, d, fun m1' _ f1 f2 _ => e m1' none f1 f2 rfl⟩
  pop := by
    intro m flag h1 h2 h3 _
    exact h.pop h1 h2 h3 rfl

/-- **C15, nesting (of the repaired codec).**  Two levels: latents coded with a bits-back codec as
prior.  With `pop` ignoring the optional argument the laws hold; iterating gives every
depth, since the result again satisfies the hypotheses of `C15_partial`. -/
theorem C15_nested_repaired {α β γ ρ θ ω θ' ω' : Type} {cap L K1 K2 K3 K4 K5 : Nat}
    {prior2 : Codec γ ρ} {post2 : β → Codec γ θ'} {lik2 : γ → Codec β ω'}
    {posterior : α → Codec β θ} {obs : β → Codec α ω}
    {X : α → Prop} {Z : β → Prop} {Y : γ → Prop}
    (h1 : CodecLaws cap L prior2 Y (fun _ => True) K1)
    (h2 : ∀ z, Z z → CodecLaws cap L (post2 z) Y (fun _ => True) K2)
    (h3 : ∀ y, Y y → CodecLaws cap L (lik2 y) Z (fun _ => True) K3)
    (h4 : ∀ x, X x → CodecLaws cap L (posterior x) Z (fun _ => True) K4)
    (h5 : ∀ z, Z z → CodecLaws cap L (obs z) X (fun _ => True) K5) :
    CodecLaws cap L (bitsback (ignoreFlag (bitsback prior2 post2 lik2)) posterior obs) X
      (fun flag => flag = none) (K4 + K5 + (K2 + K3 + K1)) :=
  C15_partial (ignoreFlag_laws (C15_partial h1 h2 h3)) h4 h5

/-- The codecs that can be built from lawful components (codecs of tables, for example) with bits-back coding, in every
position — prior, posterior, likelihood — and to every depth, each `bitsback` repaired as above. The number bounds the
bytes one symbol moves. -/
inductive Nested (cap L : Nat) : (α σ : Type) → Codec α σ → (α → Prop) → Nat → Prop
  | component {α σ : Type} {codec : Codec α σ} {V : α → Prop} {K : Nat}
      (h : CodecLaws cap L codec V (fun _ => True) K) : Nested cap L α σ codec V K
  | bitsback {α β ρ θ ω : Type} {prior : Codec β ρ} {posterior : α → Codec β θ} {obs : β → Codec α ω}
      {X : α → Prop} {Z : β → Prop} {Kp Kq Ko : Nat} (hp : Nested cap L β ρ prior Z Kp)
      (hq : ∀ x, X x → Nested cap L β θ (posterior x) Z Kq) (ho : ∀ z, Z z → Nested cap L α ω (obs z) X Ko) :
      Nested cap L α Unit (ignoreFlag (bitsback prior posterior obs)) X (Kq + Ko + Kp)

/-- **C15, every nesting (of the repaired codec).**  However deeply and in whatever positions bits-back codecs are
nested, `pop` inverts `push` and `push` inverts `pop`. -/
theorem C15_nested_all {cap L : Nat} {α σ : Type} {codec : Codec α σ} {V : α → Prop} {K : Nat}
    (h : Nested cap L α σ codec V K) : CodecLaws cap L codec V (fun _ => True) K := by
  induction h with
  | component h => exact h
  | bitsback _ _ _ ip iq io => exact ignoreFlag_laws (C15_partial ip iq io)

/-- There are such codecs of every depth: each level takes the one below as its prior. -/
example (n : Nat) : ∃ codec, Nested 100 1 (List Nat) Unit codec (TableSymbols [[0, 3, 8]]) (9 + 6 * n) := by
  have ht : Nested 100 1 (List Nat) _ (fixedArrayCodec [[0, 3, 8]] 3 256 true) (TableSymbols [[0, 3, 8]]) 3 :=
    .component (C15_table_laws (p := 3) (width := 256) (cap := 100) (tbls := [[0, 3, 8]]) (by decide) (by simp only [List.mem_singleton, forall_eq]; exact ⟨rfl, rfl, by decide⟩)
      (by simp) true)
  induction n with
  | zero => exact ⟨_, .bitsback ht (fun _ _ => ht) (fun _ _ => ht)⟩
  | succ n ih =>
    obtain ⟨codec, h⟩ := ih
    rw [show 9 + 6 * (n + 1) = 3 + 3 + (9 + 6 * n) by omega]
    exact ⟨_, .bitsback h (fun _ _ => ht) (fun _ _ => ht)⟩

/-- All rows, last first: pushes and pops of a lawful codec without CDF state. -/
theorem laws_rows {α : Type} {cap L K : Nat} {codec : Codec α Unit} {V : α → Prop}
    (h : CodecLaws cap L codec V (fun flag => flag = none) K) :
    ∀ (msg : List α) {m : Msg}, WF L cap m → ((K * msg.length : Nat) : Int) ≤ m.limit →
    m.limit + (K * msg.length : Nat) ≤ cap → (∀ x ∈ msg, V x) →
    ∃ m1, pushAll codec msg m () = .ok (m1, ()) ∧ WF L cap m1 ∧
      m.limit - (K * msg.length : Nat) ≤ m1.limit ∧ m1.limit ≤ m.limit + (K * msg.length : Nat) ∧
      ∀ m1', WF L cap m1' → SameState m1' m1 →
        ∃ m2, popAll codec msg.length m1' () = .ok (m2, msg, ()) ∧ WF L cap m2 ∧ SameState m2 m := by
  intro msg
  induction msg with
  | nil =>
    intro m hm _ _ _
    exact ⟨m, rfl, hm, by simp, by simp, fun m1' h1 h2 => ⟨m1', rfl, h1, h2⟩⟩
  | cons x rest ih =>
    intro m hm h1 h2 hv
    simp only [List.length_cons, Nat.mul_add, Nat.mul_one] at h1 h2 ⊢
    push_cast at h1 h2
    obtain ⟨m1, a1, a2, a3, a4, a5⟩ := ih hm (by push_cast; omega) (by push_cast; omega)
      (fun y hy => hv y (by simp [hy]))
    push_cast at a3 a4
    obtain ⟨m2, c2, b1, b2, b3, b4, b5⟩ := h.push a2 (by omega) (by omega) (hv x (by simp))
    refine ⟨m2, ?_, b2, by push_cast; omega, by push_cast; omega, ?_⟩
    · simp only [pushAll, a1, bind, Except.bind]
      exact b1
    · intro m2' hm2 hs2
      obtain ⟨m1', t, d1, d2, d3⟩ := b5 m2' none hm2 hs2 rfl
      obtain ⟨m0', e1, e2, e3⟩ := a5 m1' d2 d3
      refine ⟨m0', ?_, e2, e3⟩
      simp only [popAll, bind, Except.bind]
      have d1' : codec.pop none m2' () = .ok (m1', x, t) := d1
      rw [d1']
      simp only
      have : t = () := rfl
      rw [this, e1]
      rfl

/-- **C15, messages.**  With a start buffer that holds enough bytes and a tail with enough room,
encoding a message with a lawful bits-back codec (or any lawful codec) succeeds, and
decoding returns the message and the start buffer byte for byte. -/
theorem C15_roundtrip {α : Type} {cap L K : Nat} (hL : 1 ≤ L) (hLc : L ≤ cap) {codec : Codec α Unit}
    {V : α → Prop} (h : CodecLaws cap L codec V (fun flag => flag = none) K) {msg : List α}
    (hv : ∀ x ∈ msg, V x) {buf : List Nat} (hb : ValidBuffer L buf)
    (hbytes : 4 * L + K * msg.length ≤ buf.length) (hroom : buf.length + K * msg.length + 1 ≤ 4 * L + cap)
    (rnd : List Nat) :
    ∃ out, encodeOne codec () L cap rnd (some buf) msg = .ok (out, ()) ∧ ValidBuffer L out ∧
      decodeOne codec () L cap msg.length out = .ok (msg, buf, ()) := by
  obtain ⟨H, T, rfl, h1, h2, h3⟩ := hb.split
  have hpl : (planes H).length = 4 * L := by rw [planes_length, h1]; omega
  rw [List.length_append, hpl] at hbytes hroom
  have hH32 : ∀ x ∈ H, x < 2 ^ 32 := fun x hx => (h2 x hx).2
  have hss : startState L cap rnd (some (planes H ++ T)) =
      .ok (planes H ++ (List.replicate (cap - T.length) 0 ++ T), (cap : Int) - T.length) := by
    have hz := insertZeros_spec (T := T) (cap := cap) h1 (by omega)
    simp only [startState, hz, bind, Except.bind, pure, Except.pure]
    congr 2
    omega
  have hm0 : ofArray (planes H ++ (List.replicate (cap - T.length) 0 ++ T)) L ((cap : Int) - T.length) =
      ⟨H, (cap : Int) - T.length, List.replicate (cap - T.length) 0 ++ T⟩ := ofArray_planes hH32 h1 _
  have hwf : WF L cap ⟨H, (cap : Int) - T.length, List.replicate (cap - T.length) 0 ++ T⟩ := by
    refine ⟨h1, h2, by simp only [List.length_append, List.length_replicate]; omega, ?_, by simp only; omega,
      by simp only; omega⟩
    intro x hx
    rcases List.mem_append.1 hx with hx | hx
    · rw [List.eq_of_mem_replicate hx]; omega
    · exact h3 x hx
  obtain ⟨m1, a1, a2, a3, a4, a5⟩ := laws_rows h msg hwf (by simp only; omega) (by simp only; omega) hv
  simp only at a3 a4
  obtain ⟨ha1, hok1⟩ := a2.abs
  have hpush : pushAll codec msg (ofArray (planes H ++ (List.replicate (cap - T.length) 0 ++ T)) L
      ((cap : Int) - T.length)) () = .ok (m1, ()) := by rw [hm0]; exact a1
  obtain ⟨junk, hj, he⟩ := encodeOne_of_pushAll hL hLc hss hpush ha1 hok1
  have hlow := a2.low
  have hhigh := a2.high
  have hlim := ha1.limit
  simp only at hlim
  have hroom1 : (m1.data.drop m1.limit.toNat).length + 1 ≤ cap := by omega
  obtain ⟨arr, lim, hz, habs⟩ := decode_start hj hok1 hroom1
  obtain ⟨m2, b1, b2, b3⟩ := a5 _ (habs.wf hok1) (habs.same ha1)
  have hfin : Abs cap m2 ⟨H, T⟩ := by
    have := b3.abs b2
    simp only at this
    rw [show ((cap : Int) - T.length).toNat = cap - T.length by omega,
      List.drop_append_of_le_length (by simp), List.drop_of_length_le (by simp), List.nil_append] at this
    exact this
  refine ⟨_, he, planes_valid hok1.lanes hok1.range ?_, ?_⟩
  · intro x hx
    rcases List.mem_cons.1 hx with rfl | hx
    · exact hj
    · exact hok1.bytes x hx
  · exact decodeOne_of_popAll hLc hz b1 hfin h1

/-- **C15 for table models**, without abstract hypotheses: prior `P`, posterior `Q x`, likelihood
`O z`, one table per lane each. -/
theorem C15_tables {pP pQ pO wZ wX L cap : Nat} (hL : 1 ≤ L) (hLc : L ≤ cap) {P : List (List Nat)}
    {Q O : List Nat → List (List Nat)} {X Z : List Nat → Prop}
    (hP : Tables pP wZ L P) (hQ : ∀ x, X x → Tables pQ wZ L (Q x)) (hO : ∀ z, Z z → Tables pO wX L (O z))
    (hpP : pP ≤ 24) (hpQ : pQ ≤ 24) (hpO : pO ≤ 24)
    (hZP : ∀ z, Z z ↔ TableSymbols P z) (hZQ : ∀ x, X x → ∀ z, Z z ↔ TableSymbols (Q x) z)
    (hXO : ∀ z, Z z → ∀ x, X x ↔ TableSymbols (O z) x)
    (a b c : Bool) {msg : List (List Nat)} (hv : ∀ x ∈ msg, X x) {buf : List Nat} (hb : ValidBuffer L buf)
    (hbytes : 4 * L + 9 * L * msg.length ≤ buf.length)
    (hroom : buf.length + 9 * L * msg.length + 1 ≤ 4 * L + cap) (rnd : List Nat) :
    ∃ out, encodeOne (bitsback (fixedArrayCodec P pP wZ a) (fun x => fixedArrayCodec (Q x) pQ wZ b)
        (fun z => fixedArrayCodec (O z) pO wX c)) () L cap rnd (some buf) msg = .ok (out, ()) ∧
      decodeOne (bitsback (fixedArrayCodec P pP wZ a) (fun x => fixedArrayCodec (Q x) pQ wZ b)
        (fun z => fixedArrayCodec (O z) pO wX c)) () L cap msg.length out = .ok (msg, buf, ()) := by
  have l1 := C15_table_laws (cap := cap) hpP hP.valid hP.fits a
  rw [hP.lanes, show TableSymbols P = Z from funext fun z => propext (hZP z).symm] at l1
  have l2 : ∀ x, X x → CodecLaws cap L (fixedArrayCodec (Q x) pQ wZ b) Z (fun _ => True) (3 * L) := by
    intro x hx
    have := C15_table_laws (cap := cap) hpQ (hQ x hx).valid (hQ x hx).fits b
    rwa [(hQ x hx).lanes, show TableSymbols (Q x) = Z from funext fun z => propext (hZQ x hx z).symm] at this
  have l3 : ∀ z, Z z → CodecLaws cap L (fixedArrayCodec (O z) pO wX c) X (fun _ => True) (3 * L) := by
    intro z hz
    have := C15_table_laws (cap := cap) hpO (hO z hz).valid (hO z hz).fits c
    rwa [(hO z hz).lanes, show TableSymbols (O z) = X from funext fun x => propext (hXO z hz x).symm] at this
  have hlaws := C15_partial l1 l2 l3
  rw [show 3 * L + 3 * L + 3 * L = 9 * L by omega] at hlaws
  obtain ⟨out, h1, _, h2⟩ := C15_roundtrip hL hLc hlaws hv hb hbytes hroom rnd
  exact ⟨out, h1, h2⟩

/-- The hypotheses of `C15_tables` are met: one lane, posterior and likelihood depend on the
other value. -/
example : let P := [[0, 3, 8]]
    let Q : List Nat → List (List Nat) := fun x => if x = [0] then [[0, 1, 8]] else [[0, 6, 8]]
    let O : List Nat → List (List Nat) := fun z => if z = [0] then [[0, 2, 3, 8]] else [[0, 1, 7, 8]]
    let X : List Nat → Prop := fun x => TableSymbols [[0, 1, 2, 3]] x
    let Z : List Nat → Prop := fun z => TableSymbols [[0, 1, 2]] z
    Tables 3 256 1 P ∧ (∀ x, X x → Tables 3 256 1 (Q x)) ∧ (∀ z, Z z → Tables 3 256 1 (O z)) ∧
    (∀ z, Z z ↔ TableSymbols P z) ∧ (∀ x, X x → ∀ z, Z z ↔ TableSymbols (Q x) z) ∧
    (∀ z, Z z → ∀ x, X x ↔ TableSymbols (O z) x) ∧ X [2] := by
  have hT : ∀ t : List Nat, t.head? = some 0 → t.getLast? = some 8 → t.Pairwise (· ≤ ·) → t.length ≤ 257 →
      Tables 3 256 1 [t] := by
    intro t h1 h2 h3 h4
    exact ⟨rfl, by simp only [List.mem_singleton, forall_eq]; exact ⟨h1, h2, h3⟩,
      by simp only [List.mem_singleton, forall_eq]; exact h4⟩
  have hS : ∀ t : List Nat, t.Pairwise (· < ·) → ∀ z, TableSymbols [t] z ↔ ∃ s, z = [s] ∧ s + 1 < t.length := by
    intro t ht z
    constructor
    · intro h
      cases h with
      | cons h1 h2 =>
        cases h2
        exact ⟨_, rfl, h1.1⟩
    · rintro ⟨s, rfl, hs⟩
      refine .cons ⟨hs, ?_⟩ .nil
      rw [List.getD_eq_getElem _ _ (by omega), List.getD_eq_getElem _ _ hs]
      exact List.pairwise_iff_getElem.1 ht s (s + 1) (by omega) hs (by omega)
  refine ⟨hT _ rfl rfl (by decide) (by decide), ?_, ?_, ?_, ?_, ?_, ?_⟩
  · intro x _
    dsimp only
    split
    · exact hT _ rfl rfl (by decide) (by decide)
    · exact hT _ rfl rfl (by decide) (by decide)
  · intro z _
    dsimp only
    split
    · exact hT _ rfl rfl (by decide) (by decide)
    · exact hT _ rfl rfl (by decide) (by decide)
  · intro z
    dsimp only
    rw [hS _ (by decide), hS _ (by decide)]
    rfl
  · intro x _ z
    dsimp only
    rw [hS _ (by decide)]
    split
    · rw [hS _ (by decide)]; rfl
    · rw [hS _ (by decide)]; rfl
  · intro z _ x
    dsimp only
    rw [hS _ (by decide)]
    split
    · rw [hS _ (by decide)]; rfl
    · rw [hS _ (by decide)]; rfl
  · dsimp only
    rw [hS _ (by decide)]
    exact ⟨2, rfl, by decide⟩

/-! ### C16 -/

/-- **C16 (partial: one lane, or one row).**  With `allow_empty_pops` the posterior may read bytes
that are not there.  For one lane, or for a single row starting from an empty stack or one
with three bytes per lane, encoding succeeds and decoding with enough capacity returns the
message and the start buffer followed by the invented bytes `E`. -/
theorem C16_partial {pP pQ pO wZ wX L cap : Nat} (hL : 1 ≤ L) (hLc : L ≤ cap) {P : List (List Nat)}
    {Q O : List Nat → List (List Nat)} {X : List Nat → Prop} (M : BBModel pP pQ pO wZ wX L P Q O X)
    (a b : Bool) {start : Option (List Nat)} (hst : StartOk L cap start) {msg : List (List Nat)}
    (hv : ∀ x ∈ msg, X x)
    (hcase : L = 1 ∨ (msg.length ≤ 1 ∧ (startBytes L start = 0 ∨ 3 * L ≤ startBytes L start)))
    (hroom : startBytes L start + 6 * L * msg.length ≤ cap) {rnd : List Nat} (hr : rnd.length = cap)
    (hrb : ∀ x ∈ rnd, x < 256) :
    ∃ out, encodeOne (bbCodec pP pQ pO wZ wX P Q O a b) () L cap rnd start msg = .ok (out, ()) ∧
      ∀ cap', cap + 3 * L * msg.length + 1 ≤ cap' →
        ∃ E, E.length ≤ 3 * L * msg.length ∧
          decodeOne (bbCodec pP pQ pO wZ wX P Q O a b) () L cap' msg.length out =
            .ok (msg, start.getD (freshBuffer L) ++ E, ()) := by
  obtain ⟨s, hsa, hok, hlen, hbytes⟩ := startsAs_of hst
  obtain ⟨arr, lim, hss, ha, _⟩ := startState_spec hr hrb hsa
  have hclean : L = 1 ∨ (msg.length ≤ 1 ∧ CleanStart L s) := by
    rcases hcase with h | ⟨h1, h2 | h2⟩
    · exact .inl h
    · exact .inr ⟨h1, .inl (List.length_eq_zero_iff.1 (by omega))⟩
    · exact .inr ⟨h1, .inr (.inl (by omega))⟩
  obtain ⟨m', s', E, g1, g2, g3, g4, g5, g6, g7⟩ := bb_rows M a b ha hok msg hv hclean (by omega)
  obtain ⟨junk, hj, he⟩ := encodeOne_of_pushAll hL hLc hss g1 g2 g3
  refine ⟨_, he, ?_⟩
  intro cap' hcap
  have hroom' := g2.room
  obtain ⟨arr2, lim2, hz, habs⟩ := decode_start (cap := cap') hj g3 (by omega)
  obtain ⟨m0, k1, k2⟩ := g7 [] cap' _ (by simp only [List.length_nil]; omega) (by simp)
    (by rw [List.append_nil]; exact habs)
  rw [List.append_nil] at k2
  refine ⟨E, g5, ?_⟩
  rw [decodeOne_of_popAll (by omega) hz k1 k2 hok.lanes]
  simp only [← List.append_assoc, hbytes]

/-- **C16 is violated for two lanes.**  A valid model for which a three-row message encodes
without error from an empty stack and decodes to a different message. -/
theorem C16_violated :
    ∃ (P : List (List Nat)) (Q O : List Nat → List (List Nat)) (X : List Nat → Prop)
      (msg : List (List Nat)) (out : List Nat),
      BBModel 1 8 8 256 256 2 P Q O X ∧ (∀ x ∈ msg, X x) ∧
      encodeOne (bbCodec 1 8 8 256 256 P Q O false false) () 2 20 (List.replicate 20 200) none msg = .ok (out, ()) ∧
      ∀ cap' ∈ [20, 64, 200], ∃ msg' rest,
        decodeOne (bbCodec 1 8 8 256 256 P Q O false false) () 2 cap' 3 out = .ok (msg', rest, ()) ∧ msg' ≠ msg := by
  refine ⟨[[0, 1, 2], [0, 1, 2]],
    fun x => if x.head? = some 2 then [[0, 1, 256], [0, 1, 256]] else [[0, 256, 256], [0, 256, 256]],
    fun _ => [[0, 1, 9, 256], [0, 256]], fun x => TableSymbols [[0, 1, 9, 256], [0, 256]] x,
    [[2, 0], [0, 0], [1, 0]], [1, 8, 9, 0, 83, 0, 242, 4, 2, 202], ?_, ?_, by decide +kernel, ?_⟩
  · have hT : ∀ (p w : Nat) (t u : List Nat), ValidTable p t → ValidTable p u → t.length ≤ w + 1 → u.length ≤ w + 1 →
        Tables p w 2 [t, u] := by
      intro p w t u h1 h2 h3 h4
      refine ⟨rfl, ?_, ?_⟩
      · intro y hy; fin_cases hy; exacts [h1, h2]
      · intro y hy; fin_cases hy; exacts [h3, h4]
    refine ⟨hT _ _ _ _ ⟨rfl, rfl, by decide⟩ ⟨rfl, rfl, by decide⟩ (by decide) (by decide), ?_, ?_, ?_,
      by decide, by decide, by decide⟩
    · intro x _
      split
      · exact hT _ _ _ _ ⟨rfl, rfl, by decide⟩ ⟨rfl, rfl, by decide⟩ (by decide) (by decide)
      · exact hT _ _ _ _ ⟨rfl, rfl, by decide⟩ ⟨rfl, rfl, by decide⟩ (by decide) (by decide)
    · intro z _
      exact hT _ _ _ _ ⟨rfl, rfl, by decide⟩ ⟨rfl, rfl, by decide⟩ (by decide) (by decide)
    · intro x z hx hz
      refine ⟨?_, hx⟩
      have hlen : ∀ {t u : List Nat} {z : List Nat}, t.length = 3 → u.length = 3 → TableSymbols [t, u] z →
          ∃ i j, z = [i, j] ∧ i < 2 ∧ j < 2 := by
        intro t u z ht hu h
        cases h with
        | cons h1 h2 =>
          cases h2 with
          | cons h3 h4 =>
            cases h4
            exact ⟨_, _, rfl, by omega, by omega⟩
      have : ∃ i j, z = [i, j] ∧ i < 2 ∧ j < 2 := by
        split at hz
        · exact hlen rfl rfl hz
        · exact hlen rfl rfl hz
      obtain ⟨i, j, rfl, hi, hj⟩ := this
      refine .cons ⟨by simp only [List.length_cons, List.length_nil]; omega, ?_⟩ (.cons
        ⟨by simp only [List.length_cons, List.length_nil]; omega, ?_⟩ .nil)
      · interval_cases i <;> decide
      · interval_cases j <;> decide
  · intro x hx
    fin_cases hx <;> simp [TableSymbols]
  · intro cap' hc
    fin_cases hc
    · exact ⟨[[2, 0], [0, 0], [0, 0]], [32, 1, 0, 0, 0, 0, 2, 0], by decide +kernel, by decide⟩
    · exact ⟨[[2, 0], [0, 0], [0, 0]], [32, 1, 0, 0, 0, 0, 2, 0], by decide +kernel, by decide⟩
    · exact ⟨[[2, 0], [0, 0], [0, 0]], [32, 1, 0, 0, 0, 0, 2, 0], by decide +kernel, by decide⟩

/-! ### C18 -/

/-- The value of a coder state, in bits: heads and stack bytes as one mixed number. -/
noncomputable def stateBits (cap : Nat) (m : Msg) : ℝ :=
  Real.logb 2 ((m.head.prod * 256 ^ (cap - m.limit.toNat) : Nat) : ℝ)

/-- Information content of slots `[lo, hi)` at precision `p`: `Σ log2 (2^p / (hi - lo))`. -/
noncomputable def slotBits (p : Nat) (lo hi : List Nat) : ℝ :=
  (List.zipWith (fun l h => Real.logb 2 ((2 : ℝ) ^ p / ((h - l : Nat) : ℝ))) lo hi).sum

theorem slotBits_eq (p : Nat) (lo hi : List Nat) : infoBits p (slotsOf lo hi) = slotBits p lo hi := by
  simp only [infoBits, slotsOf, slotBits, List.map_zipWith]

theorem Abs.bits {cap : Nat} {m : Msg} {s : St} (h : Abs cap m s) :
    stateBits cap m = Real.logb 2 (size s) := by
  have := h.room
  have e : cap - m.limit.toNat = s.stack.length := by rw [h.limit]; omega
  simp only [stateBits, size, h.head, e]

/-- **C18, one push.**  The state grows by at most the information content of the symbols plus
`log2 (1 + 2^(p-24))` per lane. -/
theorem C18_push {L cap p : Nat} (hp : p ≤ 24) {m : Msg} (hm : WF L cap m) {lo hi : List Nat}
    (hs : ValidSlots p L lo hi) (hroom : 3 * (L : Int) ≤ m.limit) :
    stateBits cap (pushSymbols m lo hi p) ≤ stateBits cap m + slotBits p lo hi +
      L * Real.logb 2 (1 + 2 ^ p / 2 ^ 24) := by
  obtain ⟨ha, ho⟩ := hm.abs
  obtain ⟨e1, e2, e3, e4⟩ := slotsOf_spec hs
  have hl : LanesOk p m.head (slotsOf lo hi) := lanesOk_of (by rw [hm.lanes, e3]) hm.range e4
  have hlim := ha.limit
  have hlow := hm.low
  obtain ⟨s', hpush, _⟩ := aPush_room (cap := cap) (p := p) (S := slotsOf lo hi)
    (s := ⟨m.head, m.data.drop m.limit.toNat⟩) (by simp only [hm.lanes, e3])
    (by simp only [hm.lanes]; simp only at hlim; omega)
  have ha' := pushSymbols_ref hp ha hl hpush
  rw [e1, e2] at ha'
  have := push_rate_bits hp hl hpush
  rw [e3, slotBits_eq] at this
  rw [ha.bits, ha'.bits]
  exact this

/-- The CDF state after coding a message. -/
def finalState {σ : Type} (cdf : CdfFun σ) : List (List Nat) → σ → σ
  | [], c => c
  | x :: rest, c => (cdf x (finalState cdf rest c)).2.2

/-- Information content of a message: the sum over rows and lanes of `log2 (2^p / frequency)`. -/
noncomputable def messageBits {σ : Type} (cdf : CdfFun σ) (p : Nat) : List (List Nat) → σ → ℝ
  | [], _ => 0
  | x :: rest, c => messageBits cdf p rest c +
      slotBits p (cdf x (finalState cdf rest c)).1 (cdf x (finalState cdf rest c)).2.1

theorem codable_final {σ : Type} {cdf : CdfFun σ} {V : σ → List Nat → Prop} :
    ∀ {msg : List (List Nat)} {c c' : σ}, Codable cdf V msg c c' → c' = finalState cdf msg c := by
  intro msg
  induction msg with
  | nil => intro c c' h; exact h
  | cons x rest ih =>
    rintro c c' ⟨c1, h1, _, rfl⟩
    rw [finalState, ← ih h1]

theorem run_bits {σ : Type} {cdf : CdfFun σ} {icdf : InvCdfFun σ} {p L width cap : Nat}
    {V : σ → List Nat → Prop} {R : σ → σ → Prop} (hp : p ≤ 24) (h : CdfPair cdf icdf p L width V R) :
    ∀ {msg : List (List Nat)} {s s' : St} {c c' d : σ}, Ok L s → Codable cdf V msg c c' →
    aPushAll (aDefault cap p width cdf icdf).push msg s c = some (s', d) →
    Real.logb 2 (size s') ≤ Real.logb 2 (size s) + messageBits cdf p msg c +
      msg.length * (L * Real.logb 2 (1 + 2 ^ p / 2 ^ 24)) ∧ Ok L s' := by
  intro msg
  induction msg with
  | nil =>
    intro s s' c c' d hs _ hr
    simp only [aPushAll, Option.some.injEq, Prod.mk.injEq] at hr
    rw [← hr.1]
    simp [messageBits, hs]
  | cons x rest ih =>
    rintro s s' c c' d hs ⟨c1, h1, h2, rfl⟩ hr
    simp only [aPushAll, Option.bind_eq_some_iff] at hr
    obtain ⟨⟨s1, d1⟩, e1, e2⟩ := hr
    obtain rfl : d1 = c1 := (codable_run rest h1).2 _ e1
    obtain ⟨i1, ok1⟩ := ih hs h1 e1
    have hok := (default_popPush hp h ok1 h2 e2).1
    simp only [aDefault, Option.map_eq_some_iff, Prod.mk.injEq] at e2
    obtain ⟨s2, e3, rfl, rfl⟩ := e2
    obtain ⟨f1, f2, f3, f4⟩ := slotsOf_spec (h.slots d1 x h2)
    have hl := lanesOk_of (by rw [ok1.lanes, f3]) ok1.range f4
    have := push_rate_bits hp hl e3
    rw [f3, slotBits_eq] at this
    refine ⟨?_, hok⟩
    rw [messageBits, ← codable_final h1]
    simp only [List.length_cons]
    push_cast
    linarith

theorem prod_ge {l : List Nat} {b : Nat} (h : ∀ x ∈ l, b ≤ x) : b ^ l.length ≤ l.prod := by
  induction l with
  | nil => simp
  | cons a l ih =>
    rw [List.length_cons, pow_succ, List.prod_cons, Nat.mul_comm]
    exact Nat.mul_le_mul (h a (by simp)) (ih (fun x hx => h x (by simp [hx])))

/-- **C18, messages.**  Without start buffer, the stack bytes of the output (all but the `4 L` head
bytes and one free byte) hold at most the information content of the message plus
`log2 (1 + 2^(p-24))` bits per symbol. -/
theorem C18_message {σ : Type} {cdf : CdfFun σ} {icdf : InvCdfFun σ} {p L width cap : Nat}
    {V : σ → List Nat → Prop} {R : σ → σ → Prop} (hp : p ≤ 24) (hL : 1 ≤ L) (hLc : L ≤ cap)
    (h : CdfPair cdf icdf p L width V R) {msg : List (List Nat)} {c c' : σ}
    (hcod : Codable cdf V msg c c') (hroom : 3 * L * msg.length ≤ cap) {rnd : List Nat}
    (hr : rnd.length = cap) (hrb : ∀ x ∈ rnd, x < 256) (init : σ) (ae : Bool) :
    ∃ out, encodeOne (defaultCodec cdf icdf init p width ae) c L cap rnd none msg = .ok (out, c') ∧
      4 * L + 1 ≤ out.length ∧
      8 * ((out.length - 4 * L - 1 : Nat) : ℝ) ≤ messageBits cdf p msg c +
        msg.length * (L * Real.logb 2 (1 + 2 ^ p / 2 ^ 24)) := by
  obtain ⟨s, hsa, hok, hlen, hbytes⟩ := startsAs_of (L := L) (cap := cap) (start := none) trivial
  simp only [startBytes] at hlen
  obtain ⟨s', hrun, hok', hl'⟩ := default_run_room hp h msg (cap := cap) hok hcod (by omega)
  obtain ⟨ha1, _⟩ := codable_run (icdf := icdf) (cap := cap) (p := p) (width := width) msg (s := s) hcod
  obtain ⟨junk, hj, he, _, hle⟩ := encodeOne_spec hL hLc (default_lossless hp hLc h init ae) hr hrb hsa ha1 hrun
  have hb := (run_bits hp h hok hcod hrun).1
  refine ⟨_, he, ?_, ?_⟩
  · simp only [List.length_append, planes_length, hok'.lanes, List.length_cons]; omega
  have hlo : (planes s'.heads ++ junk :: s'.stack).length - 4 * L - 1 = s'.stack.length := by
    simp only [List.length_append, planes_length, hok'.lanes, List.length_cons]; omega
  rw [hlo]
  have hs0 : size s = (2 ^ 24) ^ L := by
    cases hsa
    simp [size, List.prod_replicate]
  have h1 : (2 ^ 24) ^ L * 256 ^ s'.stack.length ≤ size s' := by
    simp only [size]
    refine Nat.mul_le_mul_right _ ?_
    rw [← hok'.lanes]
    exact prod_ge fun x hx => (hok'.range x hx).1
  have h2 : (((2 ^ 24) ^ L * 256 ^ s'.stack.length : Nat) : ℝ) ≤ (size s' : ℝ) := by exact_mod_cast h1
  have h3 := Real.logb_le_logb_of_le (b := 2) (by norm_num) (by positivity) h2
  have e : Real.logb 2 (((2 ^ 24) ^ L * 256 ^ s'.stack.length : Nat) : ℝ) =
      Real.logb 2 (((2 ^ 24) ^ L : Nat) : ℝ) + 8 * s'.stack.length := by
    push_cast
    rw [Real.logb_mul (by positivity) (by positivity)]
    congr 1
    rw [show (256 : ℝ) = 2 ^ (8 : ℕ) by norm_num, ← pow_mul, Real.logb_pow, Real.logb_self_eq_one (by norm_num)]
    push_cast; ring
  rw [hs0] at hb
  rw [e] at h3
  have hfin := le_trans h3 hb
  generalize Real.logb 2 (((2 ^ 24) ^ L : Nat) : ℝ) = A at hfin
  linarith

/-- The margin is small: at precision 16 below `log2 (257 / 256) < 0.006` bit per symbol. -/
example : (1 : ℝ) + 2 ^ 16 / 2 ^ 24 = 257 / 256 := by norm_num

/-- The hypotheses of `C18_message` are met by tables. -/
example : CdfPair tableCdf tableInv 8 [[0, 5, 9, 256], [0, 200, 256]].length 256
      (fun c x => c = [[0, 5, 9, 256], [0, 200, 256]] ∧ TableSymbols [[0, 5, 9, 256], [0, 200, 256]] x)
      (fun c t => c = [[0, 5, 9, 256], [0, 200, 256]] ∧ t = [[0, 5, 9, 256], [0, 200, 256]]) ∧
    Codable tableCdf (fun c x => c = [[0, 5, 9, 256], [0, 200, 256]] ∧ TableSymbols [[0, 5, 9, 256], [0, 200, 256]] x)
      [[2, 1], [0, 0]] [[0, 5, 9, 256], [0, 200, 256]] [[0, 5, 9, 256], [0, 200, 256]] := by
  refine ⟨table_pair ?_ ?_, tables_codable _ ?_⟩
  · intro t ht
    fin_cases ht
    · exact ⟨rfl, rfl, by decide⟩
    · exact ⟨rfl, rfl, by decide⟩
  · intro t ht
    fin_cases ht <;> decide
  · intro x hx
    fin_cases hx <;> simp [TableSymbols]

end Verif.Rans
