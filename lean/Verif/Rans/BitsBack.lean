import Verif.Rans.Table

/-
Bits-back codecs built from lawful codecs are lawful.
-/
namespace Verif.Rans

/-- The codec laws: on states that represent an ideal `(heads, stack)` pair the codec
computes ideal partial functions (undefined when the stack has no room or too few
bytes) that are inverse to each other; `V` is the set of symbols the codec can code. -/
structure Lawful {α σ : Type} (cap L : Nat) (codec : Codec α σ) (V : α → Prop)
    (args : Option Bool → Prop) (a : ACodec α σ) : Prop where
  static : Static L a V codec.state
  refines : Refines cap L codec a (fun c x => c = codec.state ∧ V x) (fun c => c = codec.state) args

/-- Ideal version of `bitsback_ans_codec`. -/
def aBitsback {α β ρ θ ω : Type} (ap : ACodec β ρ) (p0 : ρ) (aq : α → ACodec β θ) (q0 : α → θ)
    (ao : β → ACodec α ω) (o0 : β → ω) : ACodec α Unit where
  push x s _ :=
    ((aq x).pop s (q0 x)).bind fun r =>
    ((ao r.2.1).push x r.1 (o0 r.2.1)).bind fun r2 =>
    (ap.push r.2.1 r2.1 p0).map fun r3 => (r3.1, ())
  pop s _ :=
    (ap.pop s p0).bind fun r =>
    ((ao r.2.1).pop r.1 (o0 r.2.1)).bind fun r2 =>
    ((aq r2.2.1).push r.2.1 r2.1 (q0 r2.2.1)).map fun r3 => (r3.1, r2.2.1, ())

theorem bitsback_lawful {α β ρ θ ω : Type} {cap L : Nat} {prior : Codec β ρ}
    {posterior : α → Codec β θ} {obs : β → Codec α ω} {X : α → Prop} {Z : β → Prop}
    {A : Option Bool → Prop} (hA : ∀ b, A (some b))
    {ap : ACodec β ρ} {aq : α → ACodec β θ} {ao : β → ACodec α ω}
    (hp : Lawful cap L prior Z A ap)
    (hq : ∀ x, X x → Lawful cap L (posterior x) Z A (aq x))
    (ho : ∀ z, Z z → Lawful cap L (obs z) X A (ao z)) :
    Lawful cap L (bitsback prior posterior obs) X (fun ae => ae = none)
      (aBitsback ap prior.state aq (fun x => (posterior x).state) ao (fun z => (obs z).state)) := by
  have hstatic : Static L (aBitsback ap prior.state aq (fun x => (posterior x).state) ao
      (fun z => (obs z).state)) X () := by
    constructor
    · intro s x s' c' hs hx hpush
      simp only [aBitsback, Option.bind_eq_some_iff, Option.map_eq_some_iff] at hpush
      obtain ⟨⟨s1, z, t⟩, e1, ⟨s2, w⟩, e2, ⟨s3, r⟩, e3, he⟩ := hpush
      obtain ⟨hz, ok1, q', e1'⟩ := (hq x hx).static.pushPop hs e1
      obtain ⟨ok2, w', e2'⟩ := (ho z hz).static.popPush ok1 hx e2
      obtain ⟨ok3, r', e3'⟩ := hp.static.popPush ok2 hz e3
      obtain ⟨rfl, _⟩ := Prod.mk.inj he
      refine ⟨ok3, (), ?_⟩
      simp only [aBitsback, e3', Option.bind_some, e2', e1', Option.map_some]
    · intro s s' x t hs hpop
      simp only [aBitsback, Option.bind_eq_some_iff, Option.map_eq_some_iff] at hpop
      obtain ⟨⟨s1, z, t⟩, e1, ⟨s2, x', w⟩, e2, ⟨s3, r⟩, e3, he⟩ := hpop
      simp only [Prod.mk.injEq, and_true] at he e2 e3
      obtain ⟨rfl, rfl⟩ := he
      obtain ⟨hz, ok1, p', e1'⟩ := hp.static.pushPop hs e1
      obtain ⟨hx, ok2, w', e2'⟩ := (ho z hz).static.pushPop ok1 e2
      obtain ⟨ok3, r', e3'⟩ := (hq _ hx).static.popPush ok2 hz e3
      refine ⟨hx, ok3, (), ?_⟩
      simp only [aBitsback, e3', Option.bind_some, e2', e1', Option.map_some]
  refine ⟨hstatic, ?_⟩
  constructor
  · rintro m s x c s' c' hm hs ⟨_, hx⟩ hpush
    simp only [aBitsback, Option.bind_eq_some_iff, Option.map_eq_some_iff] at hpush
    obtain ⟨⟨s1, z, t⟩, e1, ⟨s2, w⟩, e2, ⟨s3, r⟩, e3, he⟩ := hpush
    obtain ⟨rfl, _⟩ := Prod.mk.inj he
    obtain ⟨hz, ok1, _⟩ := (hq x hx).static.pushPop hs e1
    obtain ⟨ok2, _⟩ := (ho z hz).static.popPush ok1 hx e2
    obtain ⟨m1, p1, a1⟩ := (hq x hx).refines.pop (hA _) rfl hm hs e1
    obtain ⟨m2, p2, a2⟩ := (ho z hz).refines.push a1 ok1 ⟨rfl, hx⟩ e2
    obtain ⟨m3, p3, a3⟩ := hp.refines.push a2 ok2 ⟨rfl, hz⟩ e3
    refine ⟨m3, ?_, a3⟩
    simp only [bitsback]
    rw [p1]
    show ((obs z).push x m1 (obs z).state >>= _) = _
    rw [p2]
    show (prior.push z m2 prior.state >>= _) = _
    rw [p3]
    rfl
  · rintro m s t s' x t' ae rfl _ hm hs hpop
    simp only [aBitsback, Option.bind_eq_some_iff, Option.map_eq_some_iff] at hpop
    obtain ⟨⟨s1, z, t⟩, e1, ⟨s2, x', w⟩, e2, ⟨s3, r⟩, e3, he⟩ := hpop
    simp only [Prod.mk.injEq, and_true] at he e2 e3
    obtain ⟨rfl, rfl⟩ := he
    obtain ⟨hz, ok1, _⟩ := hp.static.pushPop hs e1
    obtain ⟨hx, ok2, _⟩ := (ho z hz).static.pushPop ok1 e2
    obtain ⟨m1, p1, a1⟩ := hp.refines.pop (hA _) rfl hm hs e1
    obtain ⟨m2, p2, a2⟩ := (ho z hz).refines.pop (hA _) rfl a1 ok1 e2
    obtain ⟨m3, p3, a3⟩ := (hq _ hx).refines.push a2 ok2 ⟨rfl, hz⟩ e3
    refine ⟨m3, ?_, a3⟩
    simp only [bitsback]
    rw [p1]
    show ((obs z).pop _ m1 (obs z).state >>= _) = _
    rw [p2]
    show ((posterior x').push z m2 (posterior x').state >>= _) = _
    rw [p3]
    rfl

/-- A default codec whose CDF functions are inverse to each other is lawful. -/
theorem default_lawful {σ : Type} {cdf : CdfFun σ} {icdf : InvCdfFun σ} {p L width cap : Nat}
    (hp : p ≤ 24) (hc : L ≤ cap) {V : σ → List Nat → Prop} {R : σ → σ → Prop} {init : σ} {ae : Bool}
    (h : CdfPair cdf icdf p L width V R) (hR : ∀ x, V init x → R (cdf x init).2.2 init)
    (ht : CdfTotal cdf icdf p L width (V init) init) :
    Lawful cap L (defaultCodec cdf icdf init p width ae) (V init) (fun _ => True)
      (aDefault cap p width cdf icdf) := by
  refine ⟨default_static hp h hR ht, ?_⟩
  refine default_refines hp hc ?_ ?_
  · rintro c x ⟨rfl, hx⟩; exact h.slots _ x hx
  · intro t htt s hs
    have htt : t = init := htt
    subst htt
    obtain ⟨v1, v2, v3, v4⟩ := ht.total (peekA p s.heads) (by simp [peekA, hs.lanes])
      (by intro y hy; simp only [peekA, List.mem_map] at hy; obtain ⟨z, _, rfl⟩ := hy
          exact Nat.mod_lt _ (by positivity))
    have hslots := h.slots t _ v1
    rw [v2, v3] at hslots
    exact ⟨_, hslots, rfl, (within_iff hslots hs.range).mpr v4⟩

theorem table_lawful {p width cap : Nat} (hp : p ≤ 24) {tbls : List (List Nat)}
    (hc : tbls.length ≤ cap) (ht : ∀ t ∈ tbls, ValidTable p t)
    (hw : ∀ t ∈ tbls, t.length ≤ width + 1) (ae : Bool) :
    Lawful cap tbls.length (fixedArrayCodec tbls p width ae) (TableSymbols tbls) (fun _ => True)
      (aDefault cap p width tableCdf tableInv) := by
  have := default_lawful (ae := ae) hp hc (init := tbls) (table_pair ht hw)
    (fun x _ => ⟨rfl, rfl⟩)
    (by have h := table_total (width := width) ht
        refine ⟨fun v hl hv => ?_⟩
        obtain ⟨a, b⟩ := h.total v hl hv
        exact ⟨⟨rfl, a⟩, b⟩)
  refine ⟨⟨?_, ?_⟩, ⟨?_, ?_⟩⟩
  · intro s x s' c' h1 h2 h3; exact this.static.popPush h1 ⟨rfl, h2⟩ h3
  · intro s s' x t h1 h2
    obtain ⟨⟨_, a⟩, b⟩ := this.static.pushPop h1 h2
    exact ⟨a, b⟩
  · intro m s x c s' c' h1 h2 h3 h4; exact this.refines.push h1 h2 ⟨h3.1, rfl, h3.2⟩ h4
  · intro m s t s' x t' ae h1 h2 h3 h4 h5; exact this.refines.pop h1 h2 h3 h4 h5

/-- What nesting would need: a `pop` that accepts (and ignores) the optional argument. -/
def ignoreFlag {α σ : Type} (codec : Codec α σ) : Codec α σ :=
  { codec with pop := fun _ m c => codec.pop none m c }

theorem ignoreFlag_lawful {α σ : Type} {cap L : Nat} {codec : Codec α σ} {V : α → Prop}
    {a : ACodec α σ} (h : Lawful cap L codec V (fun ae => ae = none) a) :
    Lawful cap L (ignoreFlag codec) V (fun _ => True) a := by
  refine ⟨h.static, h.refines.push, ?_⟩
  intro m s t s' x t' ae _ h2 h3 h4 h5
  exact h.refines.pop rfl h2 h3 h4 h5

/-- Lawful codecs with a trivial state can be used in `encode`/`decode`. -/
theorem Lawful.lossless {α : Type} {cap L : Nat} {codec : Codec α Unit} {V : α → Prop}
    {a : ACodec α Unit} {args : Option Bool → Prop} (hn : args none) (h : Lawful cap L codec V args a) :
    Lossless cap L codec a.push (fun _ => V) (fun _ _ => True) := by
  refine static_lossless h.static hn ?_
  exact ⟨fun h1 h2 h3 h4 => h.refines.push h1 h2 ⟨rfl, h3⟩ h4,
    fun h1 _ h3 h4 h5 => h.refines.pop h1 rfl h3 h4 h5⟩

end Verif.Rans
