import Verif.Rans.Serial
import Verif.Rans.Spec

/-
Codec laws on the abstract state, their refinement by the concrete codecs, and the
`encode`/`decode` round trip.
-/
namespace Verif.Rans

def slotsOf (lo hi : List Nat) : List Slot := List.zipWith (fun l h => (l, h - l)) lo hi

theorem slotsOf_spec {p L : Nat} {lo hi : List Nat} (h : ValidSlots p L lo hi) :
    (slotsOf lo hi).map Prod.fst = lo ∧ (slotsOf lo hi).map (fun s => s.1 + s.2) = hi ∧
    (slotsOf lo hi).length = L ∧ ∀ s ∈ slotsOf lo hi, SlotOk p s := by
  obtain ⟨hl, hf⟩ := h
  subst hl
  induction hf with
  | nil => simp [slotsOf]
  | @cons l h ls hs hd _ ih =>
    obtain ⟨i1, i2, i3, i4⟩ := ih
    simp only [slotsOf, List.zipWith_cons_cons, List.map_cons, List.length_cons] at *
    refine ⟨by rw [i1], by rw [i2]; congr 1; omega, by rw [i3], ?_⟩
    intro s hs
    rcases List.mem_cons.mp hs with rfl | hs
    · exact ⟨by simp only; omega, by simp only; omega⟩
    · exact i4 s hs

/-- A well-formed abstract state with `L` lanes. -/
structure Ok (L : Nat) (s : St) : Prop where
  lanes : s.heads.length = L
  range : ∀ h ∈ s.heads, HeadOk h
  bytes : ∀ b ∈ s.stack, b < 256

theorem lanesOk_of {p : Nat} : ∀ {H : List Nat} {S : List Slot}, H.length = S.length →
    (∀ h ∈ H, HeadOk h) → (∀ s ∈ S, SlotOk p s) → LanesOk p H S := by
  intro H
  induction H with
  | nil => intro S hl _ _; cases S <;> simp_all [LanesOk]
  | cons h H ih =>
    intro S hl hh hs
    cases S with
    | nil => simp at hl
    | cons s S =>
      exact .cons ⟨hh h (by simp), hs s (by simp)⟩
        (ih (by simpa using hl) (fun x hx => hh x (by simp [hx])) (fun x hx => hs x (by simp [hx])))

theorem LanesOk.heads {p : Nat} {H : List Nat} {S : List Slot} (h : LanesOk p H S) :
    H.length = S.length ∧ ∀ h ∈ H, HeadOk h := by
  induction h with
  | nil => simp
  | cons hd _ ih =>
    refine ⟨by simp [ih.1], ?_⟩
    intro x hx
    rcases List.mem_cons.mp hx with rfl | hx
    · exact hd.1
    · exact ih.2 x hx

/-- Values peeked from the heads. -/
def peekA (p : Nat) (H : List Nat) : List Nat := H.map (fun h => h % 2 ^ p)

theorem within_iff {p L : Nat} : ∀ {H lo hi : List Nat}, ValidSlots p L lo hi →
    (∀ h ∈ H, HeadOk h) →
    (InSlots p H (slotsOf lo hi) ↔ Within (peekA p H) lo hi) := by
  intro H lo hi hv hh
  obtain ⟨hl, hf⟩ := hv
  subst hl
  induction hf generalizing H with
  | nil =>
    cases H with
    | nil => simp [InSlots, slotsOf, peekA, Within]
    | cons h H => simp [InSlots, slotsOf, peekA, Within]
  | @cons l h ls hs hd hrest ih =>
    cases H with
    | nil => simp [InSlots, slotsOf, peekA, Within]
    | cons x H =>
      have := ih (H := H) (fun y hy => hh y (by simp [hy]))
      have hx := hh x (by simp)
      simp only [InSlots, slotsOf, peekA, List.zipWith_cons_cons, List.map_cons, Within,
        List.forall₂_cons] at *
      rw [this]
      have hs : SlotOk p (l, h - l) := ⟨by simp only; omega, by simp only; omega⟩
      constructor
      · rintro ⟨⟨_, _, a, b⟩, c⟩; exact ⟨by omega, by omega, c⟩
      · rintro ⟨a, b, c⟩; exact ⟨⟨hx, hs, by omega, by omega⟩, c⟩

/-! ### Abstract codecs -/

structure ACodec (α σ : Type) where
  push : α → St → σ → Option (St × σ)
  pop : St → σ → Option (St × α × σ)

/-- The concrete codec computes what the abstract one does, on states that
represent each other; `args` are the values of the optional argument of `pop` for
which this holds. -/
structure Refines {α σ : Type} (cap L : Nat) (codec : Codec α σ) (a : ACodec α σ)
    (V : σ → α → Prop) (T : σ → Prop) (args : Option Bool → Prop) : Prop where
  push : ∀ {m s x c s' c'}, Abs cap m s → Ok L s → V c x → a.push x s c = some (s', c') →
    ∃ m', codec.push x m c = .ok (m', c') ∧ Abs cap m' s'
  pop : ∀ {m s t s' x t' ae}, args ae → T t → Abs cap m s → Ok L s → a.pop s t = some (s', x, t') →
    ∃ m', codec.pop ae m t = .ok (m', x, t') ∧ Abs cap m' s'

/-- Popping inverts pushing, threading related CDF states. -/
def PopPush {α σ : Type} (L : Nat) (a : ACodec α σ) (V : σ → α → Prop) (R : σ → σ → Prop) : Prop :=
  ∀ {s x c s' c'}, Ok L s → V c x → a.push x s c = some (s', c') → Ok L s' ∧
    ∀ t', R c' t' → ∃ t, a.pop s' t' = some (s, x, t) ∧ R c t

/-- Both directions, always starting from the CDF state `c`. -/
structure Static {α σ : Type} (L : Nat) (a : ACodec α σ) (V : α → Prop) (c : σ) : Prop where
  popPush : ∀ {s x s' c'}, Ok L s → V x → a.push x s c = some (s', c') →
    Ok L s' ∧ ∃ t, a.pop s' c = some (s, x, t)
  pushPop : ∀ {s s' x t}, Ok L s → a.pop s c = some (s', x, t) →
    V x ∧ Ok L s' ∧ ∃ c', a.push x s' c = some (s, c')

/-- Abstract version of `default_rans_codec`. -/
def aDefault {σ : Type} (cap p width : Nat) (cdf : CdfFun σ) (icdf : InvCdfFun σ) :
    ACodec (List Nat) σ where
  push x s c :=
    (aPush cap p (slotsOf (cdf x c).1 (cdf x c).2.1) s).map fun s' => (s', (cdf x c).2.2)
  pop s t :=
    let r := icdf (peekA p s.heads) t
    (aPop cap p (slotsOf r.1 r.2.1) s).map fun s' => (s', r.2.2.1.map (· % width), r.2.2.2)

theorem map_mod_eq {width : Nat} {l : List Nat} (h : ∀ s ∈ l, s < width) :
    l.map (· % width) = l := by
  induction l with
  | nil => rfl
  | cons s l ih =>
    rw [List.map_cons, ih (fun x hx => h x (by simp [hx])), Nat.mod_eq_of_lt (h s (by simp))]

theorem default_popPush {σ : Type} {cdf : CdfFun σ} {icdf : InvCdfFun σ} {p L width cap : Nat}
    (hp : p ≤ 24) {V : σ → List Nat → Prop} {R : σ → σ → Prop}
    (h : CdfPair cdf icdf p L width V R) : PopPush L (aDefault cap p width cdf icdf) V R := by
  intro s x c s' c' hs hv hpush
  have hslots := h.slots c x hv
  obtain ⟨e1, e2, e3, e4⟩ := slotsOf_spec hslots
  simp only [aDefault, Option.map_eq_some_iff, Prod.mk.injEq] at hpush
  obtain ⟨s1, hp1, rfl, rfl⟩ := hpush
  have hl := lanesOk_of (by rw [hs.lanes, e3]) hs.range e4
  obtain ⟨hpop, hin⟩ := aPop_aPush hp hl hp1
  obtain ⟨hlen, hrange⟩ := hin.lanesOk.heads
  have hok : Ok L s1 := ⟨by rw [hlen, e3], hrange, aPush_bytes hp1 hs.bytes⟩
  refine ⟨hok, ?_⟩
  intro t' hR
  have hw := (within_iff hslots hrange).mp hin
  obtain ⟨t, ht, hRt⟩ := h.inverse c x _ t' hv hw hR
  refine ⟨t, ?_, hRt⟩
  simp only [aDefault, ht, hpop, Option.map_some, map_mod_eq (h.dtype c x hv)]

theorem default_static {σ : Type} {cdf : CdfFun σ} {icdf : InvCdfFun σ} {p L width cap : Nat}
    (hp : p ≤ 24) {V : σ → List Nat → Prop} {R : σ → σ → Prop}
    (h : CdfPair cdf icdf p L width V R) {c : σ} (hR : ∀ x, V c x → R (cdf x c).2.2 c)
    (ht : CdfTotal cdf icdf p L width (V c) c) :
    Static L (aDefault cap p width cdf icdf) (V c) c := by
  constructor
  · intro s x s' c' hs hv hpush
    obtain ⟨hok, hpop⟩ := default_popPush hp h hs hv hpush
    refine ⟨hok, ?_⟩
    have : c' = (cdf x c).2.2 := by
      simp only [aDefault, Option.map_eq_some_iff, Prod.mk.injEq] at hpush
      obtain ⟨_, _, _, rfl⟩ := hpush; rfl
    obtain ⟨t, h1, _⟩ := hpop c (this ▸ hR x hv)
    exact ⟨t, h1⟩
  · intro s s' x t hs hpop
    obtain ⟨v1, v2, v3, v4⟩ := ht.total (peekA p s.heads) (by simp [peekA, hs.lanes])
      (by intro y hy; simp only [peekA, List.mem_map] at hy; obtain ⟨z, _, rfl⟩ := hy
          exact Nat.mod_lt _ (by positivity))
    have hslots := h.slots c _ v1
    rw [v2, v3] at hslots
    obtain ⟨e1, e2, e3, e4⟩ := slotsOf_spec hslots
    simp only [aDefault, Option.map_eq_some_iff, Prod.mk.injEq] at hpop
    obtain ⟨s1, hp1, rfl, hx, _⟩ := hpop
    rw [map_mod_eq (h.dtype c _ v1)] at hx
    have hin := (within_iff hslots hs.range).mpr v4
    obtain ⟨hpush, hl, hb⟩ := aPush_aPop hp hin hs.bytes hp1
    obtain ⟨hlen, hrange⟩ := hl.heads
    refine ⟨hx ▸ v1, ⟨by rw [hlen, e3], hrange, hb⟩, ?_⟩
    refine ⟨(cdf x c).2.2, ?_⟩
    subst hx
    simp only [aDefault, v2, v3, hpush, Option.map_some]

theorem Abs.shapeOk {cap L : Nat} {m : Msg} {s : St} (h : Abs cap m s) (hs : Ok L s)
    (hc : L ≤ cap) : shapeOk m = true := by
  simp only [Rans.shapeOk, h.head, h.len, hs.lanes, decide_eq_true hc]

theorem default_refines {σ : Type} {cdf : CdfFun σ} {icdf : InvCdfFun σ} {p L width cap : Nat}
    (hp : p ≤ 24) (hc : L ≤ cap) {V : σ → List Nat → Prop} {T : σ → Prop} {init : σ} {ae : Bool}
    (hslots : ∀ c x, V c x → ValidSlots p L (cdf x c).1 (cdf x c).2.1)
    (hin : ∀ t, T t → ∀ s : St, Ok L s →
      ∃ S, ValidSlots p L (icdf (peekA p s.heads) t).1 (icdf (peekA p s.heads) t).2.1 ∧
        S = slotsOf (icdf (peekA p s.heads) t).1 (icdf (peekA p s.heads) t).2.1 ∧
        InSlots p s.heads S) :
    Refines cap L (defaultCodec cdf icdf init p width ae) (aDefault cap p width cdf icdf) V T
      (fun _ => True) := by
  constructor
  · intro m s x c s' c' hm hs hv hpush
    obtain ⟨e1, e2, e3, e4⟩ := slotsOf_spec (hslots c x hv)
    simp only [aDefault, Option.map_eq_some_iff, Prod.mk.injEq] at hpush
    obtain ⟨s1, hp1, rfl, rfl⟩ := hpush
    have hl := lanesOk_of (by rw [hs.lanes, e3]) hs.range e4
    have := pushSymbols_ref hp hm hl hp1
    rw [e1, e2] at this
    exact ⟨_, by simp only [defaultCodec, hm.shapeOk hs hc, if_true], this⟩
  · intro m s t s' x t' ae _ hT hm hs hpop
    simp only [aDefault, Option.map_eq_some_iff, Prod.mk.injEq] at hpop
    obtain ⟨s1, hp1, rfl, rfl, rfl⟩ := hpop
    obtain ⟨S, hv, rfl, hI⟩ := hin t hT s hs
    obtain ⟨e1, e2, e3, e4⟩ := slotsOf_spec hv
    have := popSymbols_ref hp (ae.getD false) hm hI hp1
    rw [e1, e2] at this
    have hpk : peek m p = peekA p s.heads := by
      simp only [peek, peekA, hm.head, Nat.and_two_pow_sub_one_eq_mod]
    refine ⟨_, ?_, this⟩
    simp only [defaultCodec, hm.shapeOk hs hc, if_true, hpk]

/-! ### What encode/decode need from a codec -/

/-- Pushes follow the abstract partial function `push`, and popping from any array that
represents the result undoes it. -/
structure Lossless {α σ : Type} (cap L : Nat) (codec : Codec α σ)
    (push : α → St → σ → Option (St × σ)) (V : σ → α → Prop) (R : σ → σ → Prop) : Prop where
  fwd : ∀ {m s x c s' c'}, Abs cap m s → Ok L s → V c x → push x s c = some (s', c') →
    Ok L s' ∧ ∃ m', codec.push x m c = .ok (m', c') ∧ Abs cap m' s'
  back : ∀ {s x c s' c' m' t'}, Ok L s → V c x → push x s c = some (s', c') → Abs cap m' s' →
    R c' t' → ∃ t m, codec.pop none m' t' = .ok (m, x, t) ∧ Abs cap m s ∧ R c t

theorem default_lossless {σ : Type} {cdf : CdfFun σ} {icdf : InvCdfFun σ} {p L width cap : Nat}
    (hp : p ≤ 24) (hc : L ≤ cap) {V : σ → List Nat → Prop} {R : σ → σ → Prop}
    (h : CdfPair cdf icdf p L width V R) (init : σ) (ae : Bool) :
    Lossless cap L (defaultCodec cdf icdf init p width ae) (aDefault cap p width cdf icdf).push V R := by
  constructor
  · intro m s x c s' c' hm hs hv hpush
    refine ⟨(default_popPush hp h hs hv hpush).1, ?_⟩
    obtain ⟨e1, e2, e3, e4⟩ := slotsOf_spec (h.slots c x hv)
    simp only [aDefault, Option.map_eq_some_iff, Prod.mk.injEq] at hpush
    obtain ⟨s1, hp1, rfl, rfl⟩ := hpush
    have hl := lanesOk_of (by rw [hs.lanes, e3]) hs.range e4
    have := pushSymbols_ref hp hm hl hp1
    rw [e1, e2] at this
    exact ⟨_, by simp only [defaultCodec, hm.shapeOk hs hc, if_true], this⟩
  · intro s x c s' c' m' t' hs hv hpush hm hR
    have hok := (default_popPush hp h hs hv hpush).1
    have hslots := h.slots c x hv
    obtain ⟨e1, e2, e3, e4⟩ := slotsOf_spec hslots
    simp only [aDefault, Option.map_eq_some_iff, Prod.mk.injEq] at hpush
    obtain ⟨s1, hp1, rfl, rfl⟩ := hpush
    have hl := lanesOk_of (by rw [hs.lanes, e3]) hs.range e4
    obtain ⟨hpop, hin⟩ := aPop_aPush hp hl hp1
    have hw := (within_iff hslots hok.range).mp hin
    obtain ⟨t, ht, hRt⟩ := h.inverse c x _ t' hv hw hR
    have hpk : peek m' p = peekA p s1.heads := by
      simp only [peek, peekA, hm.head, Nat.and_two_pow_sub_one_eq_mod]
    have := popSymbols_ref hp false hm hin hpop
    rw [e1, e2, hpk] at this
    refine ⟨t, _, ?_, this, hRt⟩
    simp only [defaultCodec, hm.shapeOk hok hc, if_true, hpk, ht, map_mod_eq (h.dtype c x hv),
      Option.getD_none]

theorem static_lossless {α : Type} {cap L : Nat} {codec : Codec α Unit} {a : ACodec α Unit}
    {V : α → Prop} (hs : Static L a V ()) {args : Option Bool → Prop} (hn : args none)
    (hr : Refines cap L codec a (fun _ => V) (fun _ => True) args) :
    Lossless cap L codec a.push (fun _ => V) (fun _ _ => True) := by
  constructor
  · intro m s x c s' c' hm hok hv hpush
    exact ⟨(hs.popPush hok hv hpush).1, hr.push hm hok hv hpush⟩
  · intro s x c s' c' m' t' hok hv hpush hm _
    obtain ⟨hok', t, hpop⟩ := hs.popPush hok hv hpush
    obtain ⟨m, h1, h2⟩ := hr.pop hn trivial hm hok' hpop
    exact ⟨t, m, h1, h2, trivial⟩

/-- The abstract encoding loop. -/
def aPushAll {α σ : Type} (push : α → St → σ → Option (St × σ)) :
    List α → St → σ → Option (St × σ)
  | [], s, c => some (s, c)
  | x :: rest, s, c => (aPushAll push rest s c).bind fun r => push x r.1 r.2

/-- The message rows are all codable in the states the loop reaches. -/
def AllCodable {α σ : Type} (push : α → St → σ → Option (St × σ)) (V : σ → α → Prop) :
    List α → St → σ → Prop
  | [], _, _ => True
  | x :: rest, s, c => AllCodable push V rest s c ∧
      ∀ r, aPushAll push rest s c = some r → V r.2 x

theorem pushAll_ref {α σ : Type} {cap L : Nat} {codec : Codec α σ}
    {push : α → St → σ → Option (St × σ)} {V : σ → α → Prop} {R : σ → σ → Prop}
    (h : Lossless cap L codec push V R) : ∀ (msg : List α) {m : Msg} {s s' : St} {c c' : σ},
    Abs cap m s → Ok L s → AllCodable push V msg s c → aPushAll push msg s c = some (s', c') →
    Ok L s' ∧ ∃ m', pushAll codec msg m c = .ok (m', c') ∧ Abs cap m' s' := by
  intro msg
  induction msg with
  | nil =>
    intro m s s' c c' hm hs _ he
    obtain ⟨rfl, rfl⟩ : s = s' ∧ c = c' := by simpa [aPushAll] using he
    exact ⟨hs, m, rfl, hm⟩
  | cons x rest ih =>
    intro m s s' c c' hm hs hcod he
    obtain ⟨hc1, hc2⟩ := hcod
    simp only [aPushAll] at he
    rcases h1 : aPushAll push rest s c with _ | ⟨s1, c1⟩
    · simp [h1] at he
    simp only [h1, Option.bind_some] at he
    obtain ⟨hok1, m1, hm1, ha1⟩ := ih hm hs hc1 h1
    obtain ⟨hok2, m2, hm2, ha2⟩ := h.fwd ha1 hok1 (hc2 _ h1) he
    refine ⟨hok2, m2, ?_, ha2⟩
    simp only [pushAll, hm1]
    exact hm2

theorem aPushAll_ok {α σ : Type} {L : Nat}
    {push : α → St → σ → Option (St × σ)} {V : σ → α → Prop}
    (hok : ∀ {s x c s' c'}, Ok L s → V c x → push x s c = some (s', c') → Ok L s') :
    ∀ (msg : List α) {s s' : St} {c c' : σ}, Ok L s → AllCodable push V msg s c →
    aPushAll push msg s c = some (s', c') → Ok L s' := by
  intro msg
  induction msg with
  | nil =>
    intro s s' c c' hs _ he
    obtain ⟨rfl, rfl⟩ : s = s' ∧ c = c' := by simpa [aPushAll] using he
    exact hs
  | cons x rest ih =>
    intro s s' c c' hs hcod he
    obtain ⟨hc1, hc2⟩ := hcod
    simp only [aPushAll] at he
    rcases h1 : aPushAll push rest s c with _ | ⟨s1, c1⟩
    · simp [h1] at he
    simp only [h1, Option.bind_some] at he
    exact hok (ih hs hc1 h1) (hc2 _ h1) he

theorem popAll_ref {α σ : Type} {cap L : Nat} {codec : Codec α σ}
    {push : α → St → σ → Option (St × σ)} {V : σ → α → Prop} {R : σ → σ → Prop}
    (h : Lossless cap L codec push V R) (hok : ∀ {s x c s' c'}, Ok L s → V c x →
      push x s c = some (s', c') → Ok L s') :
    ∀ (msg : List α) {m' : Msg} {s s' : St} {c c' t' : σ},
    Ok L s → AllCodable push V msg s c → aPushAll push msg s c = some (s', c') → Abs cap m' s' →
    R c' t' → ∃ t m, popAll codec msg.length m' t' = .ok (m, msg, t) ∧ Abs cap m s ∧ R c t := by
  intro msg
  induction msg with
  | nil =>
    intro m' s s' c c' t' hs _ he hm hR
    obtain ⟨rfl, rfl⟩ : s = s' ∧ c = c' := by simpa [aPushAll] using he
    exact ⟨t', m', rfl, hm, hR⟩
  | cons x rest ih =>
    intro m' s s' c c' t' hs hcod he hm hR
    obtain ⟨hc1, hc2⟩ := hcod
    simp only [aPushAll] at he
    rcases h1 : aPushAll push rest s c with _ | ⟨s1, c1⟩
    · simp [h1] at he
    simp only [h1, Option.bind_some] at he
    have hok1 : Ok L s1 := aPushAll_ok hok rest hs hc1 h1
    obtain ⟨t1, m1, hp1, ha1, hR1⟩ := h.back hok1 (hc2 _ h1) he hm hR
    obtain ⟨t, m, hp, ha, hRt⟩ := ih hs hc1 h1 ha1 hR1
    refine ⟨t, m, ?_, ha, hRt⟩
    simp only [List.length_cons, popAll, hp1]
    show (popAll codec rest.length m1 t1 >>= _) = _
    rw [hp]
    rfl

end Verif.Rans
