import Verif.Basic
import Verif.Diffusion.Example
import Mathlib.Data.Real.Basic
import Mathlib.Algebra.Order.Round
import Mathlib.Algebra.Order.Archimedean.Real.Basic
import Mathlib.Tactic.FieldSimp

/-
Properties C19-C22 and C64 of the diffusion bits-back codec.
-/
namespace Verif.Diffusion

variable {M D R Λ P I : Type}

theorem encodeCore_ok {S : Setup M D R Λ P I} {s s' : State M} {d : D} {m : M}
    (h : encodeCore S s d = (s', .ok m)) :
    ∃ k m1 ls, posteriorPop S (S.toData d) S.steps [] s.counters s.message = (k, some (m1, ls)) ∧
      s'.message = m ∧ s'.dataCount = s.dataCount + 1 ∧
      m = (priorPush S 1 ls (trackPush S (likelihood S ls) 0 k m1 d).1
        ((likelihood S ls).push m1 d)).2 ∧
      s'.counters = (priorPush S 1 ls (trackPush S (likelihood S ls) 0 k m1 d).1
        ((likelihood S ls).push m1 d)).1 ∧ s'.initialBytes = s.initialBytes ∧
      s'.extraBytes = if s.dataCount = 0 then s.initialBytes - S.nbytes m1 else s.extraBytes := by
  unfold encodeCore at h
  rcases hp : posteriorPop S (S.toData d) S.steps [] s.counters s.message with ⟨k, _ | ⟨m1, ls⟩⟩
  · rw [hp] at h; simp at h
  · rw [hp] at h
    simp only [Prod.mk.injEq, Except.ok.injEq] at h
    obtain ⟨rfl, rfl⟩ := h
    exact ⟨k, m1, ls, rfl, rfl, rfl, rfl, rfl, rfl, rfl⟩

theorem encode_ok {S : Setup M D R Λ P I} {rg sh : D → Bool} {s s' : State M} {d : D} {m : M}
    (h : encode S rg sh s d = (s', .ok m)) :
    rg d = true ∧ sh d = true ∧ encodeCore S s d = (s', .ok m) := by
  unfold encode at h
  by_cases h1 : rg d = true
  · by_cases h2 : sh d = true
    · simp only [h1, h2, Bool.not_true, Bool.false_eq_true, if_false] at h
      exact ⟨h1, h2, h⟩
    · simp [h1, h2] at h
  · simp [h1] at h

theorem decode_ok {S : Setup M D R Λ P I} {s s' : State M} {d : D} {m : M}
    (h : decode S s = (s', .ok (m, d))) :
    ∃ k m1 ls k1 m2, priorPop S S.steps [] s.counters s.message = (k, some (m1, ls)) ∧
      trackPop S (likelihood S ls) 0 k m1 = (k1, some (m2, d)) ∧
      s'.message = m ∧ s'.dataCount = s.dataCount - 1 ∧
      m = (posteriorPush S (S.toData d) 1 ls k1 m2).2 ∧
      s'.counters = (posteriorPush S (S.toData d) 1 ls k1 m2).1 ∧
      s'.initialBytes = s.initialBytes ∧ s'.extraBytes = s.extraBytes := by
  unfold decode at h
  rcases hp : priorPop S S.steps [] s.counters s.message with ⟨k, _ | ⟨m1, ls⟩⟩
  · rw [hp] at h; simp at h
  · rw [hp] at h
    simp only at h
    rcases hq : trackPop S (likelihood S ls) 0 k m1 with ⟨k1, _ | ⟨m2, d1⟩⟩
    · rw [hq] at h; simp at h
    · rw [hq] at h
      simp only [Prod.mk.injEq, Except.ok.injEq] at h
      obtain ⟨rfl, rfl, rfl⟩ := h
      exact ⟨k, m1, ls, k1, m2, rfl, hq, rfl, rfl, rfl, rfl, rfl, rfl⟩

theorem likelihood_lawful {S : Setup M D R Λ P I} {VI : I → Prop} {VD : D → Prop}
    (hS : CoderOk S VI VD) (ls : List (DiscrLatent I P)) : Lawful (likelihood S ls) VD := by
  cases ls with
  | nil => exact hS.obs _
  | cons d ds => exact hS.obs _

/-- Decoding from the message that `encode` left behind, whatever the other attributes are. -/
theorem decode_of_encode {S : Setup M D R Λ P I} {VI : I → Prop} {VD : D → Prop} (hS : CoderOk S VI VD)
    {inRange shapeOk : D → Bool} (hV : ∀ d, inRange d = true → shapeOk d = true → VD d)
    {s s' t : State M} {d : D} {m : M} (h : encode S inRange shapeOk s d = (s', .ok m))
    (ht : t.message = s'.message) :
    ∃ t', decode S t = (t', .ok (s.message, d)) ∧ t'.message = s.message ∧
      t'.dataCount = t.dataCount - 1 ∧ s'.message = m ∧ s'.dataCount = s.dataCount + 1 := by
  obtain ⟨h1, h2, h⟩ := encode_ok h
  have hd := hV d h1 h2
  obtain ⟨k, m1, ls, hp, hm, hc, hmm, hk, -, -⟩ := encodeCore_ok h
  obtain ⟨c1, c2, c3⟩ := posteriorPop_spec S hS (S.toData d) S.steps [] s.counters s.message m1 ls
    trivial (by rw [hp])
  obtain ⟨k1, e1⟩ := priorPop_push S hS ls 0 (trackPush S (likelihood S ls) 0 k m1 d).1 t.counters
    ((likelihood S ls).push m1 d) c1
  rw [Nat.zero_add, c2, List.length_nil, Nat.add_zero, Nat.zero_add, ← hmm, ← hm, ← ht] at e1
  simp only [priorPop] at e1
  have hq := (likelihood_lawful hS ls).pop_push m1 d hd
  have ht := fun k => trackPop_snd S (likelihood S ls) 0 k ((likelihood S ls).push m1 d)
  rw [hq] at ht
  unfold decode
  rcases hpp : priorPop S S.steps [] t.counters t.message with ⟨k2, r⟩
  rw [hpp] at e1
  simp only at e1
  subst e1
  simp only
  rcases htt : trackPop S (likelihood S ls) 0 k2 ((likelihood S ls).push m1 d) with ⟨k3, r⟩
  have e3 := ht k2
  rw [htt] at e3
  simp only at e3
  subst e3
  simp only
  obtain ⟨k4, e4⟩ := c3 k3
  have e5 : (posteriorPush S (S.toData d) 1 ls k3 m1).2 = s.message := by rw [e4]; rfl
  rw [e5]
  exact ⟨_, rfl, rfl, rfl, hm, hc⟩

/-- **C19.**  For every network, number of steps, state and accepted data point: if `encode`
succeeds, then `decode` returns that data point, the message is exactly the one before, and so is the
number of encoded data points. -/
theorem C19_lossless {S : Setup M D R Λ P I} {VI : I → Prop} {VD : D → Prop} (hS : CoderOk S VI VD)
    {inRange shapeOk : D → Bool} (hV : ∀ d, inRange d = true → shapeOk d = true → VD d)
    {s s' : State M} {d : D} {m : M} (h : encode S inRange shapeOk s d = (s', .ok m)) :
    ∃ s'', decode S s' = (s'', .ok (s.message, d)) ∧ s''.message = s.message ∧
      s''.dataCount = s.dataCount ∧ s'.message = m ∧ s'.dataCount = s.dataCount + 1 := by
  obtain ⟨t, h1, h2, h3, h4, h5⟩ := decode_of_encode hS hV h rfl
  exact ⟨t, h1, h2, by rw [h3, h5]; ring, h4, h5⟩

/-- The converse direction, which makes the free bits come back: whatever `decode` returns is
accepted by `encode`, and encoding it again gives exactly the message before. -/
theorem C19_decode_encode {S : Setup M D R Λ P I} {VI : I → Prop} {VD : D → Prop} (hS : CoderOk S VI VD)
    {inRange shapeOk : D → Bool} (hV : ∀ d, VD d → inRange d = true ∧ shapeOk d = true)
    {s s' : State M} {d : D} {m : M} (h : decode S s = (s', .ok (m, d))) :
    ∃ s'', encode S inRange shapeOk s' d = (s'', .ok s.message) ∧ s''.message = s.message ∧
      s''.dataCount = s.dataCount := by
  obtain ⟨k, m1, ls, k1, m2, hp, hq, hm, hc, hmm, hk, -, -⟩ := decode_ok h
  have hq' : (likelihood S ls).pop m1 = some (m2, d) := by
    rw [← trackPop_snd S (likelihood S ls) 0 k m1, hq]
  obtain ⟨hd, hpush⟩ := (likelihood_lawful hS ls).push_pop _ _ _ hq'
  obtain ⟨c1, c2, c3⟩ := priorPop_spec S hS S.steps [] s.counters s.message m1 ls
    trivial (by rw [hp])
  obtain ⟨g1, g2⟩ := hV d hd
  obtain ⟨k2, e1⟩ := posteriorPop_push S hS (S.toData d) ls 0 k1 s'.counters m2 c1
  rw [Nat.zero_add, c2, List.length_nil, Nat.add_zero, Nat.zero_add, ← hmm, ← hm] at e1
  simp only [posteriorPop] at e1
  unfold encode encodeCore
  simp only [g1, g2, Bool.not_true, Bool.false_eq_true, if_false]
  rcases hpp : posteriorPop S (S.toData d) S.steps [] s'.counters s'.message with ⟨k3, r⟩
  rw [hpp] at e1
  simp only at e1
  subst e1
  simp only [trackPush_snd, hpush]
  obtain ⟨k4, e4⟩ := c3 (trackPush S (likelihood S ls) 0 k3 m2 d).1
  have e5 : (priorPush S 1 ls (trackPush S (likelihood S ls) 0 k3 m2 d).1 m1).2 = s.message := by
    rw [e4]; rfl
  rw [e5]
  refine ⟨_, rfl, rfl, ?_⟩
  show s'.dataCount + 1 = _
  rw [hc]; ring

/-- C19 is not vacuous: three steps, a coder with network-dependent frequencies. -/
example :
    let r := encode Example.S (arrInRange 8) (arrShapeOk [1, 1, 1, 1]) Example.start (Example.pix 77)
    r.2 = .ok 35555554047 ∧ (decode Example.S r.1).2 = .ok (123456789, Example.pix 77) := by
  decide +kernel

theorem decodeN_append (S : Setup M D R Λ P I) : ∀ (n : Nat) (k : Nat) (s s1 s2 : State M) (xs ys : List D),
    decodeN S n s = (s1, .ok xs) → decodeN S k s1 = (s2, .ok ys) →
    decodeN S (n + k) s = (s2, .ok (xs ++ ys)) := by
  intro n
  induction n with
  | zero =>
    intro k s s1 s2 xs ys h1 h2
    simp only [decodeN, Prod.mk.injEq, Except.ok.injEq] at h1
    obtain ⟨rfl, rfl⟩ := h1
    simpa using h2
  | succ n ih =>
    intro k s s1 s2 xs ys h1 h2
    rw [show n + 1 + k = (n + k) + 1 by omega]
    simp only [decodeN] at h1 ⊢
    rcases hd : decode S s with ⟨t, e | ⟨m, d⟩⟩
    · rw [hd] at h1; simp at h1
    · rw [hd] at h1
      simp only at h1 ⊢
      rcases hn : decodeN S n t with ⟨t', e | zs⟩
      · rw [hn] at h1; simp at h1
      · rw [hn] at h1
        simp only [Prod.mk.injEq, Except.ok.injEq] at h1
        obtain ⟨rfl, rfl⟩ := h1
        rw [ih k t t' s2 zs ys hn h2]
        rfl

theorem encodeAll_decodeN {S : Setup M D R Λ P I} {VI : I → Prop} {VD : D → Prop} (hS : CoderOk S VI VD)
    {inRange shapeOk : D → Bool} (hV : ∀ d, inRange d = true → shapeOk d = true → VD d) :
    ∀ (ds : List D) (s s' t : State M), encodeAll S inRange shapeOk ds s = (s', .ok ()) →
      t.message = s'.message → ∃ t', decodeN S ds.length t = (t', .ok ds.reverse) ∧
        t'.message = s.message ∧ t'.dataCount = t.dataCount - ds.length ∧
        s'.dataCount = s.dataCount + ds.length := by
  intro ds
  induction ds with
  | nil =>
    intro s s' t h ht
    simp only [encodeAll, Prod.mk.injEq, and_true] at h
    subst h
    exact ⟨t, rfl, ht, by simp, by simp⟩
  | cons d ds ih =>
    intro s s' t h ht
    simp only [encodeAll] at h
    rcases he : encode S inRange shapeOk s d with ⟨s1, e | m⟩
    · rw [he] at h; simp at h
    · rw [he] at h
      obtain ⟨t1, g1, g2, g3, g4⟩ := ih s1 s' t h ht
      obtain ⟨t2, f1, f2, f3, f4, f5⟩ := decode_of_encode hS hV he g2
      refine ⟨t2, ?_, f2, ?_, ?_⟩
      · rw [List.length_cons, List.reverse_cons]
        refine decodeN_append S _ 1 _ _ _ _ _ g1 ?_
        simp only [decodeN, f1]
      · rw [f3, g3, List.length_cons]; push_cast; ring
      · rw [g4, f5, List.length_cons]; push_cast; ring

/-- **C20.**  For every sequence of data points (unbounded length): after encoding all of them,
decoding as many returns them in reverse order, the message is exactly the initial one and the number
of encoded data points is back at its initial value. -/
theorem C20_lifo {S : Setup M D R Λ P I} {VI : I → Prop} {VD : D → Prop} (hS : CoderOk S VI VD)
    {inRange shapeOk : D → Bool} (hV : ∀ d, inRange d = true → shapeOk d = true → VD d)
    {ds : List D} {s s' : State M} (h : encodeAll S inRange shapeOk ds s = (s', .ok ())) :
    s'.dataCount = s.dataCount + ds.length ∧
    ∃ s'', decodeN S ds.length s' = (s'', .ok ds.reverse) ∧
      s''.message = s.message ∧ s''.dataCount = s.dataCount := by
  obtain ⟨t, h1, h2, h3, h4⟩ := encodeAll_decodeN hS hV ds s s' s' h rfl
  exact ⟨h4, t, h1, h2, by rw [h3, h4]; ring⟩

/-- C20 is not vacuous. -/
example :
    let r := encodeAll Example.S (arrInRange 8) (arrShapeOk [1, 1, 1, 1])
      [Example.pix 77, Example.pix 0, Example.pix 255] Example.start
    r.2 = .ok () ∧ r.1.message ≠ Example.start.message ∧
    (decodeN Example.S 3 r.1).2 = .ok [Example.pix 255, Example.pix 0, Example.pix 77] := by
  decide +kernel

/-! ### C22 -/

/-- **C22.**  `encode` raises `ValueError` exactly for data with a value outside
`[0, 2^data_prec - 1]`, without values, or of the wrong shape, and then nothing at all changes. -/
theorem C22_rejects (S : Setup M Arr R Λ P I) (prec : Nat) (shape : List Nat) (s : State M) (d : Arr) :
    ((∃ v ∈ d.vals, v < 0 ∨ (2 : Int) ^ prec ≤ v) ∨ d.vals = [] ∨ d.shape ≠ shape ↔
      (encode S (arrInRange prec) (arrShapeOk shape) s d).2 = .error .value) ∧
    ((encode S (arrInRange prec) (arrShapeOk shape) s d).2 = .error .value →
      (encode S (arrInRange prec) (arrShapeOk shape) s d).1 = s) := by
  have hcore : (encodeCore S s d).2 ≠ .error .value := by
    unfold encodeCore
    rcases posteriorPop S (S.toData d) S.steps [] s.counters s.message with ⟨k, _ | ⟨m1, ls⟩⟩ <;>
      simp
  have hr : arrInRange prec d = false ↔ (∃ v ∈ d.vals, v < 0 ∨ (2 : Int) ^ prec ≤ v) ∨ d.vals = [] := by
    simp only [arrInRange, Bool.and_eq_false_iff, Bool.not_eq_false', List.isEmpty_iff, List.all_eq_false,
      Bool.and_eq_true, decide_eq_true_eq, not_and_or, not_le]
    constructor
    · rintro (h | ⟨v, hv, h⟩)
      · exact Or.inr h
      · exact Or.inl ⟨v, hv, by omega⟩
    · rintro (⟨v, hv, h⟩ | h)
      · exact Or.inr ⟨v, hv, by omega⟩
      · exact Or.inl h
  have hs : arrShapeOk shape d = false ↔ d.shape ≠ shape := by simp [arrShapeOk]
  rw [← or_assoc, ← hr, ← hs]
  unfold encode
  cases arrInRange prec d <;> cases arrShapeOk shape d <;> simp [hcore]

/-- Also when the message is exhausted, the message and the number of data points are unchanged. -/
theorem C22_exhausted (S : Setup M D R Λ P I) (inRange shapeOk : D → Bool) (s s' : State M) (d : D)
    (e : Err) (h : encode S inRange shapeOk s d = (s', .error e)) :
    s'.message = s.message ∧ s'.dataCount = s.dataCount ∧ s'.extraBytes = s.extraBytes := by
  unfold encode at h
  split at h
  · simp only [Prod.mk.injEq] at h; rw [← h.1]; exact ⟨rfl, rfl, rfl⟩
  split at h
  · simp only [Prod.mk.injEq] at h; rw [← h.1]; exact ⟨rfl, rfl, rfl⟩
  unfold encodeCore at h
  rcases hp : posteriorPop S (S.toData d) S.steps [] s.counters s.message with ⟨k, _ | ⟨m1, ls⟩⟩
  · rw [hp] at h; simp only [Prod.mk.injEq] at h; rw [← h.1]; exact ⟨rfl, rfl, rfl⟩
  · rw [hp] at h; simp at h

example : (encode Example.S (arrInRange 8) (arrShapeOk [1, 1, 1, 1]) Example.start (Example.pix 256)).2 =
    .error .value ∧
    (encode Example.S (arrInRange 8) (arrShapeOk [1, 1, 1, 1]) Example.start (Example.pix 255)).2 ≠
    .error .value := by decide +kernel

/-! ### C64: the byte statistics add up -/

/-- **C64.**  With tracking on, over any history of successful `encode` and `decode` calls, bytes
pushed minus bytes popped, summed over all steps, changes exactly as the size of the message. -/
theorem C64_tracking (S : Setup M D R Λ P I) (ht : S.track = true) (inRange shapeOk : D → Bool)
    (s s' : State M) :
    (∀ d m, encode S inRange shapeOk s d = (s', .ok m) →
      (total S.steps s'.counters.push - total S.steps s'.counters.pop) -
        (total S.steps s.counters.push - total S.steps s.counters.pop) =
        S.nbytes s'.message - S.nbytes s.message) ∧
    (∀ d m, decode S s = (s', .ok (m, d)) →
      (total S.steps s'.counters.push - total S.steps s'.counters.pop) -
        (total S.steps s.counters.push - total S.steps s.counters.pop) =
        S.nbytes s'.message - S.nbytes s.message) := by
  constructor
  · intro d m h
    obtain ⟨-, -, h⟩ := encode_ok h
    obtain ⟨k, m1, ls, hp, hm, hc, hmm, hk, -, -⟩ := encodeCore_ok h
    obtain ⟨n1, n2⟩ := posteriorPop_net S ht _ _ _ _ _ _ _ _ le_rfl hp
    have n3 := trackPush_net S ht (likelihood S ls) 0 (Nat.zero_le _) k m1 d
    have n4 := priorPush_net S ht ls 1 (trackPush S (likelihood S ls) 0 k m1 d).1
      ((likelihood S ls).push m1 d) (by rw [n2, List.length_nil]; omega)
    rw [trackPush_snd] at n3
    rw [← hmm, ← hk, ← hm] at n4
    unfold net at n1 n3 n4
    omega
  · intro d m h
    obtain ⟨k, m1, ls, k1, m2, hp, hq, hm, hc, hmm, hk, -, -⟩ := decode_ok h
    obtain ⟨n1, n2⟩ := priorPop_net S ht _ _ _ _ _ _ _ le_rfl hp
    have n3 := trackPop_net S ht _ 0 (Nat.zero_le _) _ _ _ _ _ hq
    have n4 := posteriorPush_net S ht (S.toData d) ls 1 k1 m2 (by rw [n2, List.length_nil]; omega)
    rw [← hmm, ← hk, ← hm] at n4
    unfold net at n1 n3 n4
    omega

end Verif.Diffusion
