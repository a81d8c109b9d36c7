import Verif.Rans.PropsCapacity
import Mathlib.InformationTheory.Coding.KraftMcMillan

/-!
# C143: the codes of the rANS coder may be followed by other data, are a prefix code, and are nearly the shortest possible

A code is the 4 bytes of each head, one free byte and the stack, its top first.  Bytes after a code lie below the stack, where
decoding does not come.
-/

namespace Verif.Rans

/-! ### Bytes below the stack do not change the run -/

theorem aPushStep_under {cap shift : Nat} {freqs : List Nat} {s s' : St} (z : List Nat)
    (h : aPushStep cap shift freqs s = some s') :
    aPushStep (cap + z.length) shift freqs ⟨s.heads, s.stack ++ z⟩ = some ⟨s'.heads, s'.stack ++ z⟩ := by
  simp only [aPushStep] at h ⊢
  split at h
  · rename_i hc
    cases h
    rw [if_pos (by simp only [List.length_append]; omega)]
    simp only [List.append_assoc]
  · cases h

theorem aPush_under {cap p : Nat} {slots : List Slot} {s s' : St} (z : List Nat) (h : aPush cap p slots s = some s') :
    aPush (cap + z.length) p slots ⟨s.heads, s.stack ++ z⟩ = some ⟨s'.heads, s'.stack ++ z⟩ := by
  simp only [aPush, Option.bind_eq_some_iff, Option.map_eq_some_iff] at h
  obtain ⟨s1, h1, s2, h2, s3, h3, rfl⟩ := h
  simp only [aPush, aPushStep_under z h1, aPushStep_under z h2, aPushStep_under z h3, Option.bind_some, Option.map_some]

theorem aPushAll_under {σ : Type} {cdf : CdfFun σ} {icdf : InvCdfFun σ} {cap p width : Nat} (z : List Nat) :
    ∀ (msg : List (List Nat)) {s s' : St} {c c' : σ},
    aPushAll (aDefault cap p width cdf icdf).push msg s c = some (s', c') →
    aPushAll (aDefault (cap + z.length) p width cdf icdf).push msg ⟨s.heads, s.stack ++ z⟩ c =
      some (⟨s'.heads, s'.stack ++ z⟩, c')
  | [], s, s', c, c', h => by
    simp only [aPushAll, Option.some.injEq, Prod.mk.injEq] at h ⊢
    obtain ⟨rfl, rfl⟩ := h
    exact ⟨rfl, rfl⟩
  | x :: rest, s, s', c, c', h => by
    simp only [aPushAll, Option.bind_eq_some_iff] at h
    obtain ⟨⟨s1, c1⟩, h1, h2⟩ := h
    simp only [aPushAll, aPushAll_under z rest h1, Option.bind_some]
    simp only [aDefault, Option.map_eq_some_iff, Prod.mk.injEq] at h2 ⊢
    obtain ⟨s2, h3, rfl, rfl⟩ := h2
    exact ⟨_, aPush_under z h3, rfl, rfl⟩

section
variable {σ : Type} {cdf : CdfFun σ} {icdf : InvCdfFun σ} {p L width cap : Nat} {V : σ → List Nat → Prop} {R : σ → σ → Prop}

/-- **C143, other data.** Whatever bytes follow a code, decoding returns the message, and below the buffer the message was pushed
on, exactly the bytes that followed. -/
theorem C143_suffix (hp : p ≤ 24) (hL : 1 ≤ L) (hLc : L ≤ cap) (h : CdfPair cdf icdf p L width V R)
    {msg : List (List Nat)} {c c' t' : σ} (hcod : Codable cdf V msg c c') (hR : R c' t')
    {start : Option (List Nat)} (hst : StartOk L cap start)
    (hroom : startBytes L start + 3 * L * msg.length + 1 ≤ cap) {rnd : List Nat} (hr : rnd.length = cap)
    (hrb : ∀ x ∈ rnd, x < 256) (init : σ) (ae : Bool) :
    ∃ out, encodeOne (defaultCodec cdf icdf init p width ae) c L cap rnd start msg = .ok (out, c') ∧
      4 * L + 1 ≤ out.length ∧ (∀ x ∈ out, x < 256) ∧
      ∀ z : List Nat, (∀ x ∈ z, x < 256) → ∀ cap', cap + z.length ≤ cap' →
        ∃ t, decodeOne (defaultCodec cdf icdf init p width ae) t' L cap' msg.length (out ++ z) =
          .ok (msg, start.getD (freshBuffer L) ++ z, t) ∧ R c t := by
  obtain ⟨s, hsa, hok, hlen, hbytes⟩ := startsAs_of hst
  obtain ⟨s', hrun, hok', hl'⟩ := default_run_room hp h msg (cap := cap) hok hcod (by omega)
  obtain ⟨ha1, _⟩ := codable_run (icdf := icdf) (cap := cap) (p := p) (width := width) msg (s := s) hcod
  obtain ⟨junk, hj, he, _, hle⟩ := encodeOne_spec hL hLc (default_lossless hp hLc h init ae) hr hrb hsa ha1 hrun
  refine ⟨_, he, ?_, ?_, ?_⟩
  · simp only [List.length_append, planes_length, hok'.lanes, List.length_cons]
    omega
  · have hv : ValidBuffer L (planes s'.heads ++ junk :: s'.stack) := planes_valid hok'.lanes hok'.range (by
      intro x hx
      rcases List.mem_cons.1 hx with rfl | hx
      · exact hj
      · exact hok'.bytes x hx)
    exact hv.bytes
  · intro z hz cap' hcap
    have hoz : Ok L ⟨s.heads, s.stack ++ z⟩ := ⟨hok.lanes, hok.range, by
      intro x hx
      rcases List.mem_append.1 hx with hx | hx
      · exact hok.bytes x hx
      · exact hz x hx⟩
    obtain ⟨t, hd, hRt⟩ := default_decode hp (by omega : L ≤ cap + z.length) h init ae hj hoz hcod
      (aPushAll_under z msg hrun) hcap (by simp only [List.length_append]; omega) hR
    refine ⟨t, ?_, hRt⟩
    rw [← hbytes]
    simpa only [List.append_assoc, List.cons_append] using hd

/-! ### Prefix code -/

/-- **C143, prefix code.** Of two messages with the same number of rows that a decoder can start on in the same state, the code of
the one is never the beginning of the code of the other, nor equal to it. -/
theorem C143_prefix (hp : p ≤ 24) (hL : 1 ≤ L) (hLc : L ≤ cap) (h : CdfPair cdf icdf p L width V R)
    {a b : List (List Nat)} (hab : a.length = b.length) {c ca cb t' : σ} (ha : Codable cdf V a c ca)
    (hb : Codable cdf V b c cb) (hRa : R ca t') (hRb : R cb t') (hroom : 3 * L * a.length + 1 ≤ cap) {rnd : List Nat}
    (hr : rnd.length = cap) (hrb : ∀ x ∈ rnd, x < 256) (init : σ) (ae : Bool) {x y : List Nat} {ca' cb' : σ}
    (hx : encodeOne (defaultCodec cdf icdf init p width ae) c L cap rnd none a = .ok (x, ca'))
    (hy : encodeOne (defaultCodec cdf icdf init p width ae) c L cap rnd none b = .ok (y, cb')) (hxy : x <+: y) : a = b := by
  obtain ⟨x', e1, _, _, d1⟩ := C143_suffix hp hL hLc h ha hRa (start := none) trivial (by simpa [startBytes] using hroom) hr hrb init ae
  obtain ⟨y', e2, _, b2, d2⟩ := C143_suffix hp hL hLc h hb hRb (start := none) trivial
    (by rw [← hab]; simpa [startBytes] using hroom) hr hrb init ae
  rw [hx] at e1
  rw [hy] at e2
  simp only [Except.ok.injEq, Prod.mk.injEq] at e1 e2
  obtain ⟨rfl, -⟩ := e1
  obtain ⟨rfl, -⟩ := e2
  obtain ⟨z, rfl⟩ := hxy
  obtain ⟨t1, r1, _⟩ := d1 z (fun v hv => b2 v (by simp [hv])) (cap + z.length) (le_refl _)
  obtain ⟨t2, r2, _⟩ := d2 [] (by simp) (cap + z.length) (by simp)
  rw [List.append_nil, ← hab, r1] at r2
  simp only [Except.ok.injEq, Prod.mk.injEq] at r2
  exact r2.1

/-- A set of messages of `n` rows with their codes. -/
structure Codes (cdf : CdfFun σ) (icdf : InvCdfFun σ) (init : σ) (p width : Nat) (ae : Bool) (L cap : Nat) (rnd : List Nat)
    (V : σ → List Nat → Prop) (R : σ → σ → Prop) (c t' : σ) (n : Nat) (M : Finset (List (List Nat)))
    (code : List (List Nat) → List Nat) : Prop where
  prec : p ≤ 24
  lanes : 1 ≤ L
  lanes_le : L ≤ cap
  pair : CdfPair cdf icdf p L width V R
  room : 3 * L * n + 1 ≤ cap
  rnd_len : rnd.length = cap
  rnd_bytes : ∀ x ∈ rnd, x < 256
  rows : ∀ m ∈ M, m.length = n
  codable : ∀ m ∈ M, ∃ c', Codable cdf V m c c' ∧ R c' t'
  code : ∀ m ∈ M, ∃ c', encodeOne (defaultCodec cdf icdf init p width ae) c L cap rnd none m = .ok (code m, c')

variable {init : σ} {ae : Bool} {rnd : List Nat} {c t' : σ} {n : Nat} {M : Finset (List (List Nat))}
  {code : List (List Nat) → List Nat}

theorem Codes.inj (h : Codes cdf icdf init p width ae L cap rnd V R c t' n M code) {a b : List (List Nat)} (ha : a ∈ M)
    (hb : b ∈ M) (hab : code a <+: code b) : a = b := by
  obtain ⟨ca, h1, h2⟩ := h.codable a ha
  obtain ⟨cb, h3, h4⟩ := h.codable b hb
  obtain ⟨_, h5⟩ := h.code a ha
  obtain ⟨_, h6⟩ := h.code b hb
  exact C143_prefix h.prec h.lanes h.lanes_le h.pair ((h.rows a ha).trans (h.rows b hb).symm) h1 h3 h2 h4
    (by rw [h.rows a ha]; exact h.room) h.rnd_len h.rnd_bytes init ae h5 h6 hab

theorem Codes.shape (h : Codes cdf icdf init p width ae L cap rnd V R c t' n M code) {a : List (List Nat)} (ha : a ∈ M) :
    4 * L + 1 ≤ (code a).length ∧ ∀ x ∈ code a, x < 256 := by
  obtain ⟨ca, h1, h2⟩ := h.codable a ha
  obtain ⟨_, h5⟩ := h.code a ha
  obtain ⟨out, e, hl, hb, _⟩ := C143_suffix h.prec h.lanes h.lanes_le h.pair h1 h2 (start := none) trivial
    (by rw [h.rows a ha]; simpa [startBytes] using h.room) h.rnd_len h.rnd_bytes init ae
  rw [h5] at e
  simp only [Except.ok.injEq, Prod.mk.injEq] at e
  rw [e.1]
  exact ⟨hl, hb⟩

/-- **C143, streams.** Codes of messages of the same number of rows may be written one after another without separators: different
sequences of messages, also of different numbers of messages, give different streams. -/
theorem C143_streams (h : Codes cdf icdf init p width ae L cap rnd V R c t' n M code) :
    ∀ (l l' : List (List (List Nat))), (∀ m ∈ l, m ∈ M) → (∀ m ∈ l', m ∈ M) →
    (l.map code).flatten = (l'.map code).flatten → l = l'
  | [], [], _, _, _ => rfl
  | [], b :: l', _, hb, e => by
    have := (h.shape (hb b (by simp))).1
    simp only [List.map_nil, List.flatten_nil, List.map_cons, List.flatten_cons] at e
    rw [(List.append_eq_nil_iff.1 e.symm).1] at this
    simp at this
  | a :: l, [], ha, _, e => by
    have := (h.shape (ha a (by simp))).1
    simp only [List.map_nil, List.flatten_nil, List.map_cons, List.flatten_cons] at e
    rw [(List.append_eq_nil_iff.1 e).1] at this
    simp at this
  | a :: l, b :: l', ha, hb, e => by
    simp only [List.map_cons, List.flatten_cons] at e
    have hab : a = b := by
      rcases List.prefix_or_prefix_of_prefix (List.prefix_append (code a) (l.map code).flatten)
        (e ▸ List.prefix_append (code b) (l'.map code).flatten) with hp | hp
      · exact h.inj (ha a (by simp)) (hb b (by simp)) hp
      · exact (h.inj (hb b (by simp)) (ha a (by simp)) hp).symm
    subst hab
    rw [C143_streams h l l' (fun m hm => ha m (by simp [hm])) (fun m hm => hb m (by simp [hm])) (List.append_cancel_left e)]

/-- **C143, reading streams.** A stream is read message by message: what decoding leaves, without its first `4 L` bytes, is the
rest of the stream. -/
theorem C143_next (h : Codes cdf icdf init p width ae L cap rnd V R c t' n M code) {a : List (List Nat)}
    {l : List (List (List Nat))} (ha : a ∈ M) (hl : ∀ m ∈ l, m ∈ M) {cap' : Nat}
    (hcap : cap + (l.map code).flatten.length ≤ cap') :
    ∃ buf t, decodeOne (defaultCodec cdf icdf init p width ae) t' L cap' n (((a :: l).map code).flatten) = .ok (a, buf, t) ∧
      buf.drop (4 * L) = (l.map code).flatten := by
  obtain ⟨ca, h1, h2⟩ := h.codable a ha
  obtain ⟨_, h5⟩ := h.code a ha
  obtain ⟨out, e, _, _, hd⟩ := C143_suffix h.prec h.lanes h.lanes_le h.pair h1 h2 (start := none) trivial
    (by rw [h.rows a ha]; simpa [startBytes] using h.room) h.rnd_len h.rnd_bytes init ae
  rw [h5] at e
  simp only [Except.ok.injEq, Prod.mk.injEq] at e
  obtain ⟨rfl, -⟩ := e
  obtain ⟨t, r, _⟩ := hd (l.map code).flatten (by
    intro x hx
    obtain ⟨w, hw, hxw⟩ := List.mem_flatten.1 hx
    obtain ⟨m, hm, rfl⟩ := List.mem_map.1 hw
    exact (h.shape (hl m hm)).2 x hxw) cap' hcap
  rw [h.rows a ha] at r
  refine ⟨_, t, r, ?_⟩
  rw [List.drop_left']
  simp [freshBuffer]
  omega

/-! ### Lengths -/

/-- The bytes of a code, as elements of a finite alphabet. -/
def toFin (l : List Nat) : List (Fin 256) := l.map (Fin.ofNat 256)

theorem toFin_val {l : List Nat} (h : ∀ x ∈ l, x < 256) : (toFin l).map Fin.val = l := by
  induction l with
  | nil => rfl
  | cons a l ih =>
    simp only [toFin, List.map_cons, List.map_map] at ih ⊢
    rw [ih fun x hx => h x (by simp [hx])]
    simp [Fin.ofNat, Nat.mod_eq_of_lt (h a (by simp))]

/-- **C143, Kraft's inequality.** -/
theorem C143_kraft (h : Codes cdf icdf init p width ae L cap rnd V R c t' n M code) :
    ∑ m ∈ M, (1 / 2 : ℝ) ^ (8 * (code m).length) ≤ 1 := by
  classical
  have hinj : Set.InjOn (fun m => toFin (code m)) (M : Set (List (List Nat))) := by
    intro a ha b hb hab
    have h1 := toFin_val (h.shape ha).2
    have h2 := toFin_val (h.shape hb).2
    simp only at hab
    rw [hab, h2] at h1
    exact h.inj ha hb (by rw [h1])
  have hud : InformationTheory.UniquelyDecodable (SetLike.coe (M.image fun m => toFin (code m))) := by
    intro l1 l2 h1 h2 e
    have hpre : ∀ l : List (List (Fin 256)), (∀ w ∈ l, w ∈ SetLike.coe (M.image fun m => toFin (code m))) →
        ∃ k : List (List (List Nat)), (∀ m ∈ k, m ∈ M) ∧ l = k.map fun m => toFin (code m) := by
      intro l
      induction l with
      | nil => exact fun _ => ⟨[], by simp, rfl⟩
      | cons w l ih =>
        intro hw
        obtain ⟨k, hk, rfl⟩ := ih fun x hx => hw x (by simp [hx])
        obtain ⟨m, hm, rfl⟩ := Finset.mem_image.1 (Finset.mem_coe.1 (hw w (by simp)))
        exact ⟨m :: k, by
          intro x hx
          rcases List.mem_cons.1 hx with rfl | hx
          · exact hm
          · exact hk x hx, rfl⟩
    obtain ⟨k1, hk1, rfl⟩ := hpre l1 h1
    obtain ⟨k2, hk2, rfl⟩ := hpre l2 h2
    have hback : ∀ k : List (List (List Nat)), (∀ m ∈ k, m ∈ M) →
        ((k.map fun m => toFin (code m)).flatten).map Fin.val = (k.map code).flatten := by
      intro k
      induction k with
      | nil => intro _; rfl
      | cons m k ih =>
        intro hk
        simp only [List.map_cons, List.flatten_cons, List.map_append]
        rw [ih fun x hx => hk x (by simp [hx]), toFin_val (h.shape (hk m (by simp))).2]
    have e' := congrArg (List.map Fin.val) e
    rw [hback k1 hk1, hback k2 hk2] at e'
    rw [C143_streams h k1 k2 hk1 hk2 e']
  have := InformationTheory.kraft_mcmillan_inequality hud
  rw [Finset.sum_image hinj] at this
  refine le_trans (le_of_eq ?_) this
  refine Finset.sum_congr rfl fun m _ => ?_
  rw [pow_mul]
  simp only [toFin, List.length_map, Fintype.card_fin]
  norm_num

/-- **C143, average length.** Whatever the distribution `q` of the messages: on average the codes have at least as many bits as
the entropy of `q`, and at most the cross entropy of the model, `log2 (1 + 2^(p-24))` bits per symbol, and the heads and the free
byte. -/
theorem C143_average (h : Codes cdf icdf init p width ae L cap rnd V R c t' n M code) (q : List (List Nat) → ℝ)
    (h0 : ∀ m ∈ M, 0 ≤ q m) (h1 : ∑ m ∈ M, q m = 1) :
    ∑ m ∈ M, q m * Real.logb 2 (1 / q m) ≤ ∑ m ∈ M, q m * (8 * (code m).length) ∧
    ∑ m ∈ M, q m * (8 * (code m).length) ≤
      ∑ m ∈ M, q m * messageBits cdf p m c + n * (L * Real.logb 2 (1 + 2 ^ p / 2 ^ 24)) + 8 * (4 * L + 1) := by
  have hlog2 : 0 < Real.log 2 := Real.log_pos (by norm_num)
  constructor
  · have hk := C143_kraft h
    have key : ∀ m ∈ M, q m * Real.log (1 / q m) - q m * ((8 * (code m).length) * Real.log 2) ≤
        (1 / 2 : ℝ) ^ (8 * (code m).length) - q m := by
      intro m hm
      rcases (h0 m hm).eq_or_lt with e | hp
      · rw [← e]
        simp
      · have hq : (0 : ℝ) < (1 / 2) ^ (8 * (code m).length) := by positivity
        have := Real.log_le_sub_one_of_pos (div_pos hq hp)
        rw [Real.log_div hq.ne' hp.ne', Real.log_pow, Real.log_div one_ne_zero (by norm_num), Real.log_one] at this
        rw [Real.log_div one_ne_zero hp.ne', Real.log_one]
        have h3 := mul_le_mul_of_nonneg_left this hp.le
        have h4 : q m * ((1 / 2 : ℝ) ^ (8 * (code m).length) / q m - 1) = (1 / 2 : ℝ) ^ (8 * (code m).length) - q m := by
          field_simp
        rw [h4] at h3
        refine le_trans (le_of_eq ?_) h3
        push_cast
        ring
    have hs := Finset.sum_le_sum key
    rw [Finset.sum_sub_distrib, Finset.sum_sub_distrib, h1] at hs
    have hle : ∑ m ∈ M, q m * Real.log (1 / q m) ≤ ∑ m ∈ M, q m * ((8 * (code m).length) * Real.log 2) := by linarith
    have e1 : ∑ m ∈ M, q m * Real.logb 2 (1 / q m) = (∑ m ∈ M, q m * Real.log (1 / q m)) / Real.log 2 := by
      rw [Finset.sum_div]
      exact Finset.sum_congr rfl fun m _ => by rw [Real.logb, mul_div_assoc]
    have e2 : ∑ m ∈ M, q m * (8 * ((code m).length : ℝ)) =
        (∑ m ∈ M, q m * ((8 * (code m).length) * Real.log 2)) / Real.log 2 := by
      rw [Finset.sum_div]
      exact Finset.sum_congr rfl fun m _ => by field_simp
    rw [e1, e2]
    exact div_le_div_of_nonneg_right hle hlog2.le
  · have key : ∀ m ∈ M, q m * (8 * ((code m).length : ℝ)) ≤
        q m * messageBits cdf p m c + q m * (n * (L * Real.logb 2 (1 + 2 ^ p / 2 ^ 24)) + 8 * (4 * L + 1)) := by
      intro m hm
      obtain ⟨cm, hc1, _⟩ := h.codable m hm
      obtain ⟨_, hc2⟩ := h.code m hm
      have hroom := h.room
      rw [← h.rows m hm] at hroom
      obtain ⟨out, e, hlen, hle⟩ := C18_message h.prec h.lanes h.lanes_le h.pair hc1 (by omega) h.rnd_len h.rnd_bytes init ae
      rw [hc2] at e
      simp only [Except.ok.injEq, Prod.mk.injEq] at e
      rw [← e.1, h.rows m hm] at hle
      rw [← e.1] at hlen
      rw [Nat.sub_sub, Nat.cast_sub hlen] at hle
      rw [← mul_add]
      refine mul_le_mul_of_nonneg_left ?_ (h0 m hm)
      push_cast at hle
      linarith
    have hs := Finset.sum_le_sum key
    rw [Finset.sum_add_distrib, ← Finset.sum_mul, h1, one_mul] at hs
    linarith

end

/-! ### Fixed tables -/

/-- All lists with one element of each of the sets. -/
def choices {α : Type} [DecidableEq α] : List (Finset α) → Finset (List α)
  | [] => {[]}
  | A :: As => (A ×ˢ choices As).image fun p => p.1 :: p.2

section
variable {α : Type} [DecidableEq α]

theorem mem_choices : ∀ (As : List (Finset α)) (l : List α), l ∈ choices As ↔ List.Forall₂ (fun A a => a ∈ A) As l
  | [], l => by simp [choices]
  | A :: As, l => by
    simp only [choices, Finset.mem_image, Finset.mem_product, Prod.exists]
    constructor
    · rintro ⟨a, r, ⟨ha, hr⟩, rfl⟩
      exact .cons ha ((mem_choices As r).1 hr)
    · intro h
      cases h with
      | cons ha hr => exact ⟨_, _, ⟨ha, (mem_choices As _).2 hr⟩, rfl⟩

theorem sum_choices (A : Finset α) (As : List (Finset α)) (f : List α → ℝ) :
    ∑ l ∈ choices (A :: As), f l = ∑ a ∈ A, ∑ l ∈ choices As, f (a :: l) := by
  rw [choices, Finset.sum_image, Finset.sum_product]
  rintro ⟨a, b⟩ _ ⟨a', b'⟩ _ h
  simp only [List.cons.injEq] at h
  exact Prod.ext h.1 h.2

/-- The probability of a list of independent elements. -/
noncomputable def indep (fs : List (α → ℝ)) (l : List α) : ℝ := (List.zipWith (fun f a => f a) fs l).prod

/-- Entropy in bits. -/
noncomputable def entropy (A : Finset α) (f : α → ℝ) : ℝ := ∑ a ∈ A, f a * Real.logb 2 (1 / f a)

theorem indep_pos : ∀ (ds : List (Finset α × (α → ℝ))), (∀ d ∈ ds, ∀ a ∈ d.1, 0 < d.2 a) →
    ∀ l ∈ choices (ds.map Prod.fst), 0 < indep (ds.map Prod.snd) l
  | [], _, l, _ => by simp [indep]
  | d :: ds, h, l, hl => by
    have hl := (mem_choices _ _).1 hl
    cases hl with
    | cons ha hr =>
      have := indep_pos ds (fun d' hd => h d' (by simp [hd])) _ ((mem_choices _ _).2 hr)
      simp only [indep, List.map_cons, List.zipWith_cons_cons, List.prod_cons] at this ⊢
      exact mul_pos (h d (by simp) _ ha) this

theorem indep_sum : ∀ (ds : List (Finset α × (α → ℝ))), (∀ d ∈ ds, ∑ a ∈ d.1, d.2 a = 1) →
    ∑ l ∈ choices (ds.map Prod.fst), indep (ds.map Prod.snd) l = 1
  | [], _ => by simp [indep, choices]
  | d :: ds, h => by
    have ih := indep_sum ds fun d' hd => h d' (by simp [hd])
    rw [List.map_cons, sum_choices]
    simp only [indep, List.map_cons, List.zipWith_cons_cons, List.prod_cons, ← Finset.mul_sum] at ih ⊢
    simp only [ih, mul_one]
    exact h d (by simp)

/-- The entropy of independent elements is the sum of their entropies. -/
theorem indep_entropy : ∀ (ds : List (Finset α × (α → ℝ))), (∀ d ∈ ds, ∑ a ∈ d.1, d.2 a = 1) →
    (∀ d ∈ ds, ∀ a ∈ d.1, 0 < d.2 a) →
    entropy (choices (ds.map Prod.fst)) (indep (ds.map Prod.snd)) = (ds.map fun d => entropy d.1 d.2).sum
  | [], _, _ => by simp [indep, choices, entropy]
  | d :: ds, h, hpos => by
    have h' : ∀ d' ∈ ds, ∑ a ∈ d'.1, d'.2 a = 1 := fun d' hd => h d' (by simp [hd])
    have hpos' : ∀ d' ∈ ds, ∀ a ∈ d'.1, 0 < d'.2 a := fun d' hd => hpos d' (by simp [hd])
    have ih := indep_entropy ds h' hpos'
    have hsum := indep_sum ds h'
    have er : ((d :: ds).map fun d => entropy d.1 d.2).sum = entropy d.1 d.2 + (ds.map fun d => entropy d.1 d.2).sum := by simp
    rw [er, ← ih]
    conv_lhs => rw [entropy, List.map_cons, sum_choices]
    have hstep : ∀ a ∈ d.1, ∑ l ∈ choices (ds.map Prod.fst),
        indep (((d :: ds).map Prod.snd)) (a :: l) * Real.logb 2 (1 / indep ((d :: ds).map Prod.snd) (a :: l)) =
        d.2 a * Real.logb 2 (1 / d.2 a) +
          d.2 a * entropy (choices (ds.map Prod.fst)) (indep (ds.map Prod.snd)) := by
      intro a ha
      have e : ∀ l ∈ choices (ds.map Prod.fst),
          indep ((d :: ds).map Prod.snd) (a :: l) * Real.logb 2 (1 / indep ((d :: ds).map Prod.snd) (a :: l)) =
          d.2 a * Real.logb 2 (1 / d.2 a) * indep (ds.map Prod.snd) l +
            d.2 a * (indep (ds.map Prod.snd) l * Real.logb 2 (1 / indep (ds.map Prod.snd) l)) := by
        intro l hl
        have p1 := hpos d (by simp) a ha
        have p2 := indep_pos ds hpos' l hl
        have e1 : indep ((d :: ds).map Prod.snd) (a :: l) = d.2 a * indep (ds.map Prod.snd) l := by simp [indep]
        rw [e1, one_div (d.2 a * indep (ds.map Prod.snd) l), mul_inv,
          Real.logb_mul (inv_ne_zero p1.ne') (inv_ne_zero p2.ne'), ← one_div, ← one_div]
        ring
      rw [Finset.sum_congr rfl e, Finset.sum_add_distrib, ← Finset.mul_sum, ← Finset.mul_sum, hsum, mul_one, entropy]
    rw [Finset.sum_congr rfl hstep, Finset.sum_add_distrib, ← Finset.sum_mul, h d (by simp), one_mul, ← entropy]

end

/-- The probability of a symbol in a table of precision `p`. -/
noncomputable def symbolProb (p : Nat) (t : List Nat) (s : Nat) : ℝ := ((t.getD (s + 1) 0 : ℝ) - t.getD s 0) / 2 ^ p

/-- The entropy of the symbols of a table, in bits. -/
noncomputable def tableEntropy (p : Nat) (t : List Nat) : ℝ :=
  ∑ s ∈ Finset.range (t.length - 1), symbolProb p t s * Real.logb 2 (1 / symbolProb p t s)

/-- The probability of a message of independent symbols, one per lane and row. -/
noncomputable def messageProb (p : Nat) (tbls : List (List Nat)) (msg : List (List Nat)) : ℝ :=
  (msg.map fun row => (List.zipWith (symbolProb p) tbls row).prod).prod

/-- The symbols of a table that have a frequency. -/
def symbols (t : List Nat) : Finset Nat := (Finset.range (t.length - 1)).filter fun s => t.getD s 0 < t.getD (s + 1) 0

section
variable {p : Nat} {tbls : List (List Nat)}

theorem symbolProb_pos {t : List Nat} {s : Nat} (hs : s ∈ symbols t) : 0 < symbolProb p t s := by
  have h1 : t.getD s 0 < t.getD (s + 1) 0 := (Finset.mem_filter.1 hs).2
  have h2 : ((t.getD s 0 : Nat) : ℝ) < (t.getD (s + 1) 0 : Nat) := by exact_mod_cast h1
  unfold symbolProb
  apply div_pos
  · linarith
  · positivity

theorem symbolProb_zero {t : List Nat} (ht : ValidTable p t) {s : Nat} (hs : s ∈ Finset.range (t.length - 1))
    (hn : s ∉ symbols t) : symbolProb p t s = 0 := by
  have hs' := Finset.mem_range.1 hs
  have h1 : ¬ t.getD s 0 < t.getD (s + 1) 0 := fun h => hn (Finset.mem_filter.2 ⟨hs, h⟩)
  have h2 := getD_mono ht.mono (show s ≤ s + 1 by omega) (by omega)
  have h3 : t.getD (s + 1) 0 = t.getD s 0 := by omega
  rw [symbolProb, h3, sub_self, zero_div]

theorem symbolProb_sum {t : List Nat} (ht : ValidTable p t) : ∑ s ∈ symbols t, symbolProb p t s = 1 := by
  have hall : ∑ s ∈ symbols t, symbolProb p t s = ∑ s ∈ Finset.range (t.length - 1), symbolProb p t s :=
    Finset.sum_subset (Finset.filter_subset _ _) fun s hs hn => symbolProb_zero ht hs hn
  rw [hall]
  unfold symbolProb
  rw [← Finset.sum_div, Finset.sum_range_sub (fun s => (t.getD s 0 : ℝ))]
  have h0 : t.getD 0 0 = 0 := by
    have := ht.first
    rw [List.head?_eq_getElem?] at this
    simp [List.getD, this]
  have h1 : t.getD (t.length - 1) 0 = 2 ^ p := by
    have := ht.last
    rw [List.getLast?_eq_getElem?] at this
    simp only [List.getD, this, Option.getD_some]
  rw [h0, h1]
  push_cast
  rw [sub_zero, div_self (by positivity)]

theorem tableEntropy_eq {t : List Nat} (ht : ValidTable p t) : entropy (symbols t) (symbolProb p t) = tableEntropy p t := by
  unfold entropy tableEntropy
  exact Finset.sum_subset (Finset.filter_subset _ _) fun s hs hn => by rw [symbolProb_zero ht hs hn]; simp

theorem row_mem (x : List Nat) : x ∈ choices (tbls.map symbols) ↔ TableSymbols tbls x := by
  rw [mem_choices, List.forall₂_map_left_iff, TableSymbols]
  have e : (fun (t : List Nat) (s : Nat) => s ∈ symbols t) =
      fun t s => s + 1 < t.length ∧ t.getD s 0 < t.getD (s + 1) 0 := by
    funext t s
    simp only [symbols, Finset.mem_filter, Finset.mem_range, eq_iff_iff]
    constructor <;> rintro ⟨h1, h2⟩ <;> exact ⟨by omega, h2⟩
  rw [e]

theorem msg_mem (n : Nat) (m : List (List Nat)) : m ∈ choices (List.replicate n (choices (tbls.map symbols))) ↔
    m.length = n ∧ ∀ x ∈ m, TableSymbols tbls x := by
  induction n generalizing m with
  | zero =>
    simp only [List.replicate_zero, choices, Finset.mem_singleton]
    constructor
    · rintro rfl; simp
    · intro h; exact List.length_eq_zero_iff.1 h.1
  | succ n ih =>
    rw [mem_choices, List.replicate_succ]
    constructor
    · intro h
      cases h with
      | cons ha hr =>
        obtain ⟨h1, h2⟩ := (ih _).1 ((mem_choices _ _).2 hr)
        refine ⟨by simp [h1], fun x hx => ?_⟩
        rcases List.mem_cons.1 hx with rfl | hx
        · exact (row_mem _).1 ha
        · exact h2 x hx
    · rintro ⟨h1, h2⟩
      cases m with
      | nil => simp at h1
      | cons x m =>
        exact .cons ((row_mem x).2 (h2 x (by simp)))
          ((mem_choices _ _).1 ((ih m).2 ⟨by simpa using h1, fun y hy => h2 y (by simp [hy])⟩))

theorem slotBits_row : ∀ {tbls : List (List Nat)} {x : List Nat}, TableSymbols tbls x →
    0 < (List.zipWith (symbolProb p) tbls x).prod ∧
    slotBits p (List.zipWith (fun t s => t.getD s 0) tbls x) (List.zipWith (fun t s => t.getD (s + 1) 0) tbls x) =
      Real.logb 2 (1 / (List.zipWith (symbolProb p) tbls x).prod) := by
  intro tbls x h
  induction h with
  | nil => simp [slotBits]
  | @cons t s ts ss hd _ ih =>
    obtain ⟨i1, i2⟩ := ih
    have hmem : s ∈ symbols t := Finset.mem_filter.2 ⟨Finset.mem_range.2 (by omega), hd.2⟩
    have hs : 0 < symbolProb p t s := symbolProb_pos hmem
    simp only [List.zipWith_cons_cons, List.prod_cons]
    refine ⟨mul_pos hs i1, ?_⟩
    rw [one_div, mul_inv, Real.logb_mul (inv_ne_zero hs.ne') (inv_ne_zero i1.ne'), ← one_div ((List.zipWith _ _ _).prod), ← i2]
    simp only [slotBits, List.zipWith_cons_cons, List.sum_cons]
    congr 2
    rw [symbolProb, inv_div, Nat.cast_sub hd.2.le]

theorem finalState_table : ∀ (msg : List (List Nat)), finalState tableCdf msg tbls = tbls
  | [] => rfl
  | x :: rest => by
    rw [finalState, finalState_table rest]
    rfl

theorem messageBits_table : ∀ (msg : List (List Nat)), (∀ x ∈ msg, TableSymbols tbls x) →
    0 < messageProb p tbls msg ∧ messageBits tableCdf p msg tbls = Real.logb 2 (1 / messageProb p tbls msg)
  | [], _ => by simp [messageBits, messageProb]
  | x :: rest, h => by
    obtain ⟨i1, i2⟩ := messageBits_table rest fun y hy => h y (by simp [hy])
    obtain ⟨r1, r2⟩ := slotBits_row (p := p) (h x (by simp))
    have e : messageProb p tbls (x :: rest) = (List.zipWith (symbolProb p) tbls x).prod * messageProb p tbls rest := by
      simp [messageProb]
    rw [e]
    refine ⟨mul_pos r1 i1, ?_⟩
    rw [messageBits, i2, finalState_table]
    simp only [tableCdf]
    rw [r2, ← Real.logb_mul (by positivity) (by positivity)]
    congr 1
    rw [one_div, one_div, one_div, mul_inv, mul_comm]

theorem message_entropy (ht : ∀ t ∈ tbls, ValidTable p t) (n : Nat) :
    ∑ m ∈ choices (List.replicate n (choices (tbls.map symbols))), messageProb p tbls m = 1 ∧
    entropy (choices (List.replicate n (choices (tbls.map symbols)))) (messageProb p tbls) =
      n * (tbls.map (tableEntropy p)).sum := by
  let ds := tbls.map fun t => (symbols t, symbolProb p t)
  have hfst : ds.map Prod.fst = tbls.map symbols := by simp [ds]
  have hsnd : ds.map Prod.snd = tbls.map (symbolProb p) := by simp [ds]
  have h1 : ∀ d ∈ ds, ∑ a ∈ d.1, d.2 a = 1 := by
    intro d hd
    obtain ⟨t, h, rfl⟩ := List.mem_map.1 hd
    exact symbolProb_sum (ht t h)
  have h2 : ∀ d ∈ ds, ∀ a ∈ d.1, 0 < d.2 a := by
    intro d hd a ha
    obtain ⟨t, h, rfl⟩ := List.mem_map.1 hd
    exact symbolProb_pos ha
  have r1 := indep_sum ds h1
  have r2 := indep_entropy ds h1 h2
  have r3 := indep_pos ds h2
  let row : Finset (List Nat) × (List Nat → ℝ) := (choices (ds.map Prod.fst), indep (ds.map Prod.snd))
  have q1 := indep_sum (List.replicate n row) fun d hd => by rw [List.eq_of_mem_replicate hd]; exact r1
  have q2 := indep_entropy (List.replicate n row) (fun d hd => by rw [List.eq_of_mem_replicate hd]; exact r1)
    fun d hd a ha => by rw [List.eq_of_mem_replicate hd] at ha ⊢; exact r3 a ha
  have ef : ∀ m ∈ choices (List.replicate n (choices (tbls.map symbols))),
      indep ((List.replicate n row).map Prod.snd) m = messageProb p tbls m := by
    intro m hm
    have hlen := ((msg_mem n m).1 hm).1
    rw [List.map_replicate]
    clear q1 q2 hm
    induction n generalizing m with
    | zero =>
      rw [List.length_eq_zero_iff.1 hlen]
      simp [indep, messageProb]
    | succ n ih =>
      cases m with
      | nil => simp at hlen
      | cons x m =>
        have := ih m (by simpa using hlen)
        simp only [indep, List.replicate_succ, List.zipWith_cons_cons, List.prod_cons, messageProb, List.map_cons] at this ⊢
        rw [this]
        congr 1
        simp only [row, indep, hsnd, List.zipWith_map_left]
  have es : (List.replicate n row).map Prod.fst = List.replicate n (choices (tbls.map symbols)) := by
    rw [List.map_replicate, ← hfst]
  rw [es] at q1 q2
  constructor
  · rw [← q1]
    exact (Finset.sum_congr rfl ef).symm
  · have hq : entropy (choices (List.replicate n (choices (tbls.map symbols)))) (messageProb p tbls) =
        entropy (choices (List.replicate n (choices (tbls.map symbols)))) (indep ((List.replicate n row).map Prod.snd)) := by
      unfold entropy
      exact Finset.sum_congr rfl fun m hm => by rw [ef m hm]
    rw [hq, q2, List.map_replicate, List.sum_replicate, nsmul_eq_mul]
    congr 1
    show entropy (choices (ds.map Prod.fst)) (indep (ds.map Prod.snd)) = _
    rw [r2]
    simp only [ds, List.map_map]
    congr 1
    exact List.map_congr_left fun t h => tableEntropy_eq (ht t h)

/-- **C143, average length for tables.** `M` are all the messages of `n` rows that the tables can code.  If the symbols are
independent and distributed as the tables of the lanes say, the codes have on average `n` times the entropy of the tables, or more
by at most `log2 (1 + 2^(p-24))` bits per symbol, and the heads and the free byte. -/
theorem C143_table (hp : p ≤ 24) (hL : tbls ≠ []) (ht : ∀ t ∈ tbls, ValidTable p t) {width cap n : Nat}
    (hw : ∀ t ∈ tbls, t.length ≤ width + 1) (hLc : tbls.length ≤ cap) (hroom : 3 * tbls.length * n + 1 ≤ cap) {rnd : List Nat}
    (hr : rnd.length = cap) (hrb : ∀ x ∈ rnd, x < 256) (ae : Bool) {M : Finset (List (List Nat))}
    (hM : ∀ m, m ∈ M ↔ m.length = n ∧ ∀ x ∈ m, TableSymbols tbls x) :
    ∃ code : List (List Nat) → List Nat,
      (∀ m ∈ M, encodeOne (fixedArrayCodec tbls p width ae) tbls tbls.length cap rnd none m = .ok (code m, tbls)) ∧
      ∑ m ∈ M, messageProb p tbls m = 1 ∧
      n * (tbls.map (tableEntropy p)).sum ≤ ∑ m ∈ M, messageProb p tbls m * (8 * (code m).length) ∧
      ∑ m ∈ M, messageProb p tbls m * (8 * (code m).length) ≤
        n * (tbls.map (tableEntropy p)).sum + n * (tbls.length * Real.logb 2 (1 + 2 ^ p / 2 ^ 24)) + 8 * (4 * tbls.length + 1) := by
  have hpos : 1 ≤ tbls.length := List.length_pos_iff.2 hL
  obtain rfl : M = choices (List.replicate n (choices (tbls.map symbols))) :=
    Finset.ext fun m => by rw [hM, msg_mem]
  have hex : ∀ m : List (List Nat), ∃ data, (m.length = n ∧ ∀ x ∈ m, TableSymbols tbls x) →
      encodeOne (fixedArrayCodec tbls p width ae) tbls tbls.length cap rnd none m = .ok (data, tbls) := by
    intro m
    by_cases h : m.length = n ∧ ∀ x ∈ m, TableSymbols tbls x
    · obtain ⟨data, h1, _⟩ := C11_table hp hL ht hw h.2 (start := none) trivial hLc (by rw [h.1]; simpa [startBytes] using hroom)
        hr hrb ae
      exact ⟨data, fun _ => h1⟩
    · exact ⟨[], fun h1 => absurd h1 h⟩
  choose code hcode using hex
  have hc : Codes tableCdf tableInv tbls p width ae tbls.length cap rnd (fun c x => c = tbls ∧ TableSymbols tbls x)
      (fun c t => c = tbls ∧ t = tbls) tbls tbls n (choices (List.replicate n (choices (tbls.map symbols)))) code :=
    ⟨hp, hpos, hLc, table_pair ht hw, hroom, hr, hrb, fun m hm => ((hM m).1 hm).1,
      fun m hm => ⟨tbls, tables_codable m ((hM m).1 hm).2, rfl, rfl⟩, fun m hm => ⟨tbls, hcode m ((hM m).1 hm)⟩⟩
  obtain ⟨e1, e2⟩ := message_entropy ht n
  obtain ⟨h1, h2⟩ := C143_average hc (messageProb p tbls)
    (fun m hm => (messageBits_table m ((hM m).1 hm).2).1.le) e1
  refine ⟨code, fun m hm => hcode m ((hM m).1 hm), e1, ?_, ?_⟩
  · rw [← e2]
    exact h1
  · refine le_trans h2 (le_of_eq ?_)
    rw [← e2, entropy]
    congr 2
    exact Finset.sum_congr rfl fun m hm => by rw [(messageBits_table m ((hM m).1 hm).2).2]

end

/-- Two lanes with different tables, one with a symbol that never occurs: `M` has the four messages of one row. -/
example : ∃ (M : Finset (List (List Nat))) (code : List (List Nat) → List Nat), M.card = 4 ∧
    (∀ m ∈ M, encodeOne (fixedArrayCodec [[0, 4, 16], [0, 8, 8, 16]] 4 256 false) [[0, 4, 16], [0, 8, 8, 16]] 2 7
      (List.replicate 7 0) none m = .ok (code m, [[0, 4, 16], [0, 8, 8, 16]])) ∧
    1 * ([[0, 4, 16], [0, 8, 8, 16]].map (tableEntropy 4)).sum ≤
      ∑ m ∈ M, messageProb 4 [[0, 4, 16], [0, 8, 8, 16]] m * (8 * (code m).length) := by
  obtain ⟨code, h1, _, h2, _⟩ := C143_table (p := 4) (tbls := [[0, 4, 16], [0, 8, 8, 16]]) (by decide) (by decide)
    (by intro t ht; fin_cases ht <;> exact ⟨rfl, rfl, by decide⟩) (width := 256) (cap := 7) (n := 1)
    (by intro t ht; fin_cases ht <;> decide) (by decide) (by decide) (rnd := List.replicate 7 0) (by decide)
    (by decide) false (M := choices (List.replicate 1 (choices ([[0, 4, 16], [0, 8, 8, 16]].map symbols)))) (msg_mem 1)
  exact ⟨_, code, by decide +kernel, h1, by exact_mod_cast h2⟩

/-- A code followed by three other bytes. -/
example : ∃ out, encodeOne (fixedArrayCodec [[0, 4, 16], [0, 8, 8, 16]] 4 256 false) [[0, 4, 16], [0, 8, 8, 16]] 2 7
      (List.replicate 7 0) none [[1, 2]] = .ok (out, [[0, 4, 16], [0, 8, 8, 16]]) ∧
    decodeOne (fixedArrayCodec [[0, 4, 16], [0, 8, 8, 16]] 4 256 false) [[0, 4, 16], [0, 8, 8, 16]] 2 10 1 (out ++ [7, 8, 9]) =
      .ok ([[1, 2]], freshBuffer 2 ++ [7, 8, 9], [[0, 4, 16], [0, 8, 8, 16]]) := by
  refine ⟨_, rfl, by decide +kernel⟩

end Verif.Rans
