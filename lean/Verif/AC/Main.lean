import Verif.AC.Interval

/-
Helper layer: the byte-level encoder and decoder, code lengths, batches.
-/
namespace Verif.AC

/-! ### Byte-buffer encoder refines the bit-list encoder -/

theorem enqueue_ref {fuel : Nat} (hf : 32 ≤ fuel) {σ : Type} {cdf : CdfFun σ} {s : Nat} {cap : Nat}
    {e : Enc} {a : AEnc} {c : σ} (r : Ref cap e a) (hw : Wide a.high a.low)
    (h1 : (cdf s c).1 < (cdf s c).2.1) (h2 : (cdf s c).2.1 ≤ 65536) :
    ∃ e' a', enqueue fuel cdf s e c = .ok (e', (cdf s c).2.2) ∧
      aEnqueue fuel cdf s a c = some (a', (cdf s c).2.2) ∧ Ref cap e' a' ∧
      Wide a'.high a'.low := by
  obtain ⟨a', ha', hw'⟩ := aEnqueue_some hf (c := c) hw h1 h2
  have hiv := narrow_iv hw h1 h2
  have r0 : Ref cap { e with high := narrowHigh e.low (spanOf e.high e.low) (cdf s c).2.1,
                             low := narrowLow e.low (spanOf e.high e.low) (cdf s c).1 }
      (narrowed a (cdf s c).1 (cdf s c).2.1) := by
    refine ⟨?_, ?_, ?_, hiv, ?_⟩
    · rw [narrowed_high, r.high, r.low]
    · rw [narrowed_low, r.high, r.low]
    · rw [narrowed_pending]; exact r.pending
    · rw [narrowed_bits]; exact r.holds
  have hs := whileLoop_sim (c₁ := fun e : Enc => loopCond e.high e.low) (b₁ := encStep)
    (c₂ := aCond) (b₂ := aStep) (Ref cap)
    (fun x y h => by simp only [aCond, h.high, h.low])
    (fun x y h hc => encStep_ref h hc) fuel _ _ r0
  have ha2 := ha'
  simp only [aEnqueue, Option.map_eq_some_iff, Prod.mk.injEq] at ha2
  obtain ⟨a2, h4, rfl, _⟩ := ha2
  rcases hs with ⟨_, hn⟩ | ⟨x', y', hx, hy, hr⟩
  · rw [h4] at hn; exact absurd hn (by simp)
  · rw [h4] at hy
    obtain rfl := Option.some.inj hy
    refine ⟨x', a2, ?_, ha', hr, hw'⟩
    simp only [enqueue]
    rw [hx]

theorem encodeLoop_ref {fuel : Nat} (hf : 32 ≤ fuel) {σ : Type} {cdf : CdfFun σ} {cap : Nat} :
    ∀ (msg : List Nat) (e : Enc) (a : AEnc) (c : σ), Ref cap e a → Wide a.high a.low →
    Codable cdf msg c →
    ∃ e' a' c', encodeLoop fuel cdf msg e c = .ok (e', c') ∧
      aEncodeLoop fuel cdf msg a c = some (a', c') ∧ Ref cap e' a' ∧ Wide a'.high a'.low := by
  intro msg
  induction msg with
  | nil => intro e a c r hw _; exact ⟨e, a, c, rfl, rfl, r, hw⟩
  | cons s rest ih =>
    intro e a c r hw hcod
    obtain ⟨h1, h2, h3⟩ := hcod.cons
    obtain ⟨e1, a1, he1, ha1, r1, hw1⟩ := enqueue_ref hf (c := c) r hw h1 h2
    obtain ⟨e2, a2, c2, he2, ha2, r2, hw2⟩ := ih e1 a1 _ r1 hw1 h3
    exact ⟨e2, a2, c2, by rw [encodeLoop, he1]; exact he2,
      by rw [aEncodeLoop, ha1]; exact ha2, r2, hw2⟩

theorem init_ref (cap : Nat) : Ref cap (encInit cap) aInit := by
  refine ⟨rfl, rfl, rfl, ?_, ?_⟩
  · constructor
    · exact Nat.zero_le _
    · show 4294967295 < 4294967296; decide
  · refine ⟨by simp [encInit], rfl, rfl, ?_, ?_, ?_⟩
    · simp [encInit, aInit]
    · intro t ht; simp [aInit] at ht
    · intro i hi; simp [aInit] at hi

/-- `data` stores the bits `bits` and at least one bit more of space. -/
structure Stores (bits : List Bool) (data : List Nat) : Prop where
  room : bits.length / 8 < data.length
  bit : ∀ t, t < bits.length → bitOf data t = bits.getD t false

theorem finish_spec {cap : Nat} {e : Enc} {a : AEnc} (r : Ref cap e a) :
    (finish e).1.length = cap ∧ (finish e).2 = (aFinish a).length / 8 ∧
    ((finish e).2 < cap → Stores (aFinish a) (finish e).1) := by
  have hh : Holds cap (aFinish a)
      (if e.low < ONE_FOURTH then appendBitAndPending false (e.pending + 1) e.buf
       else appendBitAndPending true (e.pending + 1) e.buf) := by
    rw [r.low, r.pending]
    by_cases hl : a.low < ONE_FOURTH
    · rw [if_pos hl]
      have := appendBitAndPending_holds false (a.pending + 1) r.holds
      simpa [aFinish, hl] using this
    · rw [if_neg hl]
      have := appendBitAndPending_holds true (a.pending + 1) r.holds
      simpa [aFinish, hl] using this
  have hfin : finish e =
      (let b := (if e.low < ONE_FOURTH then appendBitAndPending false (e.pending + 1) e.buf
       else appendBitAndPending true (e.pending + 1) e.buf)
       (b.arr.set b.idx ((b.byte <<< (8 - b.bitIdx)) % 256), b.idx)) := rfl
  rw [hfin]
  generalize (if e.low < ONE_FOURTH then appendBitAndPending false (e.pending + 1) e.buf
       else appendBitAndPending true (e.pending + 1) e.buf) = b at hh
  generalize aFinish a = bits at hh
  obtain ⟨h1, h2, h3, h4, h5, h6⟩ := hh
  dsimp only
  refine ⟨by simpa using h1, h2, ?_⟩
  intro hlt
  have hlen : (b.arr.set b.idx ((b.byte <<< (8 - b.bitIdx)) % 256)).length = cap := by
    simpa using h1
  refine ⟨by rw [hlen]; omega, ?_⟩
  intro t ht
  by_cases htt : t / 8 < bits.length / 8
  · rw [← h5 t htt (by omega)]
    unfold bitOf
    have : ¬ b.idx = t / 8 := by omega
    simp [List.getD, this]
  · have ht8 : b.idx = t / 8 := by omega
    unfold bitOf
    have hlt' : t / 8 < b.arr.length := by omega
    have hg : (b.arr.set b.idx ((b.byte <<< (8 - b.bitIdx)) % 256)).getD (t / 8) 0
        = (b.byte <<< (8 - b.bitIdx)) % 256 := by
      simp [List.getD, ht8, hlt']
    have e1 : Nat.testBit ((b.byte <<< (8 - b.bitIdx)) % 256) (7 - t % 8)
        = Nat.testBit (b.byte <<< (8 - b.bitIdx)) (7 - t % 8) := by
      rw [show (256 : Nat) = 2 ^ 8 by decide, Nat.testBit_mod_two_pow]
      simp; omega
    rw [hg, e1, Nat.testBit_shiftLeft]
    have hk : t % 8 < bits.length % 8 := by omega
    have h7 : 7 - t % 8 ≥ 8 - b.bitIdx := by omega
    rw [decide_eq_true h7, Bool.true_and, h6 _ (by omega)]
    congr 1; omega

/-- The bits of the code of a message. -/
def codeBits {σ : Type} (fuel : Nat) (cdf : CdfFun σ) (c : σ) (msg : List Nat) : List Bool :=
  match aEncodeLoop fuel cdf msg aInit c with
  | none => []
  | some (a, _) => aFinish a

theorem jaxEncode_spec {fuel : Nat} (hf : 32 ≤ fuel) {σ : Type} {cdf : CdfFun σ} {cap : Nat} {c : σ}
    {msg : List Nat} (hcap : 0 < cap) (hcod : Codable cdf msg c) :
    ∃ b, jaxEncode fuel cdf c cap msg = .ok (b, (codeBits fuel cdf c msg).length / 8) ∧
      b.length = cap ∧
      ((codeBits fuel cdf c msg).length / 8 < cap → Stores (codeBits fuel cdf c msg) b) := by
  obtain ⟨e, a, c', he, ha, r, hw⟩ :=
    encodeLoop_ref hf msg (encInit cap) aInit c (init_ref cap) init_wide hcod
  obtain ⟨f1, f2, f3⟩ := finish_spec r
  have hcb : codeBits fuel cdf c msg = aFinish a := by simp only [codeBits, ha]
  rw [hcb]
  refine ⟨(finish e).1, ?_, f1, ?_⟩
  · rw [jaxEncode, if_neg (by omega), he]
    dsimp only
    rw [← f2]
  · rw [← f2]; exact f3

theorem Stores.take {bits : List Bool} {b : List Nat} (h : Stores bits b) :
    Stores bits (b.take (bits.length / 8 + 1)) := by
  obtain ⟨h1, h2⟩ := h
  refine ⟨by simp; omega, ?_⟩
  intro t ht
  rw [← h2 t ht]
  unfold bitOf
  have : t / 8 < bits.length / 8 + 1 := by omega
  simp [List.getD, this]

theorem Stores.append {bits : List Bool} {b : List Nat} (h : Stores bits b) (l : List Nat) :
    Stores bits (b ++ l) := by
  obtain ⟨h1, h2⟩ := h
  refine ⟨by simp; omega, ?_⟩
  intro t ht
  rw [← h2 t ht]
  unfold bitOf
  rw [getD_append_lt]
  omega

theorem Stores.stream {bits : List Bool} {b : List Nat} (h : Stores bits b) :
    StartsWith (stream b) bits := by
  obtain ⟨h1, h2⟩ := h
  intro t ht
  rw [← h2 t ht]
  have hm : min (t / 8) (b.length - 1) = t / 8 := by omega
  have h3 : (t + 1) / 8 < b.length := by omega
  simp [Verif.AC.stream, bitOf, gather, hm, h3]

/-! ### Loading the decoder -/

theorem loadBits_spec (arr : List Nat) : ∀ (n m : Nat) (d : Dec), m + n ≤ 32 →
    d.high = MAX_CODE → d.low = 0 → d.value = P (stream arr) m → d.idx * 8 + d.bitIdx = m →
    d.bitIdx < 8 →
    (loadBits arr n d).high = MAX_CODE ∧ (loadBits arr n d).low = 0 ∧
    (loadBits arr n d).value = P (stream arr) (m + n) ∧
    (loadBits arr n d).idx * 8 + (loadBits arr n d).bitIdx = m + n ∧
    (loadBits arr n d).bitIdx < 8 := by
  intro n
  induction n with
  | zero => intro m d _ h1 h2 h3 h4 h5; exact ⟨h1, h2, h3, h4, h5⟩
  | succ n ih =>
    intro m d hm h1 h2 h3 h4 h5
    obtain ⟨s1, s2, s3, s4⟩ := retrieveBit_spec arr d.idx d.bitIdx _ h5 h4
    have hbit : (retrieveBit d.idx d.bitIdx arr).1 = stream arr m := by
      rw [s1]; unfold stream; rw [if_pos (show m < 32 by omega)]
    have hlt : P (stream arr) m < 2 ^ 31 := by
      have := P_lt (stream arr) 0 m
      simp only [P, Nat.zero_add, Nat.one_mul] at this
      exact lt_of_lt_of_le this (Nat.pow_le_pow_right (by decide) (by omega))
    have hb1 : (stream arr m).toNat ≤ 1 := Bool.toNat_le _
    have := ih (m + 1) (loadBit arr d) (by omega) h1 h2 (by
      simp only [loadBit, hbit, h3]
      rw [u32_shift_lt (by omega) hb1, P]) s3 s4
    rw [show m + (n + 1) = m + 1 + n by omega]
    exact this

theorem load_rel (arr : List Nat) : Rel arr aInit (loadBits arr 32 decInit) := by
  obtain ⟨h1, h2, h3, h4, h5⟩ := loadBits_spec arr 32 0 decInit (by omega) rfl rfl rfl rfl (by decide)
  refine ⟨h1, h2, ?_, ?_, h5⟩
  · rw [h3]; simp [off, pos, aInit, val]
  · rw [h4]; simp [pos, aInit]

theorem init_exit : loopCond aInit.high aInit.low = false := by decide

/-- Decoding any byte string that stores the code bits returns the message. -/
theorem decodeLoop_stores {fuel : Nat} (hf : 32 ≤ fuel) {σ τ : Type} {cdf : CdfFun σ}
    {icdf : InvCdfFun τ} {R : σ → τ → Prop} (hag : Agree cdf icdf R) {c : σ} {t : τ} (hR : R c t)
    {msg : List Nat} (hcod : Codable cdf msg c) {data : List Nat}
    (hst : Stores (codeBits fuel cdf c msg) data) :
    decodeLoop fuel icdf data msg.length (loadBits data 32 decInit) t
      = .ok (msg.map (· % 256)) := by
  obtain ⟨a, c', ha, hw⟩ := aEncodeLoop_some hf msg aInit c init_wide hcod
  have hcb : codeBits fuel cdf c msg = aFinish a := by simp only [codeBits, ha]
  rw [hcb] at hst
  have hx := aEncodeLoop_exit msg aInit c a c' init_exit ha
  exact decodeLoop_eq hf hag msg aInit c t _ a c' init_wide hcod hR ha
    (finish_inIv hx hst.stream) (load_rel data)

/-! ### Code length -/

theorem aStep_pos {a : AEnc} : pos (aStep a) = pos a + 1 := by
  cases h : branchOf a.high a.low with
  | half0 => exact (aStep_half0 h).1
  | half1 => exact (aStep_half1 h).1
  | quarter => exact (aStep_quarter h).1

theorem aLoop_width : ∀ (n : Nat) (a a' : AEnc), Iv a.high a.low →
    whileLoop aCond aStep n a = some a' →
    ∃ k, pos a' = pos a + k ∧ a'.high - a'.low + 1 = 2 ^ k * (a.high - a.low + 1) := by
  intro n
  induction n with
  | zero =>
    intro a a' _ h
    simp only [whileLoop] at h
    split at h
    · simp at h
    · obtain rfl := Option.some.inj h; exact ⟨0, by simp, by simp⟩
  | succ n ih =>
    intro a a' hv h
    simp only [whileLoop] at h
    split at h
    · rename_i hc
      obtain ⟨h1, h2⟩ := aStep_width hv hc
      obtain ⟨k, hk1, hk2⟩ := ih _ _ h1 h
      refine ⟨k + 1, by rw [hk1, aStep_pos]; omega, ?_⟩
      rw [hk2, h2]; ring
    · obtain rfl := Option.some.inj h; exact ⟨0, by simp, by simp⟩

theorem narrow_width {a : AEnc} {lo hi : Nat} (hw : Wide a.high a.low) (h1 : lo < hi)
    (h2 : hi ≤ 65536) :
    (a.high - a.low + 1) * ((hi - lo) * 16383) ≤
      ((narrowed a lo hi).high - (narrowed a lo hi).low + 1) * 1073741824 := by
  obtain ⟨_, e1, e2, e3, e4⟩ := narrow_spec hw h1 h2
  simp only [narrowed]
  rw [e1, e2]
  obtain ⟨ha, hb⟩ := hw
  have hspan : 1073741824 < a.high - a.low + 1 := by omega
  generalize a.high - a.low + 1 = w at *
  obtain ⟨f, rfl⟩ : ∃ f, hi = lo + f := ⟨hi - lo, by omega⟩
  have hf : 0 < f := by omega
  have m1 : w * (lo + f) = w * lo + w * f := by ring
  have m2 : w ≤ w * f := Nat.le_mul_of_pos_right _ hf
  have m3 : w * ((lo + f - lo) * 16383) = 16383 * (w * f) := by
    rw [show lo + f - lo = f by omega]; ring
  rw [m3]
  rw [m1] at e3 e4 ⊢
  generalize w * f = wf at *
  generalize w * lo = wl at *
  omega

theorem aEncodeLoop_width {fuel : Nat} (hf : 32 ≤ fuel) {σ : Type} {cdf : CdfFun σ} :
    ∀ (msg : List Nat) (a : AEnc) (c : σ) (a' : AEnc) (c' : σ), Wide a.high a.low →
    Codable cdf msg c → aEncodeLoop fuel cdf msg a c = some (a', c') →
    (a.high - a.low + 1) * (freqProd cdf msg c * 16383 ^ msg.length * 2 ^ pos a') ≤
      (a'.high - a'.low + 1) * (1073741824 ^ msg.length * 2 ^ pos a) := by
  intro msg
  induction msg with
  | nil =>
    intro a c a' c' _ _ he
    simp [aEncodeLoop] at he; obtain ⟨rfl, rfl⟩ := he
    simp [freqProd]
  | cons s rest ih =>
    intro a c a' c' hw hcod he
    obtain ⟨h1, h2, h3⟩ := hcod.cons
    obtain ⟨a1, ha1, hw1⟩ := aEnqueue_some hf (c := c) hw h1 h2
    simp only [aEncodeLoop, ha1] at he
    have hi1 := ih a1 _ _ _ hw1 h3 he
    simp only [aEnqueue, Option.map_eq_some_iff, Prod.mk.injEq] at ha1
    obtain ⟨a2, h4, rfl, _⟩ := ha1
    obtain ⟨k, hk1, hk2⟩ := aLoop_width _ _ _ (narrow_iv hw h1 h2) h4
    rw [pos_narrowed] at hk1
    have hn := narrow_width hw h1 h2
    rw [hk2, hk1] at hi1
    simp only [freqProd, List.length_cons]
    generalize (narrowed a (cdf s c).1 (cdf s c).2.1).high -
      (narrowed a (cdf s c).1 (cdf s c).2.1).low + 1 = w1 at *
    generalize a.high - a.low + 1 = w at *
    generalize a'.high - a'.low + 1 = w' at *
    generalize (cdf s c).2.1 - (cdf s c).1 = f at *
    generalize freqProd cdf rest (cdf s c).2.2 = F at *
    have hpk : 0 < 2 ^ k := by positivity
    have key : 2 ^ k * (w * (f * F * 16383 ^ (rest.length + 1) * 2 ^ pos a'))
        ≤ 2 ^ k * (w' * (1073741824 ^ (rest.length + 1) * 2 ^ pos a)) := by
      calc 2 ^ k * (w * (f * F * 16383 ^ (rest.length + 1) * 2 ^ pos a'))
          = (w * (f * 16383)) * (2 ^ k * (F * 16383 ^ rest.length * 2 ^ pos a')) := by ring
        _ ≤ (w1 * 1073741824) * (2 ^ k * (F * 16383 ^ rest.length * 2 ^ pos a')) :=
            Nat.mul_le_mul_right _ hn
        _ = 1073741824 * (2 ^ k * w1 * (F * 16383 ^ rest.length * 2 ^ pos a')) := by ring
        _ ≤ 1073741824 * (w' * (1073741824 ^ rest.length * 2 ^ (pos a + k))) :=
            Nat.mul_le_mul_left _ hi1
        _ = 2 ^ k * (w' * (1073741824 ^ (rest.length + 1) * 2 ^ pos a)) := by ring
    exact Nat.le_of_mul_le_mul_left key hpk

theorem codeBits_length {fuel : Nat} (hf : 32 ≤ fuel) {σ : Type} {cdf : CdfFun σ} {c : σ}
    {msg : List Nat} (hcod : Codable cdf msg c) :
    freqProd cdf msg c * 16383 ^ msg.length * 2 ^ (codeBits fuel cdf c msg).length ≤
      4 * 1073741824 ^ msg.length := by
  obtain ⟨a, c', ha, hw⟩ := aEncodeLoop_some hf msg aInit c init_wide hcod
  have hcb : codeBits fuel cdf c msg = aFinish a := by simp only [codeBits, ha]
  have hl : (codeBits fuel cdf c msg).length = pos a + 2 := by
    rw [hcb]; simp [aFinish, emit, pos]; omega
  have := aEncodeLoop_width hf msg aInit c a c' init_wide hcod ha
  have hp : pos aInit = 0 := rfl
  have hw0 : aInit.high - aInit.low + 1 = 4294967296 := rfl
  have hw1 : a.high - a.low + 1 ≤ 4294967296 := by have := hw.1; omega
  rw [hp, hw0, pow_zero, mul_one] at this
  rw [hl, pow_add]
  have h2 : 4294967296 * (freqProd cdf msg c * 16383 ^ msg.length * 2 ^ pos a) ≤
      4294967296 * 1073741824 ^ msg.length := le_trans this (Nat.mul_le_mul_right _ hw1)
  have h3 := Nat.le_of_mul_le_mul_left h2 (by decide)
  calc _ = 4 * (freqProd cdf msg c * 16383 ^ msg.length * 2 ^ pos a) := by ring
    _ ≤ _ := Nat.mul_le_mul_left _ h3

/-! ### The decoder on arbitrary bytes -/

/-- Decoder invariant. -/
structure DOk (d : Dec) : Prop where
  wide : Wide d.high d.low
  lo : d.low ≤ d.value
  hi : d.value ≤ d.high
  bit : d.bitIdx < 8

/-- Decoder invariant inside the loop. -/
structure DIn (d : Dec) : Prop where
  iv : Iv d.high d.low
  lo : d.low ≤ d.value
  hi : d.value ≤ d.high
  bit : d.bitIdx < 8

theorem decStep_in {arr : List Nat} {d : Dec} (h : DIn d) (hc : loopCond d.high d.low = true) :
    DIn (decStep arr d) ∧
      (decStep arr d).high - (decStep arr d).low + 1 = 2 * (d.high - d.low + 1) := by
  obtain ⟨⟨h4, h5⟩, h1, h2, h3⟩ := h
  obtain ⟨s1, s2, s3, s4⟩ := retrieveBit_spec arr d.idx d.bitIdx _ h3 rfl
  generalize hbb : ((retrieveBit d.idx d.bitIdx arr).1 &&
    decide ((retrieveBit d.idx d.bitIdx arr).2.1 < arr.length)).toNat = bb
  have hb1 : bb ≤ 1 := by rw [← hbb]; exact Bool.toNat_le _
  rcases branch_spec hc with ⟨hb, hx⟩ | ⟨hb, hx⟩ | ⟨hb, hx, hy⟩
  · simp only [ONE_HALF] at hx
    have hD : decStep arr d =
        ⟨2 * d.value + bb, 2 * d.high + 1, 2 * d.low,
          (retrieveBit d.idx d.bitIdx arr).2.1, (retrieveBit d.idx d.bitIdx arr).2.2⟩ := by
      simp only [decStep, hb, hbb]
      rw [u32_shift_lt (by omega) hb1, shiftHigh_eq (by omega), shiftLow_eq (by omega)]
    rw [hD]
    refine ⟨⟨⟨?_, ?_⟩, ?_, ?_, s4⟩, ?_⟩ <;> dsimp only <;> omega
  · simp only [ONE_HALF] at hx
    have hD : decStep arr d =
        ⟨2 * (d.value - 2147483648) + bb, 2 * (d.high - 2147483648) + 1,
          2 * (d.low - 2147483648),
          (retrieveBit d.idx d.bitIdx arr).2.1, (retrieveBit d.idx d.bitIdx arr).2.2⟩ := by
      simp only [decStep, hb, hbb]
      have q1 : sub32 d.value ONE_HALF = d.value - 2147483648 :=
        sub32_eq (show 2147483648 ≤ d.value by omega) (by omega)
      have q2 : sub32 d.high ONE_HALF = d.high - 2147483648 :=
        sub32_eq (show 2147483648 ≤ d.high by omega) (by omega)
      have q3 : sub32 d.low ONE_HALF = d.low - 2147483648 :=
        sub32_eq (show 2147483648 ≤ d.low by omega) (by omega)
      rw [q1, q2, q3, u32_shift_lt (by omega) hb1, shiftHigh_eq (by omega), shiftLow_eq (by omega)]
    rw [hD]
    refine ⟨⟨⟨?_, ?_⟩, ?_, ?_, s4⟩, ?_⟩ <;> dsimp only <;> omega
  · simp only [ONE_FOURTH, THREE_FOURTHS] at hx hy
    have hD : decStep arr d =
        ⟨2 * (d.value - 1073741824) + bb, 2 * (d.high - 1073741824) + 1,
          2 * (d.low - 1073741824),
          (retrieveBit d.idx d.bitIdx arr).2.1, (retrieveBit d.idx d.bitIdx arr).2.2⟩ := by
      simp only [decStep, hb, hbb]
      have q1 : sub32 d.value ONE_FOURTH = d.value - 1073741824 :=
        sub32_eq (show 1073741824 ≤ d.value by omega) (by omega)
      have q2 : sub32 d.high ONE_FOURTH = d.high - 1073741824 :=
        sub32_eq (show 1073741824 ≤ d.high by omega) (by omega)
      have q3 : sub32 d.low ONE_FOURTH = d.low - 1073741824 :=
        sub32_eq (show 1073741824 ≤ d.low by omega) (by omega)
      rw [q1, q2, q3, u32_shift_lt (by omega) hb1, shiftHigh_eq (by omega), shiftLow_eq (by omega)]
    rw [hD]
    refine ⟨⟨⟨?_, ?_⟩, ?_, ?_, s4⟩, ?_⟩ <;> dsimp only <;> omega

theorem decLoop_ok {arr : List Nat} : ∀ (n : Nat) (d : Dec), DIn d →
    4294967296 ≤ (d.high - d.low + 1) * 2 ^ n →
    ∃ d', whileLoop (fun d : Dec => loopCond d.high d.low) (decStep arr) n d = some d' ∧
      DOk d' := by
  intro n
  induction n with
  | zero =>
    intro d h hw
    simp only [whileLoop]
    by_cases hc : loopCond d.high d.low = true
    · have := cond_width h.iv hc; simp at hw; omega
    · simp only [Bool.not_eq_true] at hc
      exact ⟨d, by simp [hc], exit_wide h.iv hc, h.lo, h.hi, h.bit⟩
  | succ n ih =>
    intro d h hw
    simp only [whileLoop]
    by_cases hc : loopCond d.high d.low = true
    · simp only [hc, if_true]
      obtain ⟨h1, h2⟩ := decStep_in (arr := arr) h hc
      apply ih _ h1
      rw [h2]
      calc _ ≤ _ := hw
        _ = _ := by ring
    · simp only [Bool.not_eq_true] at hc
      exact ⟨d, by simp [hc], exit_wide h.iv hc, h.lo, h.hi, h.bit⟩

theorem dequeue_ok {fuel : Nat} (hf : 32 ≤ fuel) {τ : Type} {icdf : InvCdfFun τ} {T : τ → Prop}
    (hT : Total icdf T) {arr : List Nat} {d : Dec} {t : τ} (h : DOk d) (ht : T t) :
    ∃ d' s t', dequeue fuel icdf arr d t = .ok (d', s, t') ∧ DOk d' ∧ T t' := by
  obtain ⟨hw, h1, h2, h3⟩ := h
  obtain ⟨e0, e1⟩ := scaledValue_eq hw h1 h2
  rw [← e0] at e1
  obtain ⟨t1, t2, t3, t4⟩ := hT t ht _ e1
  have hm := (scaled_mem (lo := (icdf (scaledValue d.value d.low (spanOf d.high d.low)) t).1)
    (hi := (icdf (scaledValue d.value d.low (spanOf d.high d.low)) t).2.1) hw h1 h2).mp ⟨t1, t2⟩
  obtain ⟨_, n1, n2, n3, n4⟩ := narrow_spec hw (show _ < _ from lt_of_le_of_lt t1 t2) t3
  have hin : DIn { d with
      high := narrowHigh d.low (spanOf d.high d.low)
        (icdf (scaledValue d.value d.low (spanOf d.high d.low)) t).2.1,
      low := narrowLow d.low (spanOf d.high d.low)
        (icdf (scaledValue d.value d.low (spanOf d.high d.low)) t).1 } := by
    have := hw.1
    refine ⟨⟨?_, ?_⟩, ?_, ?_, h3⟩ <;> dsimp only
    · rw [n1, n2]; omega
    · rw [n1]; omega
    · rw [n2]; omega
    · rw [n1]; omega
  obtain ⟨d', hd', ok⟩ := decLoop_ok (arr := arr) fuel _ hin (by
    have : 2 ^ 32 ≤ 2 ^ fuel := Nat.pow_le_pow_right (by decide) hf
    nlinarith)
  refine ⟨d', (icdf (scaledValue d.value d.low (spanOf d.high d.low)) t).2.2.1,
    (icdf (scaledValue d.value d.low (spanOf d.high d.low)) t).2.2.2, ?_, ok, t4⟩
  simp only [dequeue]
  rw [hd']

theorem decodeLoop_ok {fuel : Nat} (hf : 32 ≤ fuel) {τ : Type} {icdf : InvCdfFun τ} {T : τ → Prop}
    (hT : Total icdf T) {arr : List Nat} : ∀ (n : Nat) (d : Dec) (t : τ), DOk d → T t →
    ∃ m, decodeLoop fuel icdf arr n d t = .ok m ∧ m.length = n := by
  intro n
  induction n with
  | zero => intro d t _ _; exact ⟨[], rfl, rfl⟩
  | succ n ih =>
    intro d t h ht
    obtain ⟨d', s, t', hd, hok, ht'⟩ := dequeue_ok hf hT (arr := arr) h ht
    obtain ⟨m, hm, hl⟩ := ih d' t' hok ht'
    exact ⟨s % 256 :: m, by simp only [decodeLoop, hd, hm], by simp [hl]⟩

theorem load_ok (arr : List Nat) : DOk (loadBits arr 32 decInit) := by
  obtain ⟨h1, h2, h3, h4, h5⟩ := loadBits_spec arr 32 0 decInit (by omega) rfl rfl rfl rfl (by decide)
  have hlt := P_lt (stream arr) 0 32
  rw [show P (stream arr) 0 = 0 from rfl] at hlt
  generalize P (stream arr) (0 + 32) = p at *
  refine ⟨?_, ?_, ?_, h5⟩
  · rw [h1, h2]; exact init_wide
  · rw [h2]; exact Nat.zero_le _
  · rw [h1, h3]
    show p ≤ 4294967295
    omega

/-- Decoding more symbols extends the result. -/
theorem decodeLoop_prefix {fuel : Nat} {τ : Type} {icdf : InvCdfFun τ} {arr : List Nat} :
    ∀ (n k : Nat) (d : Dec) (t : τ) (m : List Nat),
    decodeLoop fuel icdf arr (n + k) d t = .ok m →
    decodeLoop fuel icdf arr n d t = .ok (m.take n) := by
  intro n
  induction n with
  | zero => intro k d t m _; simp [decodeLoop]
  | succ n ih =>
    intro k d t m h
    rw [show n + 1 + k = (n + k) + 1 by omega] at h
    simp only [decodeLoop] at h ⊢
    cases hd : dequeue fuel icdf arr d t with
    | error x => simp [hd] at h
    | ok r =>
      obtain ⟨d', s, t'⟩ := r
      simp only [hd] at h ⊢
      cases hr : decodeLoop fuel icdf arr (n + k) d' t' with
      | error x => simp [hr] at h
      | ok rest =>
        simp only [hr, Except.ok.injEq] at h
        rw [ih k d' t' rest hr, ← h]
        simp

end Verif.AC
