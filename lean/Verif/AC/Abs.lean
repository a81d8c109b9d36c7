import Verif.AC.Model
import Mathlib.Tactic.Ring
import Mathlib.Tactic.Linarith

/-
Helper layer: an encoder that emits a list of bits instead of filling a byte
buffer, its refinement by the byte-buffer encoder, and the interval lemmas.
-/
namespace Verif.AC

/-! ### Loop simulation -/

theorem whileLoop_sim {α β : Type} {c₁ : α → Bool} {b₁ : α → α} {c₂ : β → Bool}
    {b₂ : β → β} (R : α → β → Prop)
    (hc : ∀ x y, R x y → c₁ x = c₂ y)
    (hb : ∀ x y, R x y → c₁ x = true → R (b₁ x) (b₂ y)) :
    ∀ n x y, R x y →
      (whileLoop c₁ b₁ n x = none ∧ whileLoop c₂ b₂ n y = none) ∨
      ∃ x' y', whileLoop c₁ b₁ n x = some x' ∧ whileLoop c₂ b₂ n y = some y' ∧ R x' y' := by
  intro n
  induction n with
  | zero =>
    intro x y h
    have := hc x y h
    simp only [whileLoop]
    cases hx : c₁ x <;> rw [hx] at this
    · right; exact ⟨x, y, by simp, by simp [← this], h⟩
    · left; simp [← this]
  | succ n ih =>
    intro x y h
    have := hc x y h
    simp only [whileLoop]
    cases hx : c₁ x <;> rw [hx] at this
    · right; exact ⟨x, y, by simp, by simp [← this], h⟩
    · simp only [← this, if_true]
      exact ih _ _ (hb x y h hx)

theorem whileLoop_exit {α : Type} {c : α → Bool} {b : α → α} :
    ∀ n x x', whileLoop c b n x = some x' → c x' = false := by
  intro n
  induction n with
  | zero => intro x x' h; simp only [whileLoop] at h; split at h <;> simp_all
  | succ n ih =>
    intro x x' h
    simp only [whileLoop] at h
    split at h
    · exact ih _ _ h
    · simp_all

/-- Invariant rule with the start state's loop condition available. -/
theorem whileLoop_inv {α : Type} {c : α → Bool} {b : α → α} (I : α → Prop)
    (hb : ∀ x, I x → c x = true → I (b x)) :
    ∀ n x x', I x → whileLoop c b n x = some x' → I x' := by
  intro n
  induction n with
  | zero => intro x x' hI h; simp only [whileLoop] at h; split at h <;> simp_all
  | succ n ih =>
    intro x x' hI h
    simp only [whileLoop] at h
    split at h
    · exact ih _ _ (hb _ hI (by assumption)) h
    · simp_all

/-! ### Bit-list encoder -/

structure AEnc where
  high : Nat
  low : Nat
  pending : Nat
  bits : List Bool

def emit (bit : Bool) (pending : Nat) (bits : List Bool) : List Bool :=
  bits ++ bit :: List.replicate pending (!bit)

def aStep (e : AEnc) : AEnc :=
  match branchOf e.high e.low with
  | .half0 => ⟨2 * e.high + 1, 2 * e.low, 0, emit false e.pending e.bits⟩
  | .half1 => ⟨2 * e.high + 1 - 4294967296, 2 * e.low - 4294967296, 0,
      emit true e.pending e.bits⟩
  | .quarter => ⟨2 * e.high + 1 - 2147483648, 2 * e.low - 2147483648, e.pending + 1, e.bits⟩

def aCond (e : AEnc) : Bool := loopCond e.high e.low

/-- Interval invariant inside the loop. -/
def Iv (high low : Nat) : Prop := low ≤ high ∧ high < 4294967296

theorem branch_spec {high low : Nat} (h : loopCond high low = true) :
    (branchOf high low = .half0 ∧ high < ONE_HALF) ∨
    (branchOf high low = .half1 ∧ ONE_HALF ≤ low) ∨
    (branchOf high low = .quarter ∧ ONE_FOURTH ≤ low ∧ high < THREE_FOURTHS) := by
  simp only [loopCond, Bool.or_eq_true, Bool.and_eq_true, decide_eq_true_eq, ge_iff_le] at h
  unfold branchOf
  split
  · left; exact ⟨rfl, by assumption⟩
  · split
    · right; left; exact ⟨rfl, by assumption⟩
    · right; right
      have : ONE_FOURTH ≤ low ∧ high < THREE_FOURTHS := by
        rcases h with (h | h) | h
        · contradiction
        · contradiction
        · exact h
      simp [this]

theorem shiftHigh_eq {h : Nat} (hh : h < 2147483648) : shiftHigh h = 2 * h + 1 := by
  unfold shiftHigh u32; rw [Nat.shiftLeft_eq]; omega

theorem shiftHigh_eq1 {h : Nat} (h1 : 2147483648 ≤ h) (hh : h < 4294967296) :
    shiftHigh h = 2 * h + 1 - 4294967296 := by
  unfold shiftHigh u32; rw [Nat.shiftLeft_eq]; omega

theorem shiftLow_eq {h : Nat} (hh : h < 2147483648) : shiftLow h = 2 * h := by
  unfold shiftLow u32; rw [Nat.shiftLeft_eq]; omega

theorem shiftLow_eq1 {h : Nat} (h1 : 2147483648 ≤ h) (hh : h < 4294967296) :
    shiftLow h = 2 * h - 4294967296 := by
  unfold shiftLow u32; rw [Nat.shiftLeft_eq]; omega

theorem sub32_eq {a b : Nat} (h : b ≤ a) (ha : a < 4294967296) : sub32 a b = a - b := by
  unfold sub32; omega

theorem sub64_eq {a b : Nat} (h : b ≤ a) (ha : a < 18446744073709551616) :
    sub64 a b = a - b := by
  unfold sub64; omega

/-! ### Byte buffer holds the bits -/

/-- Bit `t` (most significant first) of a byte array. -/
def bitOf (arr : List Nat) (t : Nat) : Bool := (arr.getD (t / 8) 0).testBit (7 - t % 8)

/-- The buffer holds `bits`: whole bytes are stored (as far as the buffer
reaches), the current byte holds the remainder. -/
structure Holds (cap : Nat) (bits : List Bool) (b : Buf) : Prop where
  len : b.arr.length = cap
  idx : b.idx = bits.length / 8
  bitIdx : b.bitIdx = bits.length % 8
  byteLt : b.byte < 2 ^ (bits.length % 8)
  stored : ∀ t, t / 8 < bits.length / 8 → t / 8 < cap → bitOf b.arr t = bits.getD t false
  cur : ∀ i, i < bits.length % 8 →
    b.byte.testBit i = bits.getD (bits.length - 1 - i) false

theorem getD_append_lt {α : Type} (l l' : List α) (d : α) (t : Nat) (h : t < l.length) :
    (l ++ l').getD t d = l.getD t d := by
  simp [List.getD, List.getElem?_append_left h]

theorem getD_append_len {α : Type} (l : List α) (x d : α) :
    (l ++ [x]).getD l.length d = x := by
  simp [List.getD]

theorem testBit_byte (byte : Nat) (bit : Bool) (h : byte < 128) (i : Nat) :
    (((byte <<< 1) % 256) ||| bit.toNat).testBit i =
      if i = 0 then bit else byte.testBit (i - 1) := by
  have h256 : (byte <<< 1) % 256 = byte <<< 1 := by
    rw [Nat.shiftLeft_eq]; omega
  rw [h256, Nat.testBit_or, Nat.testBit_shiftLeft]
  cases i with
  | zero => cases bit <;> simp
  | succ i => cases bit <;> simp [Nat.testBit_succ]

theorem byte_lt (byte : Nat) (bit : Bool) (k : Nat) (hk : k < 8) (h : byte < 2 ^ k) :
    ((byte <<< 1) % 256) ||| bit.toNat < 2 ^ (k + 1) := by
  apply Nat.or_lt_two_pow
  · have : 2 ^ (k + 1) = 2 * 2 ^ k := by ring
    calc _ ≤ byte <<< 1 := Nat.mod_le _ _
      _ < _ := by rw [Nat.shiftLeft_eq]; omega
  · calc bit.toNat ≤ 1 := Bool.toNat_le bit
      _ < 2 ^ (k + 1) := Nat.one_lt_two_pow (by omega)

theorem appendBit_holds {cap : Nat} {bits : List Bool} {b : Buf} (bit : Bool)
    (h : Holds cap bits b) : Holds cap (bits ++ [bit]) (appendBit bit b) := by
  obtain ⟨hlen, hidx, hbit, hlt, hst, hcur⟩ := h
  have hk : bits.length % 8 < 8 := Nat.mod_lt _ (by decide)
  have hb128 : b.byte < 128 := lt_of_lt_of_le hlt (by
    have : 2 ^ (bits.length % 8) ≤ 2 ^ 7 := Nat.pow_le_pow_right (by decide) (by omega)
    simpa using this)
  have hbl := byte_lt b.byte bit _ hk hlt
  unfold appendBit
  by_cases h8 : b.bitIdx + 1 = 8
  · have hm : bits.length % 8 = 7 := by omega
    simp only [h8, if_true]
    refine ⟨by simpa using hlen, ?_, ?_, ?_, ?_, ?_⟩
    · simp; omega
    · simp; omega
    · simp
    · intro t ht hc
      simp only [List.length_append, List.length_singleton] at ht
      by_cases htt : t / 8 < bits.length / 8
      · have := hst t htt hc
        rw [getD_append_lt _ _ _ _ (by omega)]
        rw [← this]
        unfold bitOf
        have : ¬ b.idx = t / 8 := by omega
        simp [List.getD, this]
      · have ht8 : t / 8 = bits.length / 8 := by omega
        unfold bitOf
        have : b.idx = t / 8 := by omega
        have hlt' : t / 8 < b.arr.length := by omega
        have hg : (b.arr.set b.idx (((b.byte <<< 1) % 256) ||| bit.toNat)).getD (t / 8) 0
            = ((b.byte <<< 1) % 256) ||| bit.toNat := by
          simp [List.getD, this, hlt']
        rw [hg, testBit_byte _ _ hb128]
        by_cases h7 : 7 - t % 8 = 0
        · have : t = bits.length := by omega
          subst this
          rw [if_pos h7]; rw [getD_append_len]
        · rw [if_neg h7, hcur _ (by omega), getD_append_lt _ _ _ _ (by omega)]
          congr 1; omega
    · intro i hi
      simp at hi; omega
  · simp only [h8, if_false]
    have hm : bits.length % 8 < 7 := by omega
    have hm1 : (bits.length + 1) % 8 = bits.length % 8 + 1 := by omega
    have hd1 : (bits.length + 1) / 8 = bits.length / 8 := by omega
    refine ⟨hlen, ?_, ?_, ?_, ?_, ?_⟩
    · simp; omega
    · simp; omega
    · simpa [hm1] using hbl
    · intro t ht hc
      simp only [List.length_append, List.length_singleton] at ht
      rw [getD_append_lt _ _ _ _ (by omega)]
      exact hst t (by omega) hc
    · intro i hi
      simp only [List.length_append, List.length_singleton] at hi
      rw [testBit_byte _ _ hb128]
      by_cases h0 : i = 0
      · subst h0; simp
      · rw [if_neg h0, hcur _ (by omega)]
        simp only [List.length_append, List.length_singleton]
        rw [getD_append_lt _ _ _ _ (by omega)]
        congr 1; omega

theorem appendPending_holds {cap : Nat} (bit : Bool) :
    ∀ (n : Nat) {bits : List Bool} {b : Buf}, Holds cap bits b →
      Holds cap (bits ++ List.replicate n (!bit)) (appendPending bit n b) := by
  intro n
  induction n with
  | zero => intro bits b h; simpa [appendPending] using h
  | succ n ih =>
    intro bits b h
    have := ih (appendBit_holds (!bit) h)
    simpa [appendPending, List.replicate_succ, List.append_assoc] using this

theorem appendBitAndPending_holds {cap : Nat} {bits : List Bool} {b : Buf} (bit : Bool)
    (n : Nat) (h : Holds cap bits b) :
    Holds cap (emit bit n bits) (appendBitAndPending bit n b) := by
  have := appendPending_holds bit n (appendBit_holds bit h)
  simpa [emit, appendBitAndPending, List.append_assoc] using this

/-- Refinement relation between the byte-buffer and the bit-list encoder. -/
structure Ref (cap : Nat) (e : Enc) (a : AEnc) : Prop where
  high : e.high = a.high
  low : e.low = a.low
  pending : e.pending = a.pending
  iv : Iv a.high a.low
  holds : Holds cap a.bits e.buf

theorem encStep_ref {cap : Nat} {e : Enc} {a : AEnc} (h : Ref cap e a)
    (hc : loopCond e.high e.low = true) : Ref cap (encStep e) (aStep a) := by
  obtain ⟨h1, h2, h3, ⟨h4, h5⟩, h6⟩ := h
  rw [h1, h2] at hc
  rcases branch_spec hc with ⟨hb, hx⟩ | ⟨hb, hx⟩ | ⟨hb, hx, hy⟩
  · simp only [encStep, aStep, h1, h2, h3, hb]
    simp only [ONE_HALF] at hx
    refine ⟨shiftHigh_eq (by omega), shiftLow_eq (by omega), rfl, ?_,
      appendBitAndPending_holds _ _ h6⟩
    constructor <;> simp <;> omega
  · simp only [encStep, aStep, h1, h2, h3, hb]
    simp only [ONE_HALF] at hx
    refine ⟨shiftHigh_eq1 (by omega) (by omega), shiftLow_eq1 (by omega) (by omega), rfl, ?_,
      appendBitAndPending_holds _ _ h6⟩
    constructor <;> simp <;> omega
  · simp only [encStep, aStep, h1, h2, h3, hb]
    simp only [ONE_FOURTH, THREE_FOURTHS] at hx hy
    refine ⟨?_, ?_, rfl, ?_, h6⟩
    · have e : sub32 a.high ONE_FOURTH = a.high - 1073741824 :=
        sub32_eq (show 1073741824 ≤ a.high by omega) h5
      rw [e, shiftHigh_eq (by omega)]; dsimp only; omega
    · have e : sub32 a.low ONE_FOURTH = a.low - 1073741824 :=
        sub32_eq (show 1073741824 ≤ a.low by omega) (by omega)
      rw [e, shiftLow_eq (by omega)]; dsimp only; omega
    · constructor <;> simp <;> omega

/-! ### Widths and termination -/

theorem aStep_width {a : AEnc} (h : Iv a.high a.low) (hc : aCond a = true) :
    Iv (aStep a).high (aStep a).low ∧
      (aStep a).high - (aStep a).low + 1 = 2 * (a.high - a.low + 1) := by
  obtain ⟨h4, h5⟩ := h
  unfold aCond at hc
  rcases branch_spec hc with ⟨hb, hx⟩ | ⟨hb, hx⟩ | ⟨hb, hx, hy⟩ <;>
    simp only [aStep, hb, Iv, ONE_HALF, ONE_FOURTH, THREE_FOURTHS] at * <;> omega

theorem cond_width {high low : Nat} (h : Iv high low) (hc : loopCond high low = true) :
    high - low + 1 ≤ 2147483648 := by
  obtain ⟨h4, h5⟩ := h
  rcases branch_spec hc with ⟨hb, hx⟩ | ⟨hb, hx⟩ | ⟨hb, hx, hy⟩ <;>
    simp only [ONE_HALF, ONE_FOURTH, THREE_FOURTHS] at * <;> omega

/-- The loop ends within `n` iterations when the width is at least `2^(32-n)`. -/
theorem aLoop_terminates : ∀ (n : Nat) (a : AEnc), Iv a.high a.low →
    4294967296 ≤ (a.high - a.low + 1) * 2 ^ n →
    ∃ a', whileLoop aCond aStep n a = some a' := by
  intro n
  induction n with
  | zero =>
    intro a h hw
    simp only [whileLoop]
    by_cases hc : aCond a = true
    · have := cond_width h hc; simp at hw; omega
    · simp [hc]
  | succ n ih =>
    intro a h hw
    simp only [whileLoop]
    by_cases hc : aCond a = true
    · rw [if_pos hc]
      obtain ⟨h1, h2⟩ := aStep_width h hc
      apply ih _ h1
      rw [h2]
      calc _ ≤ _ := hw
        _ = _ := by ring
    · simp [hc]

/-- After the loop the interval straddles the middle and is wide. -/
theorem exit_spec {high low : Nat} (hc : loopCond high low = false) :
    low < 2147483648 ∧ 2147483648 ≤ high ∧ (low < 1073741824 ∨ 3221225472 ≤ high) := by
  simp only [loopCond, Bool.or_eq_false_iff, Bool.and_eq_false_iff, decide_eq_false_iff_not,
    ONE_HALF, ONE_FOURTH, THREE_FOURTHS] at hc
  omega

/-- Interval invariant between symbols. -/
def Wide (high low : Nat) : Prop := high < 4294967296 ∧ low + 1073741824 < high + 1

theorem exit_wide {high low : Nat} (h : Iv high low) (hc : loopCond high low = false) :
    Wide high low := by
  have := exit_spec hc
  obtain ⟨h1, h2⟩ := h
  unfold Wide; omega

/-! ### Narrowing -/

theorem narrow_spec {high low lo hi : Nat} (hw : Wide high low) (h1 : lo < hi) (h2 : hi ≤ 65536) :
    spanOf high low = high - low + 1 ∧
    narrowHigh low (spanOf high low) hi = low + (high - low + 1) * hi / 65536 - 1 ∧
    narrowLow low (spanOf high low) lo = low + (high - low + 1) * lo / 65536 ∧
    low + (high - low + 1) * lo / 65536 < low + (high - low + 1) * hi / 65536 ∧
    low + (high - low + 1) * hi / 65536 ≤ high + 1 := by
  obtain ⟨ha, hb⟩ := hw
  have hs : spanOf high low = high - low + 1 := by
    unfold spanOf u64; rw [sub64_eq (by omega) (by omega)]; omega
  rw [hs]
  generalize hsp : high - low + 1 = span at *
  have hspan : span ≤ 4294967296 := by omega
  have hspan' : 65536 < span := by omega
  have m1 : span * hi ≤ span * 65536 := Nat.mul_le_mul_left _ h2
  have m2 : span * (lo + 1) ≤ span * hi := Nat.mul_le_mul_left _ h1
  have m3 : span * (lo + 1) = span * lo + span := by ring
  have d1 : span * hi / 65536 ≤ span := by omega
  have d2 : span * lo / 65536 < span * hi / 65536 := by omega
  refine ⟨rfl, ?_, ?_, by omega, by omega⟩
  · unfold narrowHigh u64
    rw [Nat.shiftRight_eq_div_pow, Nat.mod_eq_of_lt (by omega)]
    unfold u32 sub32
    simp only [Nat.reducePow]
    omega
  · unfold narrowLow u64
    rw [Nat.shiftRight_eq_div_pow, Nat.mod_eq_of_lt (by omega)]
    unfold u32
    simp only [Nat.reducePow]
    omega

end Verif.AC
