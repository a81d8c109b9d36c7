import Verif.AC.Abs
import Verif.AC.Spec
import Mathlib.Data.List.Induction

/-
Helper layer: position of the code interval on the absolute number line, the
decoder following the encoder, exactness of the float64 division.
-/
namespace Verif.AC

/-! ### Values of bit strings -/

def val : List Bool → Nat
  | [] => 0
  | b :: bs => b.toNat * 2 ^ bs.length + val bs

theorem val_append (l l' : List Bool) : val (l ++ l') = val l * 2 ^ l'.length + val l' := by
  induction l with
  | nil => simp [val]
  | cons b bs ih => simp only [List.cons_append, val, ih, List.length_append]; ring

theorem val_replicate_false (n : Nat) : val (List.replicate n false) = 0 := by
  induction n with
  | zero => rfl
  | succ n ih => simp [List.replicate_succ, val, ih]

theorem val_replicate_true (n : Nat) : val (List.replicate n true) = 2 ^ n - 1 := by
  induction n with
  | zero => rfl
  | succ n ih =>
    simp only [List.replicate_succ, val, ih, List.length_replicate, Bool.toNat_true]
    have : 0 < 2 ^ n := Nat.pos_of_ne_zero (by simp)
    rw [pow_succ]; omega

/-- Value of the first `m` bits of a stream. -/
def P (S : Nat → Bool) : Nat → Nat
  | 0 => 0
  | m + 1 => 2 * P S m + (S m).toNat

theorem P_ge (S : Nat → Bool) (m : Nat) : ∀ j, P S m * 2 ^ j ≤ P S (m + j) := by
  intro j
  induction j with
  | zero => simp
  | succ j ih =>
    have : P S (m + (j + 1)) = 2 * P S (m + j) + (S (m + j)).toNat := rfl
    rw [this, pow_succ]; nlinarith

theorem P_lt (S : Nat → Bool) (m : Nat) : ∀ j, P S (m + j) < (P S m + 1) * 2 ^ j := by
  intro j
  induction j with
  | zero => simp
  | succ j ih =>
    have : P S (m + (j + 1)) = 2 * P S (m + j) + (S (m + j)).toNat := rfl
    have hb : (S (m + j)).toNat ≤ 1 := Bool.toNat_le _
    rw [this, pow_succ]; nlinarith

/-- `S` starts with the bits `l`. -/
def StartsWith (S : Nat → Bool) (l : List Bool) : Prop :=
  ∀ t, t < l.length → S t = l.getD t false

theorem P_startsWith {S : Nat → Bool} (l : List Bool) (h : StartsWith S l) :
    P S l.length = val l := by
  induction l using List.reverseRecOn with
  | nil => rfl
  | append_singleton l b ih =>
    have h1 : StartsWith S l := by
      intro t ht
      rw [h t (by simp; omega), getD_append_lt _ _ _ _ ht]
    have h2 : S l.length = b := by
      rw [h l.length (by simp), getD_append_len]
    have : (l ++ [b]).length = l.length + 1 := by simp
    rw [this, P, ih h1, h2, val_append]
    simp [val]; ring

/-! ### Absolute position of the encoder's interval -/

/-- Number of interval doublings so far. -/
def pos (a : AEnc) : Nat := a.bits.length + a.pending

/-- Absolute offset of the 32-bit window. -/
def off (a : AEnc) : Nat := val a.bits * 2 ^ (a.pending + 32) + (2 ^ a.pending - 1) * 2 ^ 31

/-- The stream's prefix lies in the encoder's absolute interval. -/
def InIv (S : Nat → Bool) (a : AEnc) : Prop :=
  off a + a.low ≤ P S (pos a + 32) ∧ P S (pos a + 32) ≤ off a + a.high

theorem aStep_half0 {a : AEnc} (h : branchOf a.high a.low = .half0) :
    pos (aStep a) = pos a + 1 ∧ off (aStep a) = 2 * off a := by
  simp only [aStep, h, pos, off, emit, val_append, val, Bool.not_false, val_replicate_true,
    List.length_append, List.length_cons, List.length_replicate, Bool.toNat_false]
  constructor
  · omega
  · ring

theorem aStep_half1 {a : AEnc} (h : branchOf a.high a.low = .half1) :
    pos (aStep a) = pos a + 1 ∧ off (aStep a) = 2 * off a + 4294967296 := by
  simp only [aStep, h, pos, off, emit, val_append, val, Bool.not_true, val_replicate_false,
    List.length_append, List.length_cons, List.length_replicate, Bool.toNat_true]
  constructor
  · omega
  · have : 0 < 2 ^ a.pending := Nat.pos_of_ne_zero (by simp)
    obtain ⟨k, hk⟩ : ∃ k, 2 ^ a.pending = k + 1 := ⟨2 ^ a.pending - 1, by omega⟩
    simp only [pow_add, hk]; simp; ring

theorem aStep_quarter {a : AEnc} (h : branchOf a.high a.low = .quarter) :
    pos (aStep a) = pos a + 1 ∧ off (aStep a) = 2 * off a + 2147483648 := by
  simp only [aStep, h, pos, off]
  constructor
  · omega
  · have : 0 < 2 ^ a.pending := Nat.pos_of_ne_zero (by simp)
    obtain ⟨k, hk⟩ : ∃ k, 2 ^ a.pending = k + 1 := ⟨2 ^ a.pending - 1, by omega⟩
    have h2 : 2 ^ (a.pending + 1) - 1 = 2 * k + 1 := by rw [pow_succ, hk]; omega
    rw [h2]
    simp only [pow_add, hk]; simp; ring

theorem aStep_back {S : Nat → Bool} {a : AEnc} (hv : Iv a.high a.low) (hc : aCond a = true)
    (h : InIv S (aStep a)) : InIv S a := by
  obtain ⟨h4, h5⟩ := hv
  unfold aCond at hc
  unfold InIv at h ⊢
  have hb1 : (S (pos a + 32)).toNat ≤ 1 := Bool.toNat_le _
  have hP : P S (pos a + 1 + 32) = 2 * P S (pos a + 32) + (S (pos a + 32)).toNat := by
    rw [show pos a + 1 + 32 = (pos a + 32) + 1 by omega]; rfl
  rcases branch_spec hc with ⟨hb, hx⟩ | ⟨hb, hx⟩ | ⟨hb, hx, hy⟩
  · obtain ⟨e1, e2⟩ := aStep_half0 hb
    rw [e1, e2, hP] at h
    simp only [aStep, hb] at h
    omega
  · obtain ⟨e1, e2⟩ := aStep_half1 hb
    rw [e1, e2, hP] at h
    simp only [aStep, hb] at h
    simp only [ONE_HALF] at hx
    omega
  · obtain ⟨e1, e2⟩ := aStep_quarter hb
    rw [e1, e2, hP] at h
    simp only [aStep, hb] at h
    simp only [ONE_FOURTH, THREE_FOURTHS] at hx hy
    omega

theorem aLoop_back {S : Nat → Bool} : ∀ (n : Nat) (a a' : AEnc), Iv a.high a.low →
    whileLoop aCond aStep n a = some a' → InIv S a' → InIv S a := by
  intro n
  induction n with
  | zero =>
    intro a a' _ h hi
    simp only [whileLoop] at h
    split at h <;> simp_all
  | succ n ih =>
    intro a a' hv h hi
    simp only [whileLoop] at h
    split at h
    · rename_i hc
      exact aStep_back hv hc (ih _ _ (aStep_width hv hc).1 h hi)
    · simp_all

theorem aLoop_iv : ∀ (n : Nat) (a a' : AEnc), Iv a.high a.low →
    whileLoop aCond aStep n a = some a' → Iv a'.high a'.low := by
  intro n a a' hv h
  exact whileLoop_inv (fun a => Iv a.high a.low) (fun a h hc => (aStep_width h hc).1) n a a' hv h

/-! ### Float64 division -/

theorem f64Shift_spec (n d : Nat) : ∀ fuel s, 2 ^ 52 * d ≤ n * 2 ^ (s + fuel) →
    2 ^ 52 * d ≤ n * 2 ^ (f64Shift n d fuel s) := by
  intro fuel
  induction fuel with
  | zero => intro s h; simpa [f64Shift] using h
  | succ k ih =>
    intro s h
    simp only [f64Shift]
    split
    · assumption
    · apply ih; rw [show s + 1 + k = s + (k + 1) by omega]; exact h

theorem rne_bounds (n d : Nat) (hd : 0 < d) :
    n / d ≤ rne n d ∧ 2 * (rne n d * d) ≤ 2 * n + d := by
  unfold rne
  have h := Nat.div_add_mod n d
  have hm := Nat.mod_lt n hd
  set q := n / d
  set r := n % d
  have e : (q + 1) * d = d * q + d := by ring
  have e' : q * d = d * q := by ring
  dsimp only
  split
  · constructor
    · omega
    · rw [e']; omega
  · split
    · constructor
      · omega
      · rw [e]; omega
    · split
      · constructor
        · omega
        · rw [e']; omega
      · constructor
        · omega
        · rw [e]; omega

/-- For quotients below `2^16` with a divisor up to `2^32` the truncated float64
quotient is the integer quotient. -/
theorem f64DivTrunc_exact {n d : Nat} (hn : 0 < n) (hd : 0 < d) (hd' : d ≤ 2 ^ 32)
    (hq : n < d * 2 ^ 16) : f64DivTrunc n d = n / d := by
  unfold f64DivTrunc
  set s := f64Shift n d 1100 0 with hs
  have hbig : 2 ^ 52 * d ≤ n * 2 ^ s := by
    apply f64Shift_spec
    have : (2 : Nat) ^ 84 ≤ 2 ^ (0 + 1100) := Nat.pow_le_pow_right (by decide) (by decide)
    calc 2 ^ 52 * d ≤ 2 ^ 52 * 2 ^ 32 := Nat.mul_le_mul_left _ hd'
      _ = 1 * 2 ^ 84 := by norm_num
      _ ≤ n * 2 ^ (0 + 1100) := Nat.mul_le_mul hn this
  -- `s` is at least 37
  have hs37 : 37 ≤ s := by
    by_contra hlt
    have h1 : (2 : Nat) ^ s ≤ 2 ^ 36 := Nat.pow_le_pow_right (by decide) (by omega)
    have h2 : n * 2 ^ s ≤ n * 2 ^ 36 := Nat.mul_le_mul_left _ h1
    have : n * 2 ^ 36 < d * 2 ^ 16 * 2 ^ 36 := Nat.mul_lt_mul_of_pos_right hq (by decide)
    have e : d * 2 ^ 16 * 2 ^ 36 = 2 ^ 52 * d := by ring
    omega
  have hpow : (2 : Nat) ^ 37 ≤ 2 ^ s := Nat.pow_le_pow_right (by decide) hs37
  have hpos : 0 < 2 ^ s := by positivity
  obtain ⟨b1, b2⟩ := rne_bounds (n * 2 ^ s) d hd
  set m := rne (n * 2 ^ s) d
  have hdm := Nat.div_add_mod n d
  have hmod := Nat.mod_lt n hd
  set q := n / d
  apply le_antisymm
  · -- m < (q+1) * 2^s
    have : m < (q + 1) * 2 ^ s := by
      have hn1 : n + 1 ≤ (q + 1) * d := by nlinarith
      have h3 : 2 * (m * d) < 2 * ((q + 1) * 2 ^ s * d) := by
        have : (n + 1) * 2 ^ s ≤ (q + 1) * d * 2 ^ s := Nat.mul_le_mul_right _ hn1
        have e1 : (n + 1) * 2 ^ s = n * 2 ^ s + 2 ^ s := by ring
        have e2 : (q + 1) * d * 2 ^ s = (q + 1) * 2 ^ s * d := by ring
        have : d < 2 * 2 ^ s := by
          have : (2:Nat) ^ 32 < 2 ^ 37 := by decide
          omega
        omega
      have h4 : m * d < (q + 1) * 2 ^ s * d := by omega
      exact Nat.lt_of_mul_lt_mul_right h4
    exact Nat.lt_succ_iff.mp ((Nat.div_lt_iff_lt_mul hpos).mpr this)
  · rw [Nat.le_div_iff_mul_le hpos]
    refine le_trans ?_ b1
    rw [Nat.le_div_iff_mul_le hd]
    have : q * d ≤ n := by rw [Nat.mul_comm]; omega
    calc q * 2 ^ s * d = q * d * 2 ^ s := by ring
      _ ≤ n * 2 ^ s := Nat.mul_le_mul_right _ this

theorem scaledValue_eq {value high low : Nat} (hw : Wide high low) (h1 : low ≤ value)
    (h2 : value ≤ high) :
    scaledValue value low (spanOf high low)
      = ((value - low + 1) * 65536 - 1) / (high - low + 1) ∧
    ((value - low + 1) * 65536 - 1) / (high - low + 1) < 65536 := by
  obtain ⟨ha, hb⟩ := hw
  have hs : spanOf high low = high - low + 1 := by
    unfold spanOf u64; rw [sub64_eq (by omega) (by omega)]; omega
  have hlt : ((value - low + 1) * 65536 - 1) / (high - low + 1) < 65536 := by
    rw [Nat.div_lt_iff_lt_mul (by omega)]; omega
  refine ⟨?_, hlt⟩
  unfold scaledValue
  rw [hs]
  have e1 : sub64 value low = value - low := sub64_eq h1 (by omega)
  have e2 : u64 (sub64 value low + 1) = value - low + 1 := by rw [e1]; unfold u64; omega
  have e3 : u64 (u64 (sub64 value low + 1) * PREC_COUNT) = (value - low + 1) * 65536 := by
    rw [e2]; unfold u64 PREC_COUNT; omega
  rw [e3, sub64_eq (by omega) (by omega), f64DivTrunc_exact (by omega) (by omega) (by omega)
    (by omega)]
  exact Nat.mod_eq_of_lt hlt

/-- The symbol search hits the coded slot exactly when the value lies in the
narrowed interval. -/
theorem scaled_mem {value high low lo hi : Nat} (hw : Wide high low) (h1 : low ≤ value)
    (h2 : value ≤ high) :
    (lo ≤ scaledValue value low (spanOf high low) ∧
      scaledValue value low (spanOf high low) < hi) ↔
    (low + (high - low + 1) * lo / 65536 ≤ value ∧
      value + 1 ≤ low + (high - low + 1) * hi / 65536) := by
  rw [(scaledValue_eq hw h1 h2).1]
  obtain ⟨ha, hb⟩ := hw
  generalize hsp : high - low + 1 = span at *
  have hpos : 0 < span := by omega
  rw [Nat.le_div_iff_mul_le hpos, Nat.div_lt_iff_lt_mul hpos]
  rw [show lo * span = span * lo by ring, show hi * span = span * hi by ring]
  omega

/-! ### The decoder's bit stream -/

/-- The bit the decoder reads at position `t`: clamped reads in the initial load,
masked reads afterwards. -/
def stream (arr : List Nat) (t : Nat) : Bool :=
  let bit := (gather arr (t / 8)).testBit (7 - t % 8)
  if t < 32 then bit else bit && decide ((t + 1) / 8 < arr.length)

theorem retrieveBit_spec (arr : List Nat) (idx bitIdx t : Nat) (hb : bitIdx < 8)
    (ht : idx * 8 + bitIdx = t) :
    (retrieveBit idx bitIdx arr).1 = (gather arr (t / 8)).testBit (7 - t % 8) ∧
    (retrieveBit idx bitIdx arr).2.1 = (t + 1) / 8 ∧
    (retrieveBit idx bitIdx arr).2.1 * 8 + (retrieveBit idx bitIdx arr).2.2 = t + 1 ∧
    (retrieveBit idx bitIdx arr).2.2 < 8 := by
  have e1 : t / 8 = idx := by omega
  have e2 : t % 8 = bitIdx := by omega
  unfold retrieveBit
  refine ⟨?_, ?_, ?_, ?_⟩
  · rw [e1, e2]
    dsimp only
    rw [Nat.testBit_eq_decide_div_mod_eq, Nat.shiftRight_eq_div_pow, Nat.and_one_is_mod]
    congr 1
    apply propext
    omega
  · dsimp only; omega
  · dsimp only; omega
  · dsimp only; omega

/-- State of the decoder relative to the encoder. -/
structure Rel (arr : List Nat) (a : AEnc) (d : Dec) : Prop where
  high : d.high = a.high
  low : d.low = a.low
  value : off a + d.value = P (stream arr) (pos a + 32)
  idx : d.idx * 8 + d.bitIdx = pos a + 32
  bitIdx : d.bitIdx < 8

theorem InIv.between {arr : List Nat} {a : AEnc} {d : Dec} (h : InIv (stream arr) a)
    (r : Rel arr a d) : a.low ≤ d.value ∧ d.value ≤ a.high := by
  have := r.value
  unfold InIv at h
  omega

theorem u32_shift_lt {v b : Nat} (h : v < 2147483648) (hb : b ≤ 1) :
    u32 (u32 (v <<< 1) + b) = 2 * v + b := by
  unfold u32; rw [Nat.shiftLeft_eq]; omega

theorem decStep_rel {arr : List Nat} {a : AEnc} {d : Dec} (r : Rel arr a d)
    (hv : Iv a.high a.low) (hc : aCond a = true) (hi : InIv (stream arr) a) :
    Rel arr (aStep a) (decStep arr d) := by
  obtain ⟨hlo, hhi⟩ := hi.between r
  obtain ⟨r1, r2, r3, r4, r5⟩ := r
  obtain ⟨h4, h5⟩ := hv
  unfold aCond at hc
  obtain ⟨s1, s2, s3, s4⟩ := retrieveBit_spec arr d.idx d.bitIdx _ r5 r4
  have hbit : ((retrieveBit d.idx d.bitIdx arr).1 &&
      decide ((retrieveBit d.idx d.bitIdx arr).2.1 < arr.length)) = stream arr (pos a + 32) := by
    rw [s1, s2]; simp [stream]
  have hP : P (stream arr) (pos a + 1 + 32)
      = 2 * P (stream arr) (pos a + 32) + (stream arr (pos a + 32)).toNat := by
    rw [show pos a + 1 + 32 = (pos a + 32) + 1 by omega]; rfl
  have hb1 : (stream arr (pos a + 32)).toNat ≤ 1 := Bool.toNat_le _
  generalize hS : (stream arr (pos a + 32)).toNat = bb at *
  rcases branch_spec hc with ⟨hb, hx⟩ | ⟨hb, hx⟩ | ⟨hb, hx, hy⟩
  · obtain ⟨e1, e2⟩ := aStep_half0 hb
    simp only [ONE_HALF] at hx
    have hD : decStep arr d =
        ⟨2 * d.value + bb, 2 * a.high + 1, 2 * a.low,
          (retrieveBit d.idx d.bitIdx arr).2.1, (retrieveBit d.idx d.bitIdx arr).2.2⟩ := by
      simp only [decStep, r1, r2, hb, hbit, hS]
      rw [u32_shift_lt (by omega) hb1, shiftHigh_eq (by omega), shiftLow_eq (by omega)]
    rw [hD]
    refine ⟨?_, ?_, ?_, ?_, s4⟩
    · simp [aStep, hb]
    · simp [aStep, hb]
    · rw [e1, e2, hP]; dsimp only; omega
    · rw [e1]; dsimp only; omega
  · obtain ⟨e1, e2⟩ := aStep_half1 hb
    simp only [ONE_HALF] at hx
    have hD : decStep arr d =
        ⟨2 * (d.value - 2147483648) + bb, 2 * (a.high - 2147483648) + 1, 2 * (a.low - 2147483648),
          (retrieveBit d.idx d.bitIdx arr).2.1, (retrieveBit d.idx d.bitIdx arr).2.2⟩ := by
      simp only [decStep, r1, r2, hb, hbit, hS]
      have q1 : sub32 d.value ONE_HALF = d.value - 2147483648 :=
        sub32_eq (show 2147483648 ≤ d.value by omega) (by omega)
      have q2 : sub32 a.high ONE_HALF = a.high - 2147483648 :=
        sub32_eq (show 2147483648 ≤ a.high by omega) (by omega)
      have q3 : sub32 a.low ONE_HALF = a.low - 2147483648 :=
        sub32_eq (show 2147483648 ≤ a.low by omega) (by omega)
      rw [q1, q2, q3, u32_shift_lt (by omega) hb1, shiftHigh_eq (by omega), shiftLow_eq (by omega)]
    rw [hD]
    refine ⟨?_, ?_, ?_, ?_, s4⟩
    · simp only [aStep, hb]; omega
    · simp only [aStep, hb]; omega
    · rw [e1, e2, hP]; dsimp only; omega
    · rw [e1]; dsimp only; omega
  · obtain ⟨e1, e2⟩ := aStep_quarter hb
    simp only [ONE_FOURTH, THREE_FOURTHS] at hx hy
    have hD : decStep arr d =
        ⟨2 * (d.value - 1073741824) + bb, 2 * (a.high - 1073741824) + 1, 2 * (a.low - 1073741824),
          (retrieveBit d.idx d.bitIdx arr).2.1, (retrieveBit d.idx d.bitIdx arr).2.2⟩ := by
      simp only [decStep, r1, r2, hb, hbit, hS]
      have q1 : sub32 d.value ONE_FOURTH = d.value - 1073741824 :=
        sub32_eq (show 1073741824 ≤ d.value by omega) (by omega)
      have q2 : sub32 a.high ONE_FOURTH = a.high - 1073741824 :=
        sub32_eq (show 1073741824 ≤ a.high by omega) (by omega)
      have q3 : sub32 a.low ONE_FOURTH = a.low - 1073741824 :=
        sub32_eq (show 1073741824 ≤ a.low by omega) (by omega)
      rw [q1, q2, q3, u32_shift_lt (by omega) hb1, shiftHigh_eq (by omega), shiftLow_eq (by omega)]
    rw [hD]
    refine ⟨?_, ?_, ?_, ?_, s4⟩
    · simp only [aStep, hb]; omega
    · simp only [aStep, hb]; omega
    · rw [e1, e2, hP]; dsimp only; omega
    · rw [e1]; dsimp only; omega

theorem decLoop_rel {arr : List Nat} : ∀ (n : Nat) (a a' : AEnc) (d : Dec), Iv a.high a.low →
    whileLoop aCond aStep n a = some a' → InIv (stream arr) a' → Rel arr a d →
    ∃ d', whileLoop (fun d : Dec => loopCond d.high d.low) (decStep arr) n d = some d' ∧
      Rel arr a' d' := by
  intro n
  induction n with
  | zero =>
    intro a a' d _ h _ r
    simp only [whileLoop] at h ⊢
    split at h
    · simp at h
    · rename_i hc
      obtain rfl := Option.some.inj h
      refine ⟨d, ?_, r⟩
      simp only [aCond] at hc
      simp [r.high, r.low, hc]
  | succ n ih =>
    intro a a' d hv h hi r
    simp only [whileLoop] at h ⊢
    split at h
    · rename_i hc
      have hi' : InIv (stream arr) a := aLoop_back (n + 1) a a' hv (by simp [whileLoop, hc, h]) hi
      have := ih _ _ _ (aStep_width hv hc).1 h hi (decStep_rel r hv hc hi')
      simp only [aCond] at hc
      simpa [r.high, r.low, hc] using this
    · rename_i hc
      obtain rfl := Option.some.inj h
      refine ⟨d, ?_, r⟩
      simp only [aCond] at hc
      simp [r.high, r.low, hc]

/-! ### Encoder over messages, on bit lists -/

def narrowed (a : AEnc) (lo hi : Nat) : AEnc :=
  ⟨narrowHigh a.low (spanOf a.high a.low) hi, narrowLow a.low (spanOf a.high a.low) lo,
    a.pending, a.bits⟩

def aEnqueue {σ : Type} (fuel : Nat) (cdf : CdfFun σ) (s : Nat) (a : AEnc) (c : σ) : Option (AEnc × σ) :=
  (whileLoop aCond aStep fuel (narrowed a (cdf s c).1 (cdf s c).2.1)).map
    fun a => (a, (cdf s c).2.2)

def aEncodeLoop {σ : Type} (fuel : Nat) (cdf : CdfFun σ) :
    List Nat → AEnc → σ → Option (AEnc × σ)
  | [], a, c => some (a, c)
  | s :: rest, a, c =>
    match aEnqueue fuel cdf s a c with
    | none => none
    | some (a, c) => aEncodeLoop fuel cdf rest a c

/-- The final bits. -/
def aFinish (a : AEnc) : List Bool :=
  emit (!decide (a.low < ONE_FOURTH)) (a.pending + 1) a.bits

def aInit : AEnc := ⟨MAX_CODE, 0, 0, []⟩

theorem off_mk (h l p : Nat) (b : List Bool) (h' l' : Nat) :
    off ⟨h, l, p, b⟩ = off ⟨h', l', p, b⟩ := rfl

theorem pos_mk (h l p : Nat) (b : List Bool) (h' l' : Nat) :
    pos ⟨h, l, p, b⟩ = pos ⟨h', l', p, b⟩ := rfl

theorem narrowed_bits (a : AEnc) (lo hi : Nat) : (narrowed a lo hi).bits = a.bits := by
  cases a; unfold narrowed; rfl

theorem narrowed_pending (a : AEnc) (lo hi : Nat) : (narrowed a lo hi).pending = a.pending := by
  cases a; unfold narrowed; rfl

theorem narrowed_high (a : AEnc) (lo hi : Nat) :
    (narrowed a lo hi).high = narrowHigh a.low (spanOf a.high a.low) hi := by
  cases a; unfold narrowed; rfl

theorem narrowed_low (a : AEnc) (lo hi : Nat) :
    (narrowed a lo hi).low = narrowLow a.low (spanOf a.high a.low) lo := by
  cases a; unfold narrowed; rfl

theorem off_narrowed (a : AEnc) (lo hi : Nat) : off (narrowed a lo hi) = off a := by
  cases a; unfold narrowed; exact off_mk _ _ _ _ _ _

theorem pos_narrowed (a : AEnc) (lo hi : Nat) : pos (narrowed a lo hi) = pos a := by
  cases a; unfold narrowed; exact pos_mk _ _ _ _ _ _

theorem aLoop_exit {n : Nat} {a a' : AEnc} (h : whileLoop aCond aStep n a = some a') :
    loopCond a'.high a'.low = false := by
  have := whileLoop_exit n a a' h
  rwa [aCond] at this

theorem Codable.cons {σ : Type} {cdf : CdfFun σ} {s : Nat} {rest : List Nat} {c : σ}
    (h : Codable cdf (s :: rest) c) : (cdf s c).1 < (cdf s c).2.1 ∧ (cdf s c).2.1 ≤ 65536 ∧
      Codable cdf rest (cdf s c).2.2 := by
  rwa [Codable] at h

theorem narrow_iv {a : AEnc} {lo hi : Nat} (hw : Wide a.high a.low) (h1 : lo < hi)
    (h2 : hi ≤ 65536) : Iv (narrowed a lo hi).high (narrowed a lo hi).low := by
  obtain ⟨_, e1, e2, e3, e4⟩ := narrow_spec hw h1 h2
  simp only [narrowed]
  rw [e1, e2]
  have := hw.1
  unfold Iv; omega

theorem aEnqueue_some {fuel : Nat} (hf : 32 ≤ fuel) {σ : Type} {cdf : CdfFun σ} {s : Nat} {a : AEnc} {c : σ}
    (hw : Wide a.high a.low) (h1 : (cdf s c).1 < (cdf s c).2.1) (h2 : (cdf s c).2.1 ≤ 65536) :
    ∃ a', aEnqueue fuel cdf s a c = some (a', (cdf s c).2.2) ∧ Wide a'.high a'.low := by
  have hiv := narrow_iv hw h1 h2
  obtain ⟨a', ha'⟩ := aLoop_terminates fuel (narrowed a (cdf s c).1 (cdf s c).2.1) hiv (by
      have : 2 ^ 32 ≤ 2 ^ fuel := Nat.pow_le_pow_right (by decide) hf
      nlinarith)
  refine ⟨a', by simp [aEnqueue, ha'], ?_⟩
  exact exit_wide (aLoop_iv _ _ _ hiv ha') (aLoop_exit ha')

theorem init_wide : Wide aInit.high aInit.low := by simp [Wide, aInit]

theorem aEncodeLoop_some {fuel : Nat} (hf : 32 ≤ fuel) {σ : Type} {cdf : CdfFun σ} : ∀ (msg : List Nat) (a : AEnc) (c : σ),
    Wide a.high a.low → Codable cdf msg c →
    ∃ a' c', aEncodeLoop fuel cdf msg a c = some (a', c') ∧ Wide a'.high a'.low := by
  intro msg
  induction msg with
  | nil => intro a c hw _; exact ⟨a, c, rfl, hw⟩
  | cons s rest ih =>
    intro a c hw hcod
    obtain ⟨h1, h2, h3⟩ := hcod.cons
    obtain ⟨a1, ha1, hw1⟩ := aEnqueue_some hf hw h1 h2
    obtain ⟨a2, c2, ha2, hw2⟩ := ih a1 _ hw1 h3
    exact ⟨a2, c2, by simp [aEncodeLoop, ha1, ha2], hw2⟩

/-- At the end of a non-empty message the loop condition is false. -/
theorem aEncodeLoop_exit {fuel : Nat} {σ : Type} {cdf : CdfFun σ} : ∀ (msg : List Nat) (a : AEnc) (c : σ)
    (a' : AEnc) (c' : σ), loopCond a.high a.low = false →
    aEncodeLoop fuel cdf msg a c = some (a', c') → loopCond a'.high a'.low = false := by
  intro msg
  induction msg with
  | nil => intro a c a' c' h he; simp [aEncodeLoop] at he; obtain ⟨rfl, rfl⟩ := he; exact h
  | cons s rest ih =>
    intro a c a' c' h he
    simp only [aEncodeLoop] at he
    split at he
    · simp at he
    · rename_i a1 c1 h1
      apply ih _ _ _ _ _ he
      simp only [aEnqueue, Option.map_eq_some_iff, Prod.mk.injEq] at h1
      obtain ⟨a2, h2, rfl, rfl⟩ := h1
      exact aLoop_exit h2

/-- Any stream starting with the final bits lies in the final interval. -/
theorem finish_inIv {S : Nat → Bool} {a : AEnc} (hx : loopCond a.high a.low = false)
    (hS : StartsWith S (aFinish a)) : InIv S a := by
  obtain ⟨x1, x2, x3⟩ := exit_spec hx
  have hP := P_startsWith _ hS
  have hlen : (aFinish a).length + 30 = pos a + 32 := by
    simp [aFinish, emit, pos]; omega
  have g1 := P_ge S (aFinish a).length 30
  have g2 := P_lt S (aFinish a).length 30
  rw [hlen, hP] at g1 g2
  have hpow : 0 < 2 ^ a.pending := Nat.pos_of_ne_zero (by simp)
  obtain ⟨k, hk⟩ : ∃ k, 2 ^ a.pending = k + 1 := ⟨2 ^ a.pending - 1, by omega⟩
  by_cases hlow : a.low < 1073741824
  · have hv : val (aFinish a) * 2 ^ 30 = off a + 1073741824 := by
      simp only [aFinish, emit, val_append, val, ONE_FOURTH, hlow, off]
      simp only [decide_true, Bool.not_true, Bool.not_false, val_replicate_true, Bool.toNat_false,
        List.length_cons, List.length_replicate]
      have h2 : 2 ^ (a.pending + 1) - 1 = 2 * k + 1 := by rw [pow_succ, hk]; omega
      rw [h2]
      simp only [pow_add, hk]; simp; ring
    unfold InIv
    omega
  · have hv : val (aFinish a) * 2 ^ 30 = off a + 2147483648 := by
      simp only [aFinish, emit, val_append, val, ONE_FOURTH, hlow, off]
      simp only [decide_false, Bool.not_true, Bool.not_false, val_replicate_false,
        Bool.toNat_true, List.length_cons, List.length_replicate]
      simp only [pow_add, hk]; simp; ring
    unfold InIv
    omega

/-- Narrowing: from the narrowed interval back to the wide one. -/
theorem narrow_back {S : Nat → Bool} {a : AEnc} {lo hi : Nat} (hw : Wide a.high a.low)
    (h1 : lo < hi) (h2 : hi ≤ 65536)
    (h : InIv S (narrowed a lo hi)) : InIv S a := by
  obtain ⟨_, e1, e2, e3, e4⟩ := narrow_spec hw h1 h2
  unfold InIv at h ⊢
  rw [off_narrowed, pos_narrowed] at h
  simp only [narrowed] at h
  rw [e1, e2] at h
  generalize P S (pos a + 32) = p at *
  omega

theorem aEncodeLoop_back {fuel : Nat} (hf : 32 ≤ fuel) {S : Nat → Bool} {σ : Type} {cdf : CdfFun σ} : ∀ (msg : List Nat)
    (a : AEnc) (c : σ) (a' : AEnc) (c' : σ), Wide a.high a.low → Codable cdf msg c →
    aEncodeLoop fuel cdf msg a c = some (a', c') → InIv S a' → InIv S a := by
  intro msg
  induction msg with
  | nil =>
    intro a c a' c' _ _ he hi
    simp [aEncodeLoop] at he; obtain ⟨rfl, rfl⟩ := he; exact hi
  | cons s rest ih =>
    intro a c a' c' hw hcod he hi
    obtain ⟨h1, h2, h3⟩ := hcod.cons
    obtain ⟨a1, ha1, hw1⟩ := aEnqueue_some hf hw h1 h2
    simp only [aEncodeLoop, ha1] at he
    have hi1 := ih a1 _ _ _ hw1 h3 he hi
    simp only [aEnqueue, Option.map_eq_some_iff, Prod.mk.injEq] at ha1
    obtain ⟨a2, h4, rfl, _⟩ := ha1
    exact narrow_back hw h1 h2 (aLoop_back _ _ _ (narrow_iv hw h1 h2) h4 hi1)

theorem decodeLoop_eq {fuel : Nat} (hf : 32 ≤ fuel) {arr : List Nat} {σ τ : Type} {cdf : CdfFun σ} {icdf : InvCdfFun τ}
    {R : σ → τ → Prop} (hag : Agree cdf icdf R) : ∀ (msg : List Nat) (a : AEnc) (c : σ) (t : τ)
    (d : Dec) (a' : AEnc) (c' : σ), Wide a.high a.low → Codable cdf msg c → R c t →
    aEncodeLoop fuel cdf msg a c = some (a', c') → InIv (stream arr) a' → Rel arr a d →
    decodeLoop fuel icdf arr msg.length d t = .ok (msg.map (· % 256)) := by
  intro msg
  induction msg with
  | nil => intros; rfl
  | cons s rest ih =>
    intro a c t d a' c' hw hcod hR he hi r
    obtain ⟨h1, h2, h3⟩ := hcod.cons
    obtain ⟨a1, ha1, hw1⟩ := aEnqueue_some hf hw h1 h2
    simp only [aEncodeLoop, ha1] at he
    have hi1 := aEncodeLoop_back hf rest a1 _ _ _ hw1 h3 he hi
    have ha1' := ha1
    simp only [aEnqueue, Option.map_eq_some_iff, Prod.mk.injEq] at ha1
    obtain ⟨a2, h4, rfl, _⟩ := ha1
    have hiv := narrow_iv hw h1 h2
    have hin := aLoop_back _ _ _ hiv h4 hi1
    have hia := narrow_back hw h1 h2 hin
    obtain ⟨v1, v2⟩ := hia.between r
    -- the narrowed relation
    have rn : Rel arr (narrowed a (cdf s c).1 (cdf s c).2.1)
        { d with high := narrowHigh a.low (spanOf a.high a.low) (cdf s c).2.1,
                 low := narrowLow a.low (spanOf a.high a.low) (cdf s c).1 } :=
      ⟨by simp only [narrowed], by simp only [narrowed],
        by rw [off_narrowed, pos_narrowed]; exact r.value,
        by rw [pos_narrowed]; exact r.idx, r.bitIdx⟩
    obtain ⟨w1, w2⟩ := hin.between rn
    obtain ⟨_, e1, e2, e3, e4⟩ := narrow_spec hw h1 h2
    simp only [narrowed] at w1 w2
    rw [e1] at w2
    rw [e2] at w1
    have hmem := (scaled_mem (lo := (cdf s c).1) (hi := (cdf s c).2.1) hw v1 v2).mpr (by omega)
    obtain ⟨t', ht', hR'⟩ := hag c t hR s _ hmem.1 hmem.2 h2
    obtain ⟨d', hd', r'⟩ := decLoop_rel fuel _ _ _ hiv h4 hi1 rn
    have hdq : dequeue fuel icdf arr d t = .ok (d', s, t') := by
      simp only [dequeue]
      rw [r.high, r.low, ht']
      dsimp only
      rw [hd']
    have := ih _ _ t' d' a' c' hw1 h3 hR' he hi r'
    simp only [List.length_cons, decodeLoop, hdq, this, List.map_cons]

end Verif.AC
