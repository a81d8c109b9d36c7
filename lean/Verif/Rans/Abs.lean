import Mathlib.Tactic.Ring
import Mathlib.Tactic.Linarith
import Mathlib.Data.List.Forall2
import Mathlib.Algebra.Order.Ring.Nat
import Verif.Rans.Model

/-
An abstract view of the rANS state: the heads and the live stack (top first), with
partial push and pop operations.  `none` means that the tail has no room (push),
too few bytes (pop), or that the slice read by a pop would not fit.
-/
namespace Verif.Rans

structure St where
  heads : List Nat
  stack : List Nat
  deriving DecidableEq, Repr

/-- Low bytes of the selected lanes, in lane order. -/
def outs : List Bool → List Nat → List Nat
  | true :: is, h :: hs => h % 256 :: outs is hs
  | false :: is, _ :: hs => outs is hs
  | _, _ => []

/-- Selected lanes shifted down by one byte. -/
def shr8 : List Bool → List Nat → List Nat
  | true :: is, h :: hs => h / 256 :: shr8 is hs
  | false :: is, h :: hs => h :: shr8 is hs
  | _, _ => []

/-- Selected lanes shifted up, reading one byte each. -/
def readL : List Bool → List Nat → List Nat → List Nat
  | true :: is, h :: hs, b :: bs => (h * 256 + b) :: readL is hs bs
  | true :: is, h :: hs, [] => h * 256 :: readL is hs []
  | false :: is, h :: hs, bs => h :: readL is hs bs
  | _, _, _ => []

theorem countTrue_cons (b : Bool) (is : List Bool) :
    countTrue (b :: is) = (if b then 1 else 0) + countTrue is := by
  cases b <;> simp [countTrue, Nat.add_comm]

theorem outs_length : ∀ (idx : List Bool) (hs : List Nat), idx.length = hs.length →
    (outs idx hs).length = countTrue idx := by
  intro idx
  induction idx with
  | nil => intro hs _; simp [outs, countTrue]
  | cons b is ih =>
    intro hs hl
    cases hs with
    | nil => simp at hl
    | cons h hs =>
      have := ih hs (by simpa using hl)
      cases b <;> simp [outs, countTrue_cons, this, Nat.add_comm]

theorem outs_bytes : ∀ (idx : List Bool) (hs : List Nat), ∀ x ∈ outs idx hs, x < 256 := by
  intro idx
  induction idx with
  | nil => intro hs x hx; simp [outs] at hx
  | cons b is ih =>
    intro hs x hx
    cases hs with
    | nil => cases b <;> simp [outs] at hx
    | cons h hs =>
      cases b
      · exact ih hs x (by simpa [outs] using hx)
      · rcases List.mem_cons.mp (by simpa [outs] using hx) with h1 | h1
        · omega
        · exact ih hs x h1

theorem shr8_length : ∀ (idx : List Bool) (hs : List Nat), idx.length = hs.length →
    (shr8 idx hs).length = hs.length := by
  intro idx
  induction idx with
  | nil => intro hs h; cases hs <;> simp_all [shr8]
  | cons b is ih =>
    intro hs hl
    cases hs with
    | nil => simp at hl
    | cons h hs =>
      have := ih hs (by simpa using hl)
      cases b <;> simp [shr8, this]

theorem readL_length : ∀ (idx : List Bool) (hs bs : List Nat), idx.length = hs.length →
    (readL idx hs bs).length = hs.length := by
  intro idx
  induction idx with
  | nil => intro hs bs h; cases hs <;> simp_all [readL]
  | cons b is ih =>
    intro hs bs hl
    cases hs with
    | nil => simp at hl
    | cons h hs =>
      cases b
      · simp [readL, ih hs bs (by simpa using hl)]
      · cases bs with
        | nil => simp [readL, ih hs [] (by simpa using hl)]
        | cons b bs => simp [readL, ih hs bs (by simpa using hl)]

/-- Reading the bytes that were written restores the heads. -/
theorem readL_outs : ∀ (idx : List Bool) (hs : List Nat), idx.length = hs.length →
    readL idx (shr8 idx hs) (outs idx hs) = hs := by
  intro idx
  induction idx with
  | nil => intro hs h; cases hs <;> simp_all [readL]
  | cons b is ih =>
    intro hs hl
    cases hs with
    | nil => simp at hl
    | cons h hs =>
      have := ih hs (by simpa using hl)
      cases b
      · simp [shr8, outs, readL, this]
      · simp only [shr8, outs, readL, this]
        congr 1; omega

/-- Writing after reading restores the heads and the bytes. -/
theorem outs_readL : ∀ (idx : List Bool) (hs bs : List Nat), idx.length = hs.length →
    bs.length = countTrue idx → (∀ b ∈ bs, b < 256) →
    outs idx (readL idx hs bs) = bs ∧ shr8 idx (readL idx hs bs) = hs := by
  intro idx
  induction idx with
  | nil =>
    intro hs bs h hb _
    cases hs with
    | nil => cases bs <;> simp_all [outs, shr8, countTrue]
    | cons _ _ => simp at h
  | cons b is ih =>
    intro hs bs hl hb hlt
    cases hs with
    | nil => simp at hl
    | cons h hs =>
      cases b
      · have := ih hs bs (by simpa using hl) (by simpa [countTrue_cons] using hb) hlt
        simp [readL, outs, shr8, this]
      · cases bs with
        | nil => simp [countTrue_cons] at hb; omega
        | cons b bs =>
          have := ih hs bs (by simpa using hl)
            (by simp [countTrue_cons] at hb; omega) (fun x hx => hlt x (by simp [hx]))
          have hb' := hlt b (by simp)
          simp only [readL, outs, shr8, this]
          refine ⟨?_, ?_⟩ <;> congr 1 <;> omega

/-! ### Abstract steps -/

/-- Lanes that write a byte. -/
def condIdx (shift : Nat) (heads freqs : List Nat) : List Bool :=
  List.zipWith (fun h f => decide (f ≤ h / 2 ^ shift)) heads freqs

/-- Lanes that read a byte. -/
def lowIdx (heads : List Nat) : List Bool := heads.map (fun h => decide (h < HEAD_MIN))

def aPushStep (cap shift : Nat) (freqs : List Nat) (s : St) : Option St :=
  let idx := condIdx shift s.heads freqs
  if s.stack.length + s.heads.length ≤ cap then
    some ⟨shr8 idx s.heads, outs idx s.heads ++ s.stack⟩
  else none

def aPopStep (cap : Nat) (s : St) : Option St :=
  let idx := lowIdx s.heads
  let t := countTrue idx
  if t ≤ s.stack.length ∧ s.stack.length - t + s.heads.length ≤ cap then
    some ⟨readL idx s.heads (s.stack.take t), s.stack.drop t⟩
  else none

/-- A lane's slot: lower end and frequency. -/
abbrev Slot := Nat × Nat

def aPushHeads (p : Nat) (heads : List Nat) (slots : List Slot) : List Nat :=
  List.zipWith (fun h s => h / s.2 * 2 ^ p + h % s.2 + s.1) heads slots

def aPopHeads (p : Nat) (heads : List Nat) (slots : List Slot) : List Nat :=
  List.zipWith (fun h s => s.2 * (h / 2 ^ p) + (h % 2 ^ p - s.1)) heads slots

def aPush (cap p : Nat) (slots : List Slot) (s : St) : Option St :=
  let f := slots.map Prod.snd
  (aPushStep cap (48 - p) f s).bind fun s1 =>
  (aPushStep cap (40 - p) f s1).bind fun s2 =>
  (aPushStep cap (32 - p) f s2).map fun s3 =>
  ⟨aPushHeads p s3.heads slots, s3.stack⟩

def aPop (cap p : Nat) (slots : List Slot) (s : St) : Option St :=
  (aPopStep cap ⟨aPopHeads p s.heads slots, s.stack⟩).bind fun s1 =>
  (aPopStep cap s1).bind fun s2 => aPopStep cap s2

/-! ### One lane -/

/-- A frequency and slot that fit the precision. -/
structure SlotOk (p : Nat) (s : Slot) : Prop where
  pos : 1 ≤ s.2
  fits : s.1 + s.2 ≤ 2 ^ p

/-- The coder's range of heads. -/
def HeadOk (h : Nat) : Prop := 2 ^ 24 ≤ h ∧ h < 2 ^ 32

theorem pow_split {p : Nat} (hp : p ≤ 24) :
    2 ^ p * 2 ^ (32 - p) = 4294967296 ∧ 256 ≤ 2 ^ (32 - p) ∧ 2 ^ (40 - p) = 2 ^ (32 - p) * 256 ∧
    2 ^ (48 - p) = 2 ^ (32 - p) * 65536 := by
  refine ⟨?_, ?_, ?_, ?_⟩
  · rw [← pow_add, show p + (32 - p) = 32 by omega]; norm_num
  · calc 256 = 2 ^ 8 := by norm_num
      _ ≤ _ := Nat.pow_le_pow_right (by norm_num) (by omega)
  · rw [show 40 - p = (32 - p) + 8 by omega, pow_add]; norm_num
  · rw [show 48 - p = (32 - p) + 16 by omega, pow_add]; norm_num

/-- The three write conditions as comparisons with `G = f * 2^(32 - p)`. -/
theorem cond_iff {p : Nat} (hp : p ≤ 24) (f h : Nat) :
    (f ≤ h / 2 ^ (32 - p) ↔ f * 2 ^ (32 - p) ≤ h) ∧
    (f ≤ h / 2 ^ (40 - p) ↔ f * 2 ^ (32 - p) * 256 ≤ h) ∧
    (f ≤ h / 2 ^ (48 - p) ↔ f * 2 ^ (32 - p) * 65536 ≤ h) := by
  obtain ⟨_, _, e1, e2⟩ := pow_split hp
  have : 0 < 2 ^ (32 - p) := by positivity
  refine ⟨Nat.le_div_iff_mul_le this, ?_, ?_⟩
  · rw [Nat.le_div_iff_mul_le (by positivity), e1, Nat.mul_assoc]
  · rw [Nat.le_div_iff_mul_le (by positivity), e2, Nat.mul_assoc]

theorem g_bounds {p : Nat} (hp : p ≤ 24) {s : Slot} (hs : SlotOk p s) :
    256 ≤ s.2 * 2 ^ (32 - p) ∧ s.2 * 2 ^ (32 - p) ≤ 4294967296 := by
  obtain ⟨e, h256, _, _⟩ := pow_split hp
  have h1 := hs.pos
  have h2 := hs.fits
  constructor
  · calc 256 = 1 * 256 := rfl
      _ ≤ _ := Nat.mul_le_mul h1 h256
  · rw [← e]; exact Nat.mul_le_mul_right _ (by omega)

/-- One lane of the three write steps. -/
def laneStep (shift f h : Nat) : Nat := if f ≤ h / 2 ^ shift then h / 256 else h

theorem lane_push {p : Nat} (hp : p ≤ 24) {s : Slot} (hs : SlotOk p s) {h : Nat} (hh : HeadOk h) :
    let h1 := laneStep (48 - p) s.2 h
    let h2 := laneStep (40 - p) s.2 h1
    let h3 := laneStep (32 - p) s.2 h2
    (h1 < 16777216 ↔ s.2 ≤ h / 2 ^ (48 - p)) ∧ (h2 < 16777216 ↔ s.2 ≤ h1 / 2 ^ (40 - p)) ∧
    (h3 < 16777216 ↔ s.2 ≤ h2 / 2 ^ (32 - p)) ∧ h3 < s.2 * 2 ^ (32 - p) ∧
    s.2 * 2 ^ (32 - p) ≤ h3 * 256 := by
  obtain ⟨g1, g2⟩ := g_bounds hp hs
  obtain ⟨hh1, hh2⟩ := hh
  have hK : ∃ K, s.2 * 2 ^ (32 - p) = 256 * K := ⟨s.2 * 2 ^ (24 - p), by
    rw [show 32 - p = (24 - p) + 8 by omega, pow_add]; ring⟩
  simp only [laneStep]
  simp only [(cond_iff hp s.2 _).1, (cond_iff hp s.2 _).2.1, (cond_iff hp s.2 _).2.2]
  generalize s.2 * 2 ^ (32 - p) = G at *
  obtain ⟨K, hK⟩ := hK
  norm_num at hh1 hh2
  refine ⟨?_, ?_, ?_, ?_, ?_⟩ <;> split_ifs <;> omega

/-- One lane reading a byte if it is low. -/
def ReadRel (h h' : Nat) : Prop :=
  (16777216 ≤ h ∧ h' = h) ∨ (h < 16777216 ∧ ∃ b, b < 256 ∧ h' = h * 256 + b)

/-- The head between decoding a slot and renormalising. -/
def MidOk (p : Nat) (h : Nat) (s : Slot) : Prop :=
  SlotOk p s ∧ h < s.2 * 2 ^ (32 - p) ∧ s.2 * 2 ^ (32 - p) ≤ h * 256

theorem lane_pop {p : Nat} (hp : p ≤ 24) {s : Slot} {h3 h2 h1 h0 : Nat} (hm : MidOk p h3 s)
    (r2 : ReadRel h3 h2) (r1 : ReadRel h2 h1) (r0 : ReadRel h1 h0) :
    HeadOk h0 ∧ (s.2 ≤ h0 / 2 ^ (48 - p) ↔ h1 < 16777216) ∧
    (s.2 ≤ h1 / 2 ^ (40 - p) ↔ h2 < 16777216) ∧ (s.2 ≤ h2 / 2 ^ (32 - p) ↔ h3 < 16777216) := by
  obtain ⟨hs, m1, m2⟩ := hm
  obtain ⟨g1, g2⟩ := g_bounds hp hs
  simp only [(cond_iff hp s.2 _).1, (cond_iff hp s.2 _).2.1, (cond_iff hp s.2 _).2.2, HeadOk]
  generalize s.2 * 2 ^ (32 - p) = G at *
  norm_num
  rcases r2 with ⟨a1, rfl⟩ | ⟨a1, b1, c1, rfl⟩ <;> rcases r1 with ⟨a2, rfl⟩ | ⟨a2, b2, c2, rfl⟩ <;>
    rcases r0 with ⟨a3, rfl⟩ | ⟨a3, b3, c3, rfl⟩ <;> omega

theorem mid_of_head {p : Nat} (hp : p ≤ 24) {s : Slot} (hs : SlotOk p s) {x : Nat} (hx : HeadOk x)
    (h1 : s.1 ≤ x % 2 ^ p) (h2 : x % 2 ^ p < s.1 + s.2) :
    MidOk p (s.2 * (x / 2 ^ p) + (x % 2 ^ p - s.1)) s := by
  refine ⟨hs, ?_, ?_⟩
  · have : x / 2 ^ p < 2 ^ (32 - p) := by
      rw [Nat.div_lt_iff_lt_mul (by positivity), Nat.mul_comm, (pow_split hp).1]
      exact hx.2
    calc s.2 * (x / 2 ^ p) + (x % 2 ^ p - s.1) < s.2 * (x / 2 ^ p) + s.2 := by omega
      _ = s.2 * (x / 2 ^ p + 1) := by ring
      _ ≤ _ := Nat.mul_le_mul_left _ this
  · have h24 : 2 ^ (24 - p) ≤ x / 2 ^ p := by
      rw [Nat.le_div_iff_mul_le (by positivity), ← pow_add, show 24 - p + p = 24 by omega]
      exact hx.1
    have e : 2 ^ (32 - p) = 2 ^ (24 - p) * 256 := by
      rw [show 32 - p = (24 - p) + 8 by omega, pow_add]; norm_num
    rw [e]
    calc s.2 * (2 ^ (24 - p) * 256) = s.2 * 2 ^ (24 - p) * 256 := by ring
      _ ≤ (s.2 * (x / 2 ^ p) + (x % 2 ^ p - s.1)) * 256 := by
        apply Nat.mul_le_mul_right
        exact le_trans (Nat.mul_le_mul_left _ h24) (Nat.le_add_right _ _)

/-- Decoding the slot inverts the final head update. -/
theorem head_roundtrip {p : Nat} {s : Slot} (hs : SlotOk p s) (h : Nat) :
    let x := h / s.2 * 2 ^ p + h % s.2 + s.1
    x % 2 ^ p = h % s.2 + s.1 ∧ x / 2 ^ p = h / s.2 ∧
    s.2 * (x / 2 ^ p) + (x % 2 ^ p - s.1) = h := by
  intro x
  have hlt : h % s.2 < s.2 := Nat.mod_lt _ hs.pos
  have hf := hs.fits
  have e1 : x % 2 ^ p = h % s.2 + s.1 := by
    show (h / s.2 * 2 ^ p + h % s.2 + s.1) % 2 ^ p = _
    rw [Nat.add_assoc, Nat.mul_comm, Nat.mul_add_mod, Nat.mod_eq_of_lt (by omega)]
  have e2 : x / 2 ^ p = h / s.2 := by
    show (h / s.2 * 2 ^ p + h % s.2 + s.1) / 2 ^ p = _
    rw [Nat.add_assoc, Nat.mul_comm, Nat.mul_add_div (by positivity),
      Nat.div_eq_of_lt (show h % s.2 + s.1 < 2 ^ p by omega), Nat.add_zero]
  refine ⟨e1, e2, ?_⟩
  rw [e1, e2]
  have := Nat.div_add_mod h s.2
  omega

theorem head_roundtrip' {p : Nat} {s : Slot} {x : Nat}
    (h1 : s.1 ≤ x % 2 ^ p) (h2 : x % 2 ^ p < s.1 + s.2) :
    let h := s.2 * (x / 2 ^ p) + (x % 2 ^ p - s.1)
    h / s.2 * 2 ^ p + h % s.2 + s.1 = x := by
  intro h
  have hpos : 0 < s.2 := by omega
  have e1 : h / s.2 = x / 2 ^ p := by
    show (s.2 * (x / 2 ^ p) + (x % 2 ^ p - s.1)) / s.2 = _
    rw [Nat.mul_add_div hpos, Nat.div_eq_of_lt (show x % 2 ^ p - s.1 < s.2 by omega), Nat.add_zero]
  have e2 : h % s.2 = x % 2 ^ p - s.1 := by
    show (s.2 * (x / 2 ^ p) + (x % 2 ^ p - s.1)) % s.2 = _
    rw [Nat.mul_add_mod, Nat.mod_eq_of_lt (by omega)]
  rw [e1, e2]
  have := Nat.div_add_mod x (2 ^ p)
  rw [Nat.mul_comm] at this
  omega

theorem push_head_range {p : Nat} (hp : p ≤ 24) {s : Slot} {h : Nat} (hm : MidOk p h s) :
    HeadOk (h / s.2 * 2 ^ p + h % s.2 + s.1) := by
  obtain ⟨hs, m1, m2⟩ := hm
  have hlt : h % s.2 < s.2 := Nat.mod_lt _ hs.pos
  have hf := hs.fits
  constructor
  · have h24 : 2 ^ (24 - p) ≤ h / s.2 := by
      rw [Nat.le_div_iff_mul_le hs.pos]
      have e : 2 ^ (32 - p) = 2 ^ (24 - p) * 256 := by
        rw [show 32 - p = (24 - p) + 8 by omega, pow_add]; norm_num
      rw [e, ← Nat.mul_assoc] at m2
      have := Nat.le_of_mul_le_mul_right m2 (by norm_num)
      rwa [Nat.mul_comm]
    calc 2 ^ 24 = 2 ^ (24 - p) * 2 ^ p := by rw [← pow_add]; congr 1; omega
      _ ≤ h / s.2 * 2 ^ p := Nat.mul_le_mul_right _ h24
      _ ≤ _ := by omega
  · have : h / s.2 + 1 ≤ 2 ^ (32 - p) := by
      have : h / s.2 < 2 ^ (32 - p) := by
        rw [Nat.div_lt_iff_lt_mul hs.pos, Nat.mul_comm]; exact m1
      omega
    have e := (pow_split hp).1
    calc h / s.2 * 2 ^ p + h % s.2 + s.1 < h / s.2 * 2 ^ p + 2 ^ p := by omega
      _ = 2 ^ p * (h / s.2 + 1) := by ring
      _ ≤ 2 ^ p * 2 ^ (32 - p) := Nat.mul_le_mul_left _ this
      _ = _ := by rw [e]; norm_num

end Verif.Rans
