import Verif.AC.Props
import Mathlib.Analysis.Complex.ExponentialBounds

/-
How large the buffer of `encode` must be (C01, C07): a bound by the information content of the message, and the
default buffer of one and a half bytes per symbol.
-/
namespace Verif.AC

/-- **C01, capacity.**  Whatever the message: a buffer that holds its information content, `log2 (2^14 / (2^14 - 1))`
bits per symbol more and two bits suffices; encoding succeeds and decoding returns the message. -/
theorem C01_capacity {σ τ : Type} {cdf : CdfFun σ} {icdf : InvCdfFun τ} {R : σ → τ → Prop}
    (hag : Agree cdf icdf R) {c : σ} {t : τ} (hR : R c t) {msg : List Nat} (hb : Bytes msg)
    (hcod : Codable cdf msg c) {fuel cap : Nat} (hf : 32 ≤ fuel)
    (hroom : infoBits cdf msg c + msg.length * Real.logb 2 (2 ^ 14 / (2 ^ 14 - 1)) + 2 < 8 * cap) :
    ∃ data, encode fuel cdf c cap msg = .ok data ∧ data.length ≤ cap ∧
      decode fuel icdf [⟨data, msg.length, t⟩] = .ok [msg] := by
  obtain ⟨b', hj, hl, _⟩ := jaxEncode_spec hf (cap := (codeBits fuel cdf c msg).length + 1) (by omega) hcod
  have h1 : encode fuel cdf c ((codeBits fuel cdf c msg).length + 1) msg =
      .ok (b'.take ((codeBits fuel cdf c msg).length / 8 + 1)) := by
    simp only [encode, hj]
    rw [if_neg (by omega)]
  have h2 := C06_code_length_log hcod hf h1
  rw [List.length_take, hl, show min ((codeBits fuel cdf c msg).length / 8 + 1) ((codeBits fuel cdf c msg).length + 1)
    - 1 = (codeBits fuel cdf c msg).length / 8 by omega] at h2
  have h3 : ((codeBits fuel cdf c msg).length / 8 : ℕ) < cap := by
    have : (8 * ((codeBits fuel cdf c msg).length / 8 : ℕ) : ℝ) < 8 * cap := lt_of_le_of_lt h2 hroom
    have : (((codeBits fuel cdf c msg).length / 8 : ℕ) : ℝ) < cap := by linarith
    exact_mod_cast this
  obtain ⟨b, hk, hl', _⟩ := jaxEncode_spec hf (cap := cap) (by omega) hcod
  obtain ⟨g1, g2⟩ := C01_roundtrip hag hR hb hcod hf hk h3
  refine ⟨_, g1, ?_, g2⟩
  rw [List.length_take]
  omega

/-- **C01, default buffer.**  From seven symbols on, a message of at most 11 bits of information per symbol on
average fits into the default buffer: encoding succeeds and decoding returns the message. -/
theorem C01_default_buffer {σ τ : Type} {cdf : CdfFun σ} {icdf : InvCdfFun τ} {R : σ → τ → Prop}
    (hag : Agree cdf icdf R) {c : σ} {t : τ} (hR : R c t) {msg : List Nat} (hb : Bytes msg)
    (hcod : Codable cdf msg c) {fuel : Nat} (hf : 32 ≤ fuel) (hn : 7 ≤ msg.length)
    (hinfo : infoBits cdf msg c ≤ 11 * msg.length) :
    ∃ data, encode fuel cdf c (defaultBuffer msg.length) msg = .ok data ∧
      decode fuel icdf [⟨data, msg.length, t⟩] = .ok [msg] := by
  have hroom : infoBits cdf msg c + msg.length * Real.logb 2 (2 ^ 14 / (2 ^ 14 - 1)) + 2 <
      8 * (defaultBuffer msg.length : ℝ) := by
    have he : Real.logb 2 (2 ^ 14 / (2 ^ 14 - 1)) ≤ 1 / 8 := by
      rw [Real.logb, div_le_iff₀ (Real.log_pos (by norm_num))]
      have h3 := Real.log_le_sub_one_of_pos (x := (2 ^ 14 / (2 ^ 14 - 1) : ℝ)) (by norm_num)
      have h4 := Real.log_two_gt_d9
      norm_num at h3 ⊢
      linarith
    have hcap : (12 : ℝ) * msg.length - 4 ≤ 8 * (defaultBuffer msg.length : ℝ) := by
      have : 12 * msg.length ≤ 8 * defaultBuffer msg.length + 4 := by
        rw [defaultBuffer]; omega
      have : ((12 * msg.length : Nat) : ℝ) ≤ ((8 * defaultBuffer msg.length + 4 : Nat) : ℝ) := by
        exact_mod_cast this
      push_cast at this
      linarith
    have hn' : (7 : ℝ) ≤ msg.length := by exact_mod_cast hn
    have e2 : (msg.length : ℝ) * Real.logb 2 (2 ^ 14 / (2 ^ 14 - 1)) ≤ msg.length * (1 / 8) :=
      mul_le_mul_of_nonneg_left he (by linarith)
    linarith
  obtain ⟨data, h1, _, h2⟩ := C01_capacity hag hR hb hcod hf hroom
  exact ⟨data, h1, h2⟩

/-- A message over a table whose symbols have a frequency of at least 32 has at most 11 bits per symbol. -/
theorem table_info {tbl : List Nat} (hw : ∀ s, s + 1 < tbl.length → tbl.getD s 0 + 32 ≤ tbl.getD (s + 1) 0) :
    ∀ {msg : List Nat}, (∀ s ∈ msg, s + 1 < tbl.length) → infoBits (tableCdf tbl) msg () ≤ 11 * msg.length := by
  intro msg
  induction msg with
  | nil => intro _; simp [infoBits]
  | cons s rest ih =>
    intro h
    have h1 := ih fun x hx => h x (by simp [hx])
    have h2 := hw s (h s (by simp))
    simp only [infoBits, List.length_cons, tableCdf] at h1 ⊢
    have h3 : (32 : ℝ) ≤ ((tbl.getD (s + 1) 0 : Nat) : ℝ) - ((tbl.getD s 0 : Nat) : ℝ) := by
      have : ((tbl.getD s 0 + 32 : Nat) : ℝ) ≤ ((tbl.getD (s + 1) 0 : Nat) : ℝ) := by exact_mod_cast h2
      push_cast at this
      linarith
    have h4 : Real.logb 2 (2 ^ 16 / (((tbl.getD (s + 1) 0 : Nat) : ℝ) - ((tbl.getD s 0 : Nat) : ℝ))) ≤ 11 := by
      have : (2 : ℝ) ^ 16 / (((tbl.getD (s + 1) 0 : Nat) : ℝ) - ((tbl.getD s 0 : Nat) : ℝ)) ≤ 2 ^ 11 := by
        rw [div_le_iff₀ (by linarith), show (2 : ℝ) ^ 16 = 2 ^ 11 * 32 by norm_num]
        exact mul_le_mul_of_nonneg_left h3 (by positivity)
      have h5 := Real.logb_le_logb_of_le (b := 2) (by norm_num) (by positivity) this
      rwa [Real.logb_pow, Real.logb_self_eq_one (by norm_num), mul_one] at h5
    push_cast
    linarith

/-- **C01, default buffer for tables.**  With a table whose symbols have a frequency of at least 32 (of 65536), every
message of seven or more symbols is encoded into the default buffer and decoded, no further hypothesis. -/
theorem C01_default_buffer_table {tbl : List Nat} (htbl : ValidTable tbl) (hsz : tbl.length ≤ 257)
    (hw : ∀ s, s + 1 < tbl.length → tbl.getD s 0 + 32 ≤ tbl.getD (s + 1) 0) {msg : List Nat}
    (hmsg : ∀ s ∈ msg, s + 1 < tbl.length) (hn : 7 ≤ msg.length) {fuel : Nat} (hf : 32 ≤ fuel) :
    ∃ data, encode fuel (tableCdf tbl) () (defaultBuffer msg.length) msg = .ok data ∧
      decode fuel (tableInv tbl) [⟨data, msg.length, ()⟩] = .ok [msg] :=
  C01_default_buffer (table_agree htbl) trivial (fun s hs => by have := hmsg s hs; omega)
    (table_codable htbl msg hmsg) hf hn (table_info hw hmsg)

example : ∃ data, encode 32 (tableCdf [0, 32, 64, 65536]) () (defaultBuffer 7) [0, 1, 0, 1, 0, 1, 0] = .ok data ∧
    data.length = 10 ∧
    decode 32 (tableInv [0, 32, 64, 65536]) [⟨data, 7, ()⟩] = .ok [[0, 1, 0, 1, 0, 1, 0]] := by
  exact ⟨[0, 0, 4, 0, 0, 16, 0, 0, 64, 2], by decide +kernel, rfl, by decide +kernel⟩

/-- **C07 with the default buffer.**  With rarer symbols the default buffer is not always enough, and the failure is
silent: a message of eleven symbols is encoded into the default buffer without an error and decodes to another
message. -/
theorem C07_violated_default : ∃ (tbl msg data other : List Nat), ValidTable tbl ∧ (∀ s ∈ msg, s + 1 < tbl.length) ∧
    encode 32 (tableCdf tbl) () (defaultBuffer msg.length) msg = .ok data ∧
    decode 32 (tableInv tbl) [⟨data, msg.length, ()⟩] = .ok [other] ∧ other ≠ msg ∧ msg.length = 11 := by
  cases h : encode 32 (tableCdf [0, 1, 20, 65536]) () (defaultBuffer 11) [2, 0, 2, 1, 1, 0, 0, 0, 0, 1, 0] with
  | error e =>
    exact absurd h (by
      have : (match encode 32 (tableCdf [0, 1, 20, 65536]) () (defaultBuffer 11) [2, 0, 2, 1, 1, 0, 0, 0, 0, 1, 0] with
        | .ok _ => true | .error _ => false) = true := by decide +kernel
      intro h'
      rw [h'] at this
      cases this)
  | ok data =>
    refine ⟨[0, 1, 20, 65536], [2, 0, 2, 1, 1, 0, 0, 0, 0, 1, 0], data, [2, 0, 2, 1, 1, 0, 0, 0, 0, 0, 2],
      ⟨rfl, rfl, by decide⟩, by decide, h, ?_, by decide, rfl⟩
    have : (match encode 32 (tableCdf [0, 1, 20, 65536]) () (defaultBuffer 11) [2, 0, 2, 1, 1, 0, 0, 0, 0, 1, 0] with
      | .ok d => decode 32 (tableInv [0, 1, 20, 65536]) [⟨d, 11, ()⟩]
      | .error e => .error e) = .ok [[2, 0, 2, 1, 1, 0, 0, 0, 0, 0, 2]] := by decide +kernel
    rw [h] at this
    exact this

end Verif.AC
