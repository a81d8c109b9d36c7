import Verif.AC.Main
import Verif.AC.Table
import Verif.Basic
import Mathlib.Analysis.SpecialFunctions.Log.Base

/-
Properties C01-C07 of the arithmetic coder.  In all theorems `fuel` is the
iteration budget given to the code's `while_loop`s; the statements hold for
every budget of at least 32, so the loops terminate.
-/
namespace Verif.AC

/-- The message contains only 8-bit symbols. -/
def Bytes (msg : List Nat) : Prop := ∀ s ∈ msg, s < 256

theorem map_mod_eq {msg : List Nat} (h : Bytes msg) : msg.map (· % 256) = msg := by
  induction msg with
  | nil => rfl
  | cons s rest ih =>
    rw [List.map_cons, ih (fun x hx => h x (by simp [hx])), Nat.mod_eq_of_lt (h s (by simp))]

theorem decode_single {fuel : Nat} {τ : Type} {icdf : InvCdfFun τ} {data : List Nat} {n : Nat} {t : τ}
    {m : List Nat} (hd : data ≠ [])
    (h : decodeLoop fuel icdf data n (loadBits data 32 decInit) t = .ok m) :
    decode fuel icdf [⟨data, n, t⟩] = .ok [m] := by
  have hlen : data.length ≠ 0 := by simpa using hd
  simp [decode, maxOf, mapExcept, jaxDecode, hlen, h]

theorem Stores.ne_nil {bits : List Bool} {b : List Nat} (h : Stores bits b) : b ≠ [] := by
  rintro rfl; exact absurd h.room (by simp)

/-! ### C01 -/

/-- **C01, round trip.**  Whenever the encoder's write position `i` is inside its
buffer, `encode` returns the bytes and `decode` returns the message. -/
theorem C01_roundtrip {σ τ : Type} {cdf : CdfFun σ} {icdf : InvCdfFun τ} {R : σ → τ → Prop}
    (hag : Agree cdf icdf R) {c : σ} {t : τ} (hR : R c t) {msg : List Nat} (hb : Bytes msg)
    (hcod : Codable cdf msg c) {fuel cap : Nat} (hf : 32 ≤ fuel) {b : List Nat} {i : Nat}
    (henc : jaxEncode fuel cdf c cap msg = .ok (b, i)) (hroom : i < cap) :
    encode fuel cdf c cap msg = .ok (b.take (i + 1)) ∧
    decode fuel icdf [⟨b.take (i + 1), msg.length, t⟩] = .ok [msg] := by
  obtain ⟨b', hj, hl, hst⟩ := jaxEncode_spec hf (cap := cap) (by omega) hcod
  rw [hj] at henc
  obtain ⟨rfl, rfl⟩ : b' = b ∧ (codeBits fuel cdf c msg).length / 8 = i := by
    simpa using henc
  have hs := (hst hroom).take
  refine ⟨?_, ?_⟩
  · simp only [encode, hj]
    rw [if_neg (by omega)]
  · apply decode_single hs.ne_nil
    rw [decodeLoop_stores hf hag hR hcod hs, map_mod_eq hb]

/-- The code never needs more than three bytes per symbol plus one. -/
theorem codeBits_short {fuel : Nat} (hf : 32 ≤ fuel) {σ : Type} {cdf : CdfFun σ} {c : σ}
    {msg : List Nat} (hcod : Codable cdf msg c) :
    (codeBits fuel cdf c msg).length ≤ 17 * msg.length + 2 := by
  have h := codeBits_length hf hcod
  have hpos : ∀ (m : List Nat) (c : σ), Codable cdf m c → 0 < freqProd cdf m c := by
    intro m
    induction m with
    | nil => intro c _; simp [freqProd]
    | cons s rest ih =>
      intro c hc
      obtain ⟨h1, _, h3⟩ := hc.cons
      exact Nat.mul_pos (by omega) (ih _ h3)
  have hF := hpos msg c hcod
  by_contra hlt
  push Not at hlt
  have h1 : 2 ^ (17 * msg.length + 3) ≤ 2 ^ (codeBits fuel cdf c msg).length :=
    Nat.pow_le_pow_right (by decide) (by omega)
  have h2 : (2 ^ 13) ^ msg.length ≤ 16383 ^ msg.length := Nat.pow_le_pow_left (by decide) _
  have h3 : 1 * (2 ^ 13) ^ msg.length * 2 ^ (17 * msg.length + 3) ≤
      freqProd cdf msg c * 16383 ^ msg.length * 2 ^ (codeBits fuel cdf c msg).length :=
    Nat.mul_le_mul (Nat.mul_le_mul hF h2) h1
  have e : 1 * (2 ^ 13) ^ msg.length * 2 ^ (17 * msg.length + 3) = 8 * 1073741824 ^ msg.length := by
    rw [show (1073741824 : Nat) = 2 ^ 13 * 2 ^ 17 by decide, mul_pow, pow_add, pow_mul]; ring
  have : 0 < 1073741824 ^ msg.length := by positivity
  omega

/-- **C01, unconditional form.**  With a buffer of at least `3 n + 1` bytes, encoding
an `n`-symbol message always succeeds and decoding returns the message. -/
theorem C01_roundtrip_total {σ τ : Type} {cdf : CdfFun σ} {icdf : InvCdfFun τ} {R : σ → τ → Prop}
    (hag : Agree cdf icdf R) {c : σ} {t : τ} (hR : R c t) {msg : List Nat} (hb : Bytes msg)
    (hcod : Codable cdf msg c) {fuel cap : Nat} (hf : 32 ≤ fuel) (hcap : 3 * msg.length + 1 ≤ cap) :
    ∃ data, encode fuel cdf c cap msg = .ok data ∧
      decode fuel icdf [⟨data, msg.length, t⟩] = .ok [msg] := by
  obtain ⟨b', hj, hl, hst⟩ := jaxEncode_spec hf (cap := cap) (by omega) hcod
  have := codeBits_short hf hcod
  exact ⟨_, C01_roundtrip hag hR hb hcod hf hj (by omega)⟩

/-- **C01 for tables.**  For every valid CDF table and every message over its
symbols, no further hypothesis. -/
theorem C01_roundtrip_table {tbl : List Nat} (htbl : ValidTable tbl) (hsz : tbl.length ≤ 257)
    {msg : List Nat} (hmsg : ∀ s ∈ msg, s + 1 < tbl.length) {fuel cap : Nat} (hf : 32 ≤ fuel)
    (hcap : 3 * msg.length + 1 ≤ cap) :
    ∃ data, encode fuel (tableCdf tbl) () cap msg = .ok data ∧
      decode fuel (tableInv tbl) [⟨data, msg.length, ()⟩] = .ok [msg] :=
  C01_roundtrip_total (table_agree htbl) trivial
    (fun s hs => by have := hmsg s hs; omega) (table_codable htbl msg hmsg) hf hcap

theorem exTable_valid : ValidTable [0, 200, 320, 65536] :=
  ⟨rfl, rfl, by decide⟩

/-- Hypotheses of C01 are met by a concrete model and message. -/
example : Agree (tableCdf [0, 200, 320, 65536]) (tableInv [0, 200, 320, 65536]) (fun _ _ => True) ∧
    Codable (tableCdf [0, 200, 320, 65536]) [1, 0, 2, 2, 1] () ∧ Bytes [1, 0, 2, 2, 1] :=
  ⟨table_agree exTable_valid, table_codable exTable_valid _ (by decide),
    by intro s hs; fin_cases hs <;> decide⟩

example : encode 32 (tableCdf [0, 200, 320, 65536]) () 16 [1, 0, 2, 2, 1] = .ok [0, 200, 1, 64] := by
  decide +kernel

/-- An adaptive model (the state counts the coded symbols) also meets the
hypotheses: even positions use one table, odd positions another. -/
example : Agree (fun s (c : Nat) =>
      (if c % 2 = 0 then (tableCdf [0, 1000, 65536] s ()).1 else (tableCdf [0, 60000, 65536] s ()).1,
       if c % 2 = 0 then (tableCdf [0, 1000, 65536] s ()).2.1
        else (tableCdf [0, 60000, 65536] s ()).2.1, c + 1))
    (fun v (c : Nat) =>
      if c % 2 = 0 then
        ((tableInv [0, 1000, 65536] v ()).1, (tableInv [0, 1000, 65536] v ()).2.1,
          (tableInv [0, 1000, 65536] v ()).2.2.1, c + 1)
      else ((tableInv [0, 60000, 65536] v ()).1, (tableInv [0, 60000, 65536] v ()).2.1,
          (tableInv [0, 60000, 65536] v ()).2.2.1, c + 1)) (fun a b => a = b) := by
  have v1 : ValidTable [0, 1000, 65536] := ⟨rfl, rfl, by decide⟩
  have v2 : ValidTable [0, 60000, 65536] := ⟨rfl, rfl, by decide⟩
  intro c t hct s v h1 h2 h3
  subst hct
  refine ⟨c + 1, ?_, rfl⟩
  dsimp only at *
  by_cases hc : c % 2 = 0
  · simp only [hc, if_true] at *
    obtain ⟨_, e, _⟩ := table_agree v1 () () trivial s v h1 h2 h3
    simp only [e]
  · simp only [hc, if_false] at *
    obtain ⟨_, e, _⟩ := table_agree v2 () () trivial s v h1 h2 h3
    simp only [e]

/-! ### C02 -/

/-- **C02.**  Any bytes may follow the code: decoding ignores them. -/
theorem C02_suffix_ignored {σ τ : Type} {cdf : CdfFun σ} {icdf : InvCdfFun τ} {R : σ → τ → Prop}
    (hag : Agree cdf icdf R) {c : σ} {t : τ} (hR : R c t) {msg : List Nat} (hb : Bytes msg)
    (hcod : Codable cdf msg c) {fuel cap : Nat} (hf : 32 ≤ fuel) {b : List Nat} {i : Nat}
    (henc : jaxEncode fuel cdf c cap msg = .ok (b, i)) (hroom : i < cap) (suffix : List Nat) :
    decode fuel icdf [⟨b.take (i + 1) ++ suffix, msg.length, t⟩] = .ok [msg] := by
  obtain ⟨b', hj, hl, hst⟩ := jaxEncode_spec hf (cap := cap) (by omega) hcod
  rw [hj] at henc
  obtain ⟨rfl, rfl⟩ : b' = b ∧ (codeBits fuel cdf c msg).length / 8 = i := by
    simpa using henc
  have hs := (hst hroom).take.append suffix
  apply decode_single hs.ne_nil
  rw [decodeLoop_stores hf hag hR hcod hs, map_mod_eq hb]

/-- A shorter message length decodes a prefix of the message (so a decoder may
stop early). -/
theorem C02_prefix_decode {σ τ : Type} {cdf : CdfFun σ} {icdf : InvCdfFun τ} {R : σ → τ → Prop}
    (hag : Agree cdf icdf R) {c : σ} {t : τ} (hR : R c t) {msg : List Nat} (hb : Bytes msg)
    (hcod : Codable cdf msg c) {fuel cap : Nat} (hf : 32 ≤ fuel) {b : List Nat} {i : Nat}
    (henc : jaxEncode fuel cdf c cap msg = .ok (b, i)) (hroom : i < cap) (suffix : List Nat)
    (n : Nat) (hn : n ≤ msg.length) :
    decode fuel icdf [⟨b.take (i + 1) ++ suffix, n, t⟩] = .ok [msg.take n] := by
  obtain ⟨b', hj, hl, hst⟩ := jaxEncode_spec hf (cap := cap) (by omega) hcod
  rw [hj] at henc
  obtain ⟨rfl, rfl⟩ : b' = b ∧ (codeBits fuel cdf c msg).length / 8 = i := by
    simpa using henc
  have hs := (hst hroom).take.append suffix
  apply decode_single hs.ne_nil
  have := decodeLoop_stores hf hag hR hcod hs
  rw [map_mod_eq hb] at this
  obtain ⟨k, hk⟩ : ∃ k, msg.length = n + k := ⟨msg.length - n, by omega⟩
  rw [hk] at this
  exact decodeLoop_prefix n k _ _ _ this

/-! ### C03 -/

/-- One entry of a batch to be decoded: a message, the state its coding started
in, the matching decoder state and the buffer it was encoded with. -/
structure Entry (σ τ : Type) where
  msg : List Nat
  c : σ
  t : τ
  cap : Nat

/-- The bytes `encode` returns for an entry. -/
def Entry.code {σ τ : Type} (fuel : Nat) (cdf : CdfFun σ) (e : Entry σ τ) : List Nat :=
  match encode fuel cdf e.c e.cap e.msg with
  | .ok d => d
  | .error _ => []

/-- The entry can be coded and its buffer is large enough. -/
structure Entry.Ok {σ τ : Type} (fuel : Nat) (cdf : CdfFun σ) (R : σ → τ → Prop) (T : τ → Prop)
    (e : Entry σ τ) : Prop where
  bytes : Bytes e.msg
  codable : Codable cdf e.msg e.c
  related : R e.c e.t
  total : T e.t
  fits : ∃ b i, jaxEncode fuel cdf e.c e.cap e.msg = .ok (b, i) ∧ i < e.cap

theorem maxOf_ge : ∀ (l : List Nat) (x : Nat), x ∈ l → x ≤ maxOf l := by
  intro l
  induction l with
  | nil => intro x h; simp at h
  | cons a l ih =>
    intro x h
    simp only [maxOf]
    rcases List.mem_cons.mp h with rfl | h
    · omega
    · have := ih x h; omega

theorem mapExcept_ok {α β : Type} {f : α → Except Err β} {g : α → β} : ∀ (l : List α),
    (∀ a ∈ l, f a = .ok (g a)) → mapExcept f l = .ok (l.map g) := by
  intro l
  induction l with
  | nil => intro _; rfl
  | cons a l ih =>
    intro h
    simp only [mapExcept, h a (by simp), ih (fun x hx => h x (by simp [hx])), List.map_cons]

theorem Entry.Ok.stores {σ τ : Type} {fuel : Nat} (hf : 32 ≤ fuel) {cdf : CdfFun σ}
    {R : σ → τ → Prop} {T : τ → Prop} {e : Entry σ τ} (h : e.Ok fuel cdf R T) :
    Stores (codeBits fuel cdf e.c e.msg) (e.code fuel cdf) := by
  obtain ⟨b, i, hj, hi⟩ := h.fits
  obtain ⟨b', hj', hl, hst⟩ := jaxEncode_spec hf (cap := e.cap) (by omega) h.codable
  rw [hj'] at hj
  obtain ⟨rfl, rfl⟩ : b' = b ∧ (codeBits fuel cdf e.c e.msg).length / 8 = i := by
    simpa using hj
  have : e.code fuel cdf = b'.take ((codeBits fuel cdf e.c e.msg).length / 8 + 1) := by
    simp only [Entry.code, encode, hj']
    rw [if_neg (by omega)]
  rw [this]
  exact (hst hi).take

/-- **C03.**  Decoding a batch of codes of messages of arbitrary, different lengths
returns exactly the messages. -/
theorem C03_batch_decode {σ τ : Type} {cdf : CdfFun σ} {icdf : InvCdfFun τ} {R : σ → τ → Prop}
    {T : τ → Prop} (hag : Agree cdf icdf R) (hT : Total icdf T) {fuel : Nat} (hf : 32 ≤ fuel)
    {batch : List (Entry σ τ)} (hne : batch ≠ []) (hok : ∀ e ∈ batch, e.Ok fuel cdf R T) :
    decode fuel icdf (batch.map fun e => ⟨e.code fuel cdf, e.msg.length, e.t⟩)
      = .ok (batch.map (·.msg)) := by
  set jobs := batch.map fun e => (⟨e.code fuel cdf, e.msg.length, e.t⟩ : Job τ) with hjobs
  set M := maxOf (jobs.map (·.len)) with hM
  set L := maxOf (jobs.map (·.data.length)) with hL
  have hlen : ∀ e ∈ batch, e.msg.length ≤ M := by
    intro e he
    apply maxOf_ge
    simp only [hjobs, List.map_map, List.mem_map]
    exact ⟨e, he, rfl⟩
  -- what each entry decodes to
  have hex : ∀ e ∈ batch, ∃ m, jaxDecode fuel icdf e.t M
      (e.code fuel cdf ++ List.replicate (L - (e.code fuel cdf).length) 0) = .ok m ∧
      m.length = M ∧ m.take e.msg.length = e.msg := by
    intro e he
    have ho := hok e he
    have hs := (ho.stores hf).append (List.replicate (L - (e.code fuel cdf).length) 0)
    set data := e.code fuel cdf ++ List.replicate (L - (e.code fuel cdf).length) 0
    obtain ⟨m, hm, hml⟩ := decodeLoop_ok hf hT (arr := data) M _ e.t (load_ok data) ho.total
    refine ⟨m, ?_, hml, ?_⟩
    · have hd : data.length ≠ 0 := by simpa using hs.ne_nil
      simp only [jaxDecode, hd, if_false, hm]
    · obtain ⟨k, hk⟩ : ∃ k, M = e.msg.length + k := ⟨M - e.msg.length, by
        have := hlen e he; omega⟩
      rw [hk] at hm
      have h1 := decodeLoop_prefix _ _ _ _ _ hm
      rw [decodeLoop_stores hf hag ho.related ho.codable hs, map_mod_eq ho.bytes] at h1
      simpa using h1.symm
  -- choose the decoded messages
  have hdec : ∃ ms, mapExcept (fun j : Job τ => jaxDecode fuel icdf j.state M
        (j.data ++ List.replicate (L - j.data.length) 0)) jobs = .ok ms ∧
      List.zipWith (fun m (j : Job τ) => m.take j.len) ms jobs = batch.map (·.msg) ∧
      ((∀ e ∈ batch, e.msg.length = M) → ms = batch.map (·.msg)) := by
    rw [hjobs]
    clear_value M L
    clear hjobs hM hL hne
    induction batch with
    | nil => exact ⟨[], rfl, rfl, fun _ => rfl⟩
    | cons e rest ih =>
      obtain ⟨m, h1, h2, h3⟩ := hex e (by simp)
      obtain ⟨ms, g1, g2, g3⟩ := ih (fun x hx => hok x (by simp [hx]))
        (fun x hx => hlen x (by simp [hx])) (fun x hx => hex x (by simp [hx]))
      refine ⟨m :: ms, ?_, ?_, ?_⟩
      · simp only [List.map_cons, mapExcept, h1, g1]
      · simp only [List.map_cons, List.zipWith_cons_cons, h3, g2]
      · intro hall
        rw [g3 (fun x hx => hall x (by simp [hx])), List.map_cons, ← h3,
          hall e (by simp), ← h2, List.take_length]
  obtain ⟨ms, g1, g2, g3⟩ := hdec
  have hemp : jobs.isEmpty = false := by
    rw [hjobs]; cases batch with
    | nil => exact absurd rfl hne
    | cons _ _ => rfl
  simp only [decode, hemp]
  rw [← hM, ← hL]
  simp only [g1, g2]
  by_cases hany : jobs.any (fun j => j.len != M) = true
  · simp [hany]
  · have hall : ∀ e ∈ batch, e.msg.length = M := by
      intro e he
      by_contra hc
      apply hany
      rw [List.any_eq_true]
      exact ⟨⟨e.code fuel cdf, e.msg.length, e.t⟩, by
        rw [hjobs]; exact List.mem_map.mpr ⟨e, he, rfl⟩, by simpa using hc⟩
    rw [g3 hall]
    simp [hany]

/-- **C03, independence.**  Each entry of the batch result is what decoding that
entry alone returns. -/
theorem C03_batch_eq_single {σ τ : Type} {cdf : CdfFun σ} {icdf : InvCdfFun τ} {R : σ → τ → Prop}
    {T : τ → Prop} (hag : Agree cdf icdf R) (hT : Total icdf T) {fuel : Nat} (hf : 32 ≤ fuel)
    {batch : List (Entry σ τ)} (hok : ∀ e ∈ batch, e.Ok fuel cdf R T) (j : Nat)
    (hj : j < batch.length) :
    ∃ ms, decode fuel icdf (batch.map fun e => ⟨e.code fuel cdf, e.msg.length, e.t⟩) = .ok ms ∧
      ∃ m, ms[j]? = some m ∧
        decode fuel icdf [⟨batch[j].code fuel cdf, batch[j].msg.length, batch[j].t⟩] = .ok [m] := by
  have hne : batch ≠ [] := by rintro rfl; simp at hj
  refine ⟨_, C03_batch_decode hag hT hf hne hok, batch[j].msg, by simp [hj], ?_⟩
  have := C03_batch_decode hag hT hf (batch := [batch[j]]) (by simp)
    (fun e he => by
      rw [List.mem_singleton.mp he]; exact hok _ (List.getElem_mem hj))
  simpa using this

/-- Three messages of different lengths and one shared model meet the hypotheses. -/
example : ∀ e ∈ ([⟨[1, 2, 0], (), (), 10⟩, ⟨[], (), (), 1⟩, ⟨[2], (), (), 4⟩] : List (Entry Unit Unit)),
    e.Ok 32 (tableCdf [0, 200, 320, 65536]) (fun _ _ => True) (fun _ => True) := by
  intro e he
  have hl : e.msg = [1, 2, 0] ∧ e.cap = 10 ∨ e.msg = [] ∧ e.cap = 1 ∨ e.msg = [2] ∧ e.cap = 4 := by
    fin_cases he <;> simp
  have hcod : Codable (tableCdf [0, 200, 320, 65536]) e.msg e.c := by
    apply table_codable exTable_valid
    rcases hl with ⟨h, _⟩ | ⟨h, _⟩ | ⟨h, _⟩ <;> rw [h] <;> decide
  refine ⟨?_, hcod, trivial, trivial, ?_⟩
  · rcases hl with ⟨h, _⟩ | ⟨h, _⟩ | ⟨h, _⟩ <;> rw [h] <;> unfold Bytes <;> decide
  · have hcap : 3 * e.msg.length + 1 ≤ e.cap := by
      rcases hl with ⟨h, h'⟩ | ⟨h, h'⟩ | ⟨h, h'⟩ <;> rw [h, h'] <;> decide
    obtain ⟨b, hj, hlb, _⟩ := jaxEncode_spec (le_refl 32) (cap := e.cap) (by omega) hcod
    have := codeBits_short (le_refl 32) hcod
    exact ⟨b, _, hj, by omega⟩

/-! ### C04 -/

/-- **C04, encoder.**  In every state the encoder can reach the interval is wider
than `2^30` inside the 32-bit range, and coding any symbol with a non-empty slot
terminates (32 loop iterations suffice) and leads to such a state again. -/
theorem C04_encoder {σ : Type} {cdf : CdfFun σ} {fuel cap : Nat} (hf : 32 ≤ fuel) {c₀ : σ}
    {e : Enc} {c : σ} (hr : EncReach fuel cdf cap c₀ e c) :
    e.low < e.high ∧ e.high < 2 ^ 32 ∧ 2 ^ 30 < e.high - e.low + 1 ∧
    ∀ s, (cdf s c).1 < (cdf s c).2.1 → (cdf s c).2.1 ≤ 2 ^ 16 →
      ∃ e', enqueue fuel cdf s e c = .ok (e', (cdf s c).2.2) ∧
        EncReach fuel cdf cap c₀ e' (cdf s c).2.2 := by
  have hinv : ∃ a, Ref cap e a ∧ Wide a.high a.low := by
    induction hr with
    | start => exact ⟨aInit, init_ref cap, init_wide⟩
    | step hr' h1 h2 he ih =>
      obtain ⟨a, r, hw⟩ := ih
      obtain ⟨e2, a2, he2, ha2, r2, hw2⟩ := enqueue_ref hf r hw h1 h2
      rw [he2] at he
      obtain ⟨rfl, _⟩ : e2 = _ ∧ _ = _ := by simpa using he
      exact ⟨a2, r2, hw2⟩
  obtain ⟨a, r, hw⟩ := hinv
  have hw' := hw
  rw [← r.high, ← r.low] at hw'
  obtain ⟨w1, w2⟩ := hw'
  refine ⟨by omega, w1, by omega, ?_⟩
  intro s h1 h2
  obtain ⟨e2, a2, he2, _⟩ := enqueue_ref hf (c := c) r hw h1 h2
  exact ⟨e2, he2, .step hr h1 h2 he2⟩

/-- **C04, decoder.**  Decoding arbitrary bytes (not only valid codes) with a total
inverse CDF never diverges and returns as many symbols as asked for. -/
theorem C04_decoder_total {τ : Type} {icdf : InvCdfFun τ} {T : τ → Prop} (hT : Total icdf T)
    {fuel : Nat} (hf : 32 ≤ fuel) {t : τ} (ht : T t) (n : Nat) {data : List Nat} (hd : data ≠ []) :
    ∃ m, decode fuel icdf [⟨data, n, t⟩] = .ok [m] ∧ m.length = n := by
  obtain ⟨m, hm, hl⟩ := decodeLoop_ok hf hT (arr := data) n _ t (load_ok data) ht
  exact ⟨m, decode_single hd hm, hl⟩

/-- **C04, decoder states.**  Every state the decoder can reach on arbitrary bytes has
its value inside an interval wider than `2^30`. -/
theorem C04_decoder {τ : Type} {icdf : InvCdfFun τ} {T : τ → Prop} (hT : Total icdf T)
    {fuel : Nat} (hf : 32 ≤ fuel) {data : List Nat} {t₀ : τ} (ht₀ : T t₀) {d : Dec} {t : τ}
    (hr : DecReach fuel icdf data t₀ d t) :
    d.low ≤ d.value ∧ d.value ≤ d.high ∧ d.high < 2 ^ 32 ∧ 2 ^ 30 < d.high - d.low + 1 := by
  have hinv : DOk d ∧ T t := by
    induction hr with
    | start => exact ⟨load_ok data, ht₀⟩
    | step _ hd ih =>
      obtain ⟨hok, ht⟩ := ih
      obtain ⟨d2, s2, t2, h2, hok2, ht2⟩ := dequeue_ok hf hT (arr := data) hok ht
      rw [h2] at hd
      obtain ⟨rfl, _, rfl⟩ : d2 = _ ∧ s2 = _ ∧ t2 = _ := by simpa using hd
      exact ⟨hok2, ht2⟩
  obtain ⟨⟨⟨w1, w2⟩, h1, h2, _⟩, _⟩ := hinv
  exact ⟨h1, h2, w1, by omega⟩

/-- The hypotheses of C04 hold for a table model. -/
example : Total (tableInv [0, 200, 320, 65536]) (fun _ => True) := table_total exTable_valid

/-! ### C05 -/

/-- **C05.**  In every reachable decoder state the float64 quotient, truncated, is
the exact integer quotient, and it fits in 16 bits. -/
theorem C05_float_division_exact {τ : Type} {icdf : InvCdfFun τ} {T : τ → Prop}
    (hT : Total icdf T) {fuel : Nat} (hf : 32 ≤ fuel) {data : List Nat} {t₀ : τ} (ht₀ : T t₀)
    {d : Dec} {t : τ} (hr : DecReach fuel icdf data t₀ d t) :
    scaledValue d.value d.low (spanOf d.high d.low)
      = ((d.value - d.low + 1) * 2 ^ 16 - 1) / (d.high - d.low + 1) ∧
    scaledValue d.value d.low (spanOf d.high d.low) < 2 ^ 16 := by
  obtain ⟨h1, h2, h3, h4⟩ := C04_decoder hT hf ht₀ hr
  have hw : Wide d.high d.low := ⟨h3, by omega⟩
  obtain ⟨e1, e2⟩ := scaledValue_eq hw h1 h2
  exact ⟨e1, by rw [e1]; exact e2⟩

/-- The float64 quotient itself: exact for all `n / d < 2^16`, `d ≤ 2^32`. -/
theorem C05_float_quotient {n d : Nat} (hn : 0 < n) (hd : 0 < d) (hd' : d ≤ 2 ^ 32)
    (hq : n < d * 2 ^ 16) : f64DivTrunc n d = n / d :=
  f64DivTrunc_exact hn hd hd' hq

/-- The bound matters: for larger divisors the float quotient can be rounded up. -/
example : f64DivTrunc (2 ^ 53 - 2) (2 ^ 53 - 1) = 0 ∧ f64DivTrunc (2 ^ 69 - 1) (2 ^ 53) = 65536 := by
  decide +kernel

/-! ### C06 -/

/-- **C06, integer form.**  The bytes returned satisfy
`∏ freq · (2^14 - 1)^n · 2^(8 (bytes - 1)) ≤ 4 · 2^(30 n)`. -/
theorem C06_code_length {σ : Type} {cdf : CdfFun σ} {c : σ} {msg : List Nat}
    (hcod : Codable cdf msg c) {fuel cap : Nat} (hf : 32 ≤ fuel) {data : List Nat}
    (henc : encode fuel cdf c cap msg = .ok data) :
    freqProd cdf msg c * (2 ^ 14 - 1) ^ msg.length * 2 ^ (8 * (data.length - 1)) ≤
      4 * (2 ^ 30) ^ msg.length := by
  have hcap : 0 < cap := by
    by_contra h
    simp [encode, jaxEncode, show cap = 0 by omega] at henc
  obtain ⟨b, hj, hl, _⟩ := jaxEncode_spec hf (cap := cap) hcap hcod
  simp only [encode, hj] at henc
  have hlen : data.length ≤ (codeBits fuel cdf c msg).length / 8 + 1 := by
    split at henc
    · simp at henc
    · rw [← Except.ok.inj henc]; simp
  refine le_trans ?_ (codeBits_length hf hcod)
  apply Nat.mul_le_mul_left
  exact Nat.pow_le_pow_right (by decide) (by omega)

/-- Information content of a message in bits: `∑ log2 (2^16 / freq)`. -/
noncomputable def infoBits {σ : Type} (cdf : CdfFun σ) : List Nat → σ → ℝ
  | [], _ => 0
  | s :: rest, c =>
    Real.logb 2 (2 ^ 16 / ((cdf s c).2.1 - (cdf s c).1 : ℝ)) + infoBits cdf rest (cdf s c).2.2

theorem freqProd_log {σ : Type} {cdf : CdfFun σ} : ∀ (msg : List Nat) (c : σ), Codable cdf msg c →
    (0 < freqProd cdf msg c) ∧
    Real.logb 2 (freqProd cdf msg c : ℝ) = 16 * msg.length - infoBits cdf msg c := by
  intro msg
  induction msg with
  | nil => intro c _; simp [freqProd, infoBits]
  | cons s rest ih =>
    intro c hc
    obtain ⟨h1, h2, h3⟩ := hc.cons
    obtain ⟨hp, hl⟩ := ih _ h3
    have hf : 0 < (cdf s c).2.1 - (cdf s c).1 := by omega
    refine ⟨Nat.mul_pos hf hp, ?_⟩
    have hcast : (((cdf s c).2.1 - (cdf s c).1 : ℕ) : ℝ)
        = ((cdf s c).2.1 : ℝ) - ((cdf s c).1 : ℝ) := by
      rw [Nat.cast_sub (by omega)]
    have hfr : (0 : ℝ) < ((cdf s c).2.1 : ℝ) - ((cdf s c).1 : ℝ) := by
      rw [← hcast]; exact_mod_cast hf
    simp only [freqProd, infoBits, Nat.cast_mul, hcast]
    rw [Real.logb_mul hfr.ne' (by exact_mod_cast hp.ne'), hl,
      Real.logb_div (by positivity) hfr.ne']
    have : Real.logb 2 (2 ^ 16 : ℝ) = 16 := by
      rw [Real.logb_pow]; simp
    rw [this]
    simp only [List.length_cons]; push_cast; ring

/-- **C06.**  The code takes at most its information content, plus
`log2 (2^14 / (2^14 - 1))` (less than 0.0001) bits per symbol, plus two bits and
the padding of the last byte. -/
theorem C06_code_length_log {σ : Type} {cdf : CdfFun σ} {c : σ} {msg : List Nat}
    (hcod : Codable cdf msg c) {fuel cap : Nat} (hf : 32 ≤ fuel) {data : List Nat}
    (henc : encode fuel cdf c cap msg = .ok data) :
    (8 * (data.length - 1 : ℕ) : ℝ) ≤
      infoBits cdf msg c + msg.length * Real.logb 2 (2 ^ 14 / (2 ^ 14 - 1)) + 2 := by
  have h := C06_code_length hcod hf henc
  obtain ⟨hp, hl⟩ := freqProd_log msg c hcod
  have hR : (freqProd cdf msg c : ℝ) * (16383 : ℝ) ^ msg.length * 2 ^ (8 * (data.length - 1)) ≤
      4 * (2 ^ 30) ^ msg.length := by
    have : ((freqProd cdf msg c * (2 ^ 14 - 1) ^ msg.length * 2 ^ (8 * (data.length - 1)) : ℕ) : ℝ)
        ≤ ((4 * (2 ^ 30) ^ msg.length : ℕ) : ℝ) := by exact_mod_cast h
    push_cast at this
    norm_num at this ⊢
    exact this
  have hp' : (0 : ℝ) < (freqProd cdf msg c : ℝ) := by exact_mod_cast hp
  have hlog := Real.logb_le_logb_of_le (b := 2) (by norm_num) (by positivity) hR
  rw [Real.logb_mul (by positivity) (by positivity), Real.logb_mul (by positivity) (by positivity),
    Real.logb_mul (by positivity) (by positivity), hl, Real.logb_pow, Real.logb_pow, Real.logb_pow,
    Real.logb_pow] at hlog
  have h4 : Real.logb 2 4 = 2 := by
    rw [show (4 : ℝ) = 2 ^ 2 by norm_num, Real.logb_pow]; simp
  have h22 : Real.logb 2 2 = 1 := by simp
  have hd : Real.logb 2 ((2 : ℝ) ^ 14 / (2 ^ 14 - 1)) = 14 - Real.logb 2 16383 := by
    rw [show ((2 : ℝ) ^ 14 - 1) = 16383 by norm_num, Real.logb_div (by positivity) (by norm_num),
      Real.logb_pow, h22]
    norm_num
  rw [h4, h22] at hlog
  rw [hd]
  push_cast at hlog ⊢
  linarith

example : ∃ data, encode 32 (tableCdf [0, 200, 320, 65536]) () 16 [1, 0, 2, 2, 1] = .ok data ∧
    data.length = 4 := ⟨[0, 200, 1, 64], by decide +kernel, rfl⟩

/-! ### C07 -/

/-- The full property: whatever the buffer size, bytes returned by `encode` decode
to the message. -/
def NeverSilent : Prop :=
  ∀ (tbl : List Nat) (msg : List Nat) (cap : Nat) (data : List Nat), ValidTable tbl →
    (∀ s ∈ msg, s + 1 < tbl.length) → Bytes msg →
    encode 32 (tableCdf tbl) () cap msg = .ok data →
    decode 32 (tableInv tbl) [⟨data, msg.length, ()⟩] = .ok [msg]

/-- **C07 is violated by the code.**  The check `i > len(b)` lets the case `i = len(b)`
pass, where the last byte was dropped.  Witness: the one-symbol message `[1]`
with the default buffer `int(1.5 * 1) = 1`; `encode` returns `[0]`, which
decodes to symbol `0`. -/
theorem C07_violated : ¬ NeverSilent := by
  intro h
  have h1 : encode 32 (tableCdf [0, 200, 320, 65536]) () 1 [1] = .ok [0] := by decide +kernel
  have h2 := h [0, 200, 320, 65536] [1] 1 [0] exTable_valid (by decide)
    (by unfold Bytes; decide) h1
  have h3 : decode 32 (tableInv [0, 200, 320, 65536]) [⟨[0], 1, ()⟩] = .ok [[0]] := by
    decide +kernel
  rw [List.length_singleton, h3] at h2
  exact absurd h2 (by decide)

/-- **C07, what holds.**  If `encode` returns fewer bytes than the buffer holds,
nothing was dropped: the bytes decode to the message.  (Missing from the full
property: the case where the returned bytes fill the buffer exactly.) -/
theorem C07_partial {σ τ : Type} {cdf : CdfFun σ} {icdf : InvCdfFun τ} {R : σ → τ → Prop}
    (hag : Agree cdf icdf R) {c : σ} {t : τ} (hR : R c t) {msg : List Nat} (hb : Bytes msg)
    (hcod : Codable cdf msg c) {fuel cap : Nat} (hf : 32 ≤ fuel) {data : List Nat}
    (henc : encode fuel cdf c cap msg = .ok data) (hroom : data.length < cap) :
    decode fuel icdf [⟨data, msg.length, t⟩] = .ok [msg] := by
  obtain ⟨b, hj, hl, _⟩ := jaxEncode_spec hf (cap := cap) (by omega) hcod
  have henc' := henc
  simp only [encode, hj] at henc'
  split at henc'
  · simp at henc'
  · have hd := Except.ok.inj henc'
    have hi : (codeBits fuel cdf c msg).length / 8 < cap := by
      rw [← hd, List.length_take] at hroom; omega
    rw [← hd]
    exact (C01_roundtrip hag hR hb hcod hf hj hi).2

/-- **C07, error side.**  The overrun error is raised exactly when the write position
is beyond the end of the buffer, i.e. when at least `8 (cap + 1)` bits were
produced; and with room for the code no error is raised. -/
theorem C07_overrun_iff {σ : Type} {cdf : CdfFun σ} {c : σ} {msg : List Nat}
    (hcod : Codable cdf msg c) {fuel cap : Nat} (hf : 32 ≤ fuel) (hcap : 0 < cap) :
    ∃ i, (∀ cap', 0 < cap' → ∃ b, jaxEncode fuel cdf c cap' msg = .ok (b, i)) ∧
      (encode fuel cdf c cap msg = .error .overrun ↔ cap < i) := by
  refine ⟨(codeBits fuel cdf c msg).length / 8, ?_, ?_⟩
  · intro cap' hc'
    obtain ⟨b, hj, _⟩ := jaxEncode_spec hf (cap := cap') hc' hcod
    exact ⟨b, hj⟩
  · obtain ⟨b, hj, hl, _⟩ := jaxEncode_spec hf (cap := cap) hcap hcod
    simp only [encode, hj]
    rw [hl]
    by_cases h : (codeBits fuel cdf c msg).length / 8 > cap
    · simp [h]
    · simp [h]

example : encode 32 (tableCdf [0, 255, 257, 65536]) () 1 [1] = .error .overrun := by decide +kernel

/-- **C07, batches.**  A batch fails with the overrun error exactly when one of its messages would overrun
if it were encoded alone; otherwise it returns what encoding each message alone returns. -/
theorem C07_batch {σ : Type} {cdf : CdfFun σ} (batch : List (EncJob σ))
    (hcod : ∀ j ∈ batch, Codable cdf j.msg j.state) {fuel cap : Nat} (hf : 32 ≤ fuel) (hcap : 0 < cap) :
    (encodeBatch fuel cdf cap batch = .error .overrun ↔
      ∃ j ∈ batch, encode fuel cdf j.state cap j.msg = .error .overrun) ∧
    ((∀ j ∈ batch, encode fuel cdf j.state cap j.msg ≠ .error .overrun) →
      ∃ out, encodeBatch fuel cdf cap batch = .ok out ∧ out.length = batch.length ∧
        ∀ k (h : k < batch.length) (h' : k < out.length),
          encode fuel cdf batch[k].state cap batch[k].msg = .ok out[k]) := by
  have H : ∀ j : EncJob σ, ∃ r : List Nat × Nat, j ∈ batch →
      jaxEncode fuel cdf j.state cap j.msg = .ok r := by
    intro j
    by_cases hj : j ∈ batch
    · obtain ⟨b, h, _⟩ := jaxEncode_spec hf (cap := cap) hcap (hcod j hj)
      exact ⟨_, fun _ => h⟩
    · exact ⟨([], 0), fun h => absurd h hj⟩
  choose g hg using H
  have hm := mapExcept_ok (f := fun j : EncJob σ => jaxEncode fuel cdf j.state cap j.msg) (g := g) batch hg
  have he : ∀ j ∈ batch, encode fuel cdf j.state cap j.msg =
      if (g j).2 > (g j).1.length then .error .overrun else .ok ((g j).1.take ((g j).2 + 1)) := by
    intro j hj
    simp only [encode, hg j hj]
  have hany : (batch.map g).any (fun r => decide (r.2 > r.1.length)) = true ↔
      ∃ j ∈ batch, encode fuel cdf j.state cap j.msg = .error .overrun := by
    simp only [List.any_map, List.any_eq_true, Function.comp, decide_eq_true_eq]
    constructor
    · rintro ⟨j, hj, h⟩
      exact ⟨j, hj, by rw [he j hj, if_pos h]⟩
    · rintro ⟨j, hj, h⟩
      refine ⟨j, hj, ?_⟩
      rw [he j hj] at h
      by_contra hc
      rw [if_neg hc] at h
      cases h
  simp only [encodeBatch, hm]
  refine ⟨?_, ?_⟩
  · rw [← hany]
    split_ifs with hc
    · exact ⟨fun _ => hc, fun _ => rfl⟩
    · exact ⟨fun h => (by cases h), fun h => absurd h hc⟩
  · intro hn
    have hc : ¬ (batch.map g).any (fun r => decide (r.2 > r.1.length)) = true := by
      rw [hany]
      rintro ⟨j, hj, h⟩
      exact hn j hj h
    rw [if_neg hc]
    refine ⟨_, rfl, by simp, ?_⟩
    intro k h h'
    have hj : batch[k] ∈ batch := List.getElem_mem h
    have h2 := hn _ hj
    rw [he _ hj] at h2 ⊢
    split_ifs at h2 ⊢ with h3
    · exact absurd rfl h2
    · simp

/-- A batch where only the second message overruns. -/
example : encodeBatch 32 (tableCdf [0, 255, 257, 65536]) 1 [⟨[2], ()⟩, ⟨[1], ()⟩] = .error .overrun ∧
    encodeBatch 32 (tableCdf [0, 255, 257, 65536]) 1 [⟨[2], ()⟩, ⟨[2], ()⟩] = .ok [[64], [64]] := by
  decide +kernel

end Verif.AC
