import Verif.AC.PropsCapacity
import Mathlib.InformationTheory.Coding.KraftMcMillan

/-!
# C138: the codes of the arithmetic coder are a prefix code, and nearly the shortest possible

The messages are those of one length; the coder's model of the symbols may be adaptive.
-/

namespace Verif.AC

/-! ### Every code is a list of bytes -/

/-- All bytes of a buffer are bytes. -/
def Buf.AllBytes (b : Buf) : Prop := ∀ x ∈ b.arr, x < 256

theorem appendBit_bytes {bit : Bool} {b : Buf} (h : b.AllBytes) : (appendBit bit b).AllBytes := by
  have hb : ((b.byte <<< 1) % 256) ||| bit.toNat < 256 := by
    have h1 : (b.byte <<< 1) % 256 < 2 ^ 8 := Nat.mod_lt _ (by norm_num)
    have h2 : bit.toNat < 2 ^ 8 := by cases bit <;> decide
    exact Nat.or_lt_two_pow h1 h2
  unfold appendBit
  dsimp only
  split
  · intro x hx
    rcases List.mem_or_eq_of_mem_set hx with hx | rfl
    · exact h x hx
    · exact hb
  · exact h

theorem appendPending_bytes {bit : Bool} : ∀ (n : ℕ) {b : Buf}, b.AllBytes → (appendPending bit n b).AllBytes
  | 0, _, h => h
  | n + 1, _, h => appendPending_bytes n (appendBit_bytes h)

theorem appendBitAndPending_bytes {bit : Bool} {n : ℕ} {b : Buf} (h : b.AllBytes) :
    (appendBitAndPending bit n b).AllBytes := appendPending_bytes n (appendBit_bytes h)

theorem encStep_bytes {e : Enc} (h : e.buf.AllBytes) : (encStep e).buf.AllBytes := by
  unfold encStep
  split
  · exact appendBitAndPending_bytes h
  · exact appendBitAndPending_bytes h
  · exact h

theorem while_bytes {cond : Enc → Bool} : ∀ (n : ℕ) {e r : Enc}, e.buf.AllBytes → whileLoop cond encStep n e = some r →
    r.buf.AllBytes
  | 0, e, r, h, hr => by
    rw [whileLoop] at hr
    split at hr
    · cases hr
    · cases hr; exact h
  | n + 1, e, r, h, hr => by
    rw [whileLoop] at hr
    split at hr
    · exact while_bytes n (encStep_bytes h) hr
    · cases hr; exact h

theorem encodeLoop_bytes {σ : Type} {fuel : ℕ} {cdf : CdfFun σ} : ∀ (msg : List ℕ) {e r : Enc} {c c' : σ}, e.buf.AllBytes →
    encodeLoop fuel cdf msg e c = .ok (r, c') → r.buf.AllBytes
  | [], e, r, c, c', h, hr => by
    rw [encodeLoop] at hr
    cases hr; exact h
  | s :: rest, e, r, c, c', h, hr => by
    rw [encodeLoop] at hr
    split at hr
    · cases hr
    · rename_i e1 c1 he
      refine encodeLoop_bytes rest ?_ hr
      unfold enqueue at he
      dsimp only at he
      split at he
      · cases he
      · rename_i e2 hw
        cases he
        exact while_bytes fuel (by exact h) hw

/-- **C138, bytes.** What the encoder returns are numbers from 0 to 255, whatever the message and the model. -/
theorem C138_bytes {σ : Type} {cdf : CdfFun σ} {c : σ} {fuel cap : ℕ} {msg data : List ℕ}
    (h : encode fuel cdf c cap msg = .ok data) : ∀ x ∈ data, x < 256 := by
  unfold encode jaxEncode at h
  split at h
  · cases h
  · rename_i b i hb
    split at hb
    · cases hb
    · split at hb
      · cases hb
      · rename_i e c' he
        have h0 : (encInit cap).buf.AllBytes := by
          intro x hx
          simp only [encInit] at hx
          rw [List.eq_of_mem_replicate hx]
          norm_num
        have h1 := encodeLoop_bytes msg h0 he
        have h2 : ∀ x ∈ b, x < 256 := by
          unfold finish at hb
          dsimp only at hb
          injection hb with hb
          injection hb with hb hi
          intro x hx
          rw [← hb] at hx
          rcases List.mem_or_eq_of_mem_set hx with hx | rfl
          · split at hx
            · exact appendBitAndPending_bytes h1 x hx
            · exact appendBitAndPending_bytes h1 x hx
          · exact Nat.mod_lt _ (by norm_num)
        split at h
        · cases h
        · cases h
          intro x hx
          exact h2 x (List.mem_of_mem_take hx)

/-! ### Prefix code -/

section
variable {σ τ : Type} {cdf : CdfFun σ} {icdf : InvCdfFun τ} {R : σ → τ → Prop}

theorem decode_code (hag : Agree cdf icdf R) {c : σ} {t : τ} (hR : R c t) {msg : List ℕ} (hb : Bytes msg)
    (hcod : Codable cdf msg c) {fuel cap : ℕ} (hf : 32 ≤ fuel) (hcap : 3 * msg.length + 1 ≤ cap) {data : List ℕ}
    (h : encode fuel cdf c cap msg = .ok data) (suffix : List ℕ) :
    data ≠ [] ∧ decode fuel icdf [⟨data ++ suffix, msg.length, t⟩] = .ok [msg] := by
  obtain ⟨b, hj, hl, hst⟩ := jaxEncode_spec hf (cap := cap) (by omega) hcod
  have hi : (codeBits fuel cdf c msg).length / 8 < cap := by
    have := codeBits_short hf hcod
    omega
  have e1 := (C01_roundtrip hag hR hb hcod hf hj hi).1
  have e2 := C02_suffix_ignored hag hR hb hcod hf hj hi suffix
  rw [h] at e1
  injection e1 with e1
  subst e1
  exact ⟨((hst hi).take).ne_nil, e2⟩

/-- **C138, prefix code.** The code of a message is never the beginning of the code of another message of the same length, nor
equal to it. -/
theorem C138_prefix (hag : Agree cdf icdf R) {c : σ} {t : τ} (hR : R c t) {a b : List ℕ} (ha : Bytes a) (hb : Bytes b)
    (hl : a.length = b.length) (hca : Codable cdf a c) (hcb : Codable cdf b c) {fuel cap : ℕ} (hf : 32 ≤ fuel)
    (hcap : 3 * a.length + 1 ≤ cap) {x y : List ℕ} (hx : encode fuel cdf c cap a = .ok x)
    (hy : encode fuel cdf c cap b = .ok y) (h : x <+: y) : a = b := by
  obtain ⟨z, rfl⟩ := h
  have h1 := (decode_code hag hR ha hca hf hcap hx z).2
  have h2 := (decode_code hag hR hb hcb hf (by omega) hy []).2
  rw [List.append_nil, ← hl, h1] at h2
  simpa using h2

/-- A set of messages of `n` symbols with their codes. -/
structure Codes (fuel cap : ℕ) (cdf : CdfFun σ) (c : σ) (n : ℕ) (M : Finset (List ℕ)) (code : List ℕ → List ℕ) : Prop where
  fuel_le : 32 ≤ fuel
  room : 3 * n + 1 ≤ cap
  bytes : ∀ m ∈ M, Bytes m
  length : ∀ m ∈ M, m.length = n
  codable : ∀ m ∈ M, Codable cdf m c
  code : ∀ m ∈ M, encode fuel cdf c cap m = .ok (code m)

theorem Codes.inj {fuel cap n : ℕ} {c : σ} {M : Finset (List ℕ)} {code : List ℕ → List ℕ}
    (h : Codes fuel cap cdf c n M code) (hag : Agree cdf icdf R) {t : τ} (hR : R c t) {a b : List ℕ} (ha : a ∈ M) (hb : b ∈ M)
    (hab : code a <+: code b) : a = b :=
  C138_prefix hag hR (h.bytes a ha) (h.bytes b hb) ((h.length a ha).trans (h.length b hb).symm) (h.codable a ha)
    (h.codable b hb) h.fuel_le (by rw [h.length a ha]; exact h.room) (h.code a ha) (h.code b hb) hab

theorem Codes.ne_nil {fuel cap n : ℕ} {c : σ} {M : Finset (List ℕ)} {code : List ℕ → List ℕ}
    (h : Codes fuel cap cdf c n M code) (hag : Agree cdf icdf R) {t : τ} (hR : R c t) {a : List ℕ} (ha : a ∈ M) :
    code a ≠ [] :=
  (decode_code hag hR (h.bytes a ha) (h.codable a ha) h.fuel_le (by rw [h.length a ha]; exact h.room) (h.code a ha) []).1

/-- **C138, streams.** Codes of messages of the same length may be written one after another without separators: different
sequences of messages, also of different numbers of messages, give different streams. -/
theorem C138_streams {fuel cap n : ℕ} {c : σ} {M : Finset (List ℕ)} {code : List ℕ → List ℕ}
    (h : Codes fuel cap cdf c n M code) (hag : Agree cdf icdf R) {t : τ} (hR : R c t) :
    ∀ (l l' : List (List ℕ)), (∀ m ∈ l, m ∈ M) → (∀ m ∈ l', m ∈ M) → (l.map code).flatten = (l'.map code).flatten → l = l'
  | [], [], _, _, _ => rfl
  | [], b :: l', _, hb, e => by
    have := h.ne_nil hag hR (hb b (by simp))
    simp only [List.map_nil, List.flatten_nil, List.map_cons, List.flatten_cons] at e
    exact absurd (List.append_eq_nil_iff.1 e.symm).1 this
  | a :: l, [], ha, _, e => by
    have := h.ne_nil hag hR (ha a (by simp))
    simp only [List.map_nil, List.flatten_nil, List.map_cons, List.flatten_cons] at e
    exact absurd (List.append_eq_nil_iff.1 e).1 this
  | a :: l, b :: l', ha, hb, e => by
    simp only [List.map_cons, List.flatten_cons] at e
    have hab : a = b := by
      rcases List.prefix_or_prefix_of_prefix (List.prefix_append (code a) (l.map code).flatten)
        (e ▸ List.prefix_append (code b) (l'.map code).flatten) with hp | hp
      · exact h.inj hag hR (ha a (by simp)) (hb b (by simp)) hp
      · exact (h.inj hag hR (hb b (by simp)) (ha a (by simp)) hp).symm
    subst hab
    rw [C138_streams h hag hR l l' (fun m hm => ha m (by simp [hm])) (fun m hm => hb m (by simp [hm]))
      (List.append_cancel_left e)]

/-! ### Lengths -/

/-- The bytes of a code, as elements of a finite alphabet. -/
def toFin (l : List ℕ) : List (Fin 256) := l.map (Fin.ofNat 256)

theorem toFin_val {l : List ℕ} (h : ∀ x ∈ l, x < 256) : (toFin l).map Fin.val = l := by
  induction l with
  | nil => rfl
  | cons a l ih =>
    simp only [toFin, List.map_cons, List.map_map] at ih ⊢
    rw [ih fun x hx => h x (by simp [hx])]
    simp [Fin.ofNat, Nat.mod_eq_of_lt (h a (by simp))]

/-- **C138, Kraft's inequality.** -/
theorem C138_kraft {fuel cap n : ℕ} {c : σ} {M : Finset (List ℕ)} {code : List ℕ → List ℕ}
    (h : Codes fuel cap cdf c n M code) (hag : Agree cdf icdf R) {t : τ} (hR : R c t) :
    ∑ m ∈ M, (1 / 2 : ℝ) ^ (8 * (code m).length) ≤ 1 := by
  classical
  have hinj : Set.InjOn (fun m => toFin (code m)) (M : Set (List ℕ)) := by
    intro a ha b hb hab
    have h1 := toFin_val (C138_bytes (h.code a ha))
    have h2 := toFin_val (C138_bytes (h.code b hb))
    simp only at hab
    rw [hab, h2] at h1
    exact h.inj hag hR ha hb (by rw [h1])
  have hud : InformationTheory.UniquelyDecodable (SetLike.coe (M.image fun m => toFin (code m))) := by
    intro l1 l2 h1 h2 e
    have hpre : ∀ l : List (List (Fin 256)), (∀ w ∈ l, w ∈ SetLike.coe (M.image fun m => toFin (code m))) →
        ∃ k : List (List ℕ), (∀ m ∈ k, m ∈ M) ∧ l = k.map fun m => toFin (code m) := by
      intro l
      induction l with
      | nil => exact fun _ => ⟨[], by simp, rfl⟩
      | cons w l ih =>
        intro hw
        obtain ⟨k, hk, rfl⟩ := ih fun x hx => hw x (by simp [hx])
        obtain ⟨m, hm, rfl⟩ := Finset.mem_image.1 (Finset.mem_coe.1 (hw w (by simp)))
        exact ⟨m :: k, by
          intro x hx
          rcases List.mem_cons.1 hx with rfl | hx
          · exact hm
          · exact hk x hx, rfl⟩
    obtain ⟨k1, hk1, rfl⟩ := hpre l1 h1
    obtain ⟨k2, hk2, rfl⟩ := hpre l2 h2
    have hback : ∀ k : List (List ℕ), (∀ m ∈ k, m ∈ M) →
        ((k.map fun m => toFin (code m)).flatten).map Fin.val = (k.map code).flatten := by
      intro k
      induction k with
      | nil => intro _; rfl
      | cons m k ih =>
        intro hk
        simp only [List.map_cons, List.flatten_cons, List.map_append]
        rw [ih fun x hx => hk x (by simp [hx]), toFin_val (C138_bytes (h.code m (hk m (by simp))))]
    have e' := congrArg (List.map Fin.val) e
    rw [hback k1 hk1, hback k2 hk2] at e'
    rw [C138_streams h hag hR k1 k2 hk1 hk2 e']
  have := InformationTheory.kraft_mcmillan_inequality hud
  rw [Finset.sum_image hinj] at this
  refine le_trans (le_of_eq ?_) this
  refine Finset.sum_congr rfl fun m _ => ?_
  rw [pow_mul]
  simp only [toFin, List.length_map, Fintype.card_fin]
  norm_num

/-- **C138, average length.** Whatever the distribution `p` of the messages: on average the codes have at least as many bits as
the entropy of `p`, and at most the cross entropy of the model, `log2 (2^14 / (2^14 - 1))` bits per symbol and ten bits. -/
theorem C138_average {fuel cap n : ℕ} {c : σ} {M : Finset (List ℕ)} {code : List ℕ → List ℕ}
    (h : Codes fuel cap cdf c n M code) (hag : Agree cdf icdf R) {t : τ} (hR : R c t) (p : List ℕ → ℝ)
    (h0 : ∀ m ∈ M, 0 ≤ p m) (h1 : ∑ m ∈ M, p m = 1) :
    ∑ m ∈ M, p m * Real.logb 2 (1 / p m) ≤ ∑ m ∈ M, p m * (8 * (code m).length) ∧
    ∑ m ∈ M, p m * (8 * (code m).length) ≤
      ∑ m ∈ M, p m * infoBits cdf m c + n * Real.logb 2 (2 ^ 14 / (2 ^ 14 - 1)) + 10 := by
  have hlog2 : 0 < Real.log 2 := Real.log_pos (by norm_num)
  constructor
  · have hk := C138_kraft h hag hR
    have key : ∀ m ∈ M, p m * Real.log (1 / p m) - p m * ((8 * (code m).length) * Real.log 2) ≤
        (1 / 2 : ℝ) ^ (8 * (code m).length) - p m := by
      intro m hm
      rcases (h0 m hm).eq_or_lt with e | hp
      · rw [← e]
        simp
      · have hq : (0 : ℝ) < (1 / 2) ^ (8 * (code m).length) := by positivity
        have := Real.log_le_sub_one_of_pos (div_pos hq hp)
        rw [Real.log_div hq.ne' hp.ne', Real.log_pow, Real.log_div one_ne_zero (by norm_num), Real.log_one] at this
        rw [Real.log_div one_ne_zero hp.ne', Real.log_one]
        have h3 := mul_le_mul_of_nonneg_left this hp.le
        have h4 : p m * ((1 / 2 : ℝ) ^ (8 * (code m).length) / p m - 1) = (1 / 2 : ℝ) ^ (8 * (code m).length) - p m := by
          field_simp
        rw [h4] at h3
        refine le_trans (le_of_eq ?_) h3
        push_cast
        ring
    have hs := Finset.sum_le_sum key
    rw [Finset.sum_sub_distrib, Finset.sum_sub_distrib, h1] at hs
    have hle : ∑ m ∈ M, p m * Real.log (1 / p m) ≤ ∑ m ∈ M, p m * ((8 * (code m).length) * Real.log 2) := by linarith
    have e1 : ∑ m ∈ M, p m * Real.logb 2 (1 / p m) = (∑ m ∈ M, p m * Real.log (1 / p m)) / Real.log 2 := by
      rw [Finset.sum_div]
      exact Finset.sum_congr rfl fun m _ => by rw [Real.logb, mul_div_assoc]
    have e2 : ∑ m ∈ M, p m * (8 * ((code m).length : ℝ)) =
        (∑ m ∈ M, p m * ((8 * (code m).length) * Real.log 2)) / Real.log 2 := by
      rw [Finset.sum_div]
      exact Finset.sum_congr rfl fun m _ => by field_simp
    rw [e1, e2]
    exact div_le_div_of_nonneg_right hle hlog2.le
  · have key : ∀ m ∈ M, p m * (8 * ((code m).length : ℝ)) ≤
        p m * infoBits cdf m c + p m * (n * Real.logb 2 (2 ^ 14 / (2 ^ 14 - 1)) + 10) := by
      intro m hm
      have := C06_code_length_log (h.codable m hm) h.fuel_le (h.code m hm)
      rw [h.length m hm] at this
      have hlen : 1 ≤ (code m).length := List.length_pos_iff.2 (h.ne_nil hag hR hm)
      rw [Nat.cast_sub hlen] at this
      rw [← mul_add]
      refine mul_le_mul_of_nonneg_left ?_ (h0 m hm)
      push_cast at this
      linarith
    have hs := Finset.sum_le_sum key
    rw [Finset.sum_add_distrib, ← Finset.sum_mul, h1, one_mul] at hs
    linarith

end

/-! ### A fixed table -/

/-- All messages of `n` symbols below `k`. -/
def messages (k : ℕ) : ℕ → Finset (List ℕ)
  | 0 => {[]}
  | n + 1 => (Finset.range k ×ˢ messages k n).image fun p => p.1 :: p.2

theorem messages_mem (k : ℕ) : ∀ (n : ℕ) (m : List ℕ), m ∈ messages k n ↔ m.length = n ∧ ∀ s ∈ m, s < k
  | 0, m => by
    simp only [messages, Finset.mem_singleton]
    constructor
    · rintro rfl; simp
    · intro h; exact List.length_eq_zero_iff.1 h.1
  | n + 1, m => by
    simp only [messages, Finset.mem_image, Finset.mem_product, Finset.mem_range, Prod.exists]
    constructor
    · rintro ⟨s, r, ⟨hs, hr⟩, rfl⟩
      obtain ⟨h1, h2⟩ := (messages_mem k n r).1 hr
      refine ⟨by simp [h1], fun x hx => ?_⟩
      rcases List.mem_cons.1 hx with rfl | hx
      · exact hs
      · exact h2 x hx
    · rintro ⟨h1, h2⟩
      cases m with
      | nil => simp at h1
      | cons s r =>
        exact ⟨s, r, ⟨h2 s (by simp), (messages_mem k n r).2 ⟨by simpa using h1, fun x hx => h2 x (by simp [hx])⟩⟩, rfl⟩

theorem messages_sum (k n : ℕ) (f : List ℕ → ℝ) :
    ∑ m ∈ messages k (n + 1), f m = ∑ s ∈ Finset.range k, ∑ m ∈ messages k n, f (s :: m) := by
  rw [messages, Finset.sum_image, Finset.sum_product]
  rintro ⟨a, b⟩ _ ⟨a', b'⟩ _ h
  simp only [List.cons.injEq] at h
  exact Prod.ext h.1 h.2

/-- The probability of a symbol in a table. -/
noncomputable def symbolProb (tbl : List ℕ) (s : ℕ) : ℝ := ((tbl.getD (s + 1) 0 : ℝ) - tbl.getD s 0) / 2 ^ 16

/-- The probability of a message of independent symbols. -/
noncomputable def messageProb (tbl : List ℕ) (m : List ℕ) : ℝ := (m.map (symbolProb tbl)).prod

/-- The entropy of a symbol in bits. -/
noncomputable def tableEntropy (tbl : List ℕ) : ℝ :=
  ∑ s ∈ Finset.range (tbl.length - 1), symbolProb tbl s * Real.logb 2 (1 / symbolProb tbl s)

section
variable {tbl : List ℕ}

theorem symbolProb_pos (htbl : ValidTable tbl) {s : ℕ} (hs : s < tbl.length - 1) : 0 < symbolProb tbl s := by
  have h := table_codable htbl [s] (by simp; omega)
  have h1 : tbl.getD s 0 < tbl.getD (s + 1) 0 := h.1
  have h2 : ((tbl.getD s 0 : ℕ) : ℝ) < (tbl.getD (s + 1) 0 : ℕ) := by exact_mod_cast h1
  unfold symbolProb
  apply div_pos
  · linarith
  · positivity

theorem symbolProb_sum (htbl : ValidTable tbl) : ∑ s ∈ Finset.range (tbl.length - 1), symbolProb tbl s = 1 := by
  unfold symbolProb
  rw [← Finset.sum_div, Finset.sum_range_sub (fun s => (tbl.getD s 0 : ℝ))]
  have hne : tbl ≠ [] := by
    rintro rfl
    have := htbl.first
    simp at this
  have h0 : tbl.getD 0 0 = 0 := by
    have := htbl.first
    rw [List.head?_eq_getElem?] at this
    simp [List.getD, this]
  have h1 : tbl.getD (tbl.length - 1) 0 = 65536 := by
    have := htbl.last
    rw [List.getLast?_eq_getElem?] at this
    simp only [List.getD, this, Option.getD_some]
  rw [h0, h1]
  norm_num

theorem messageProb_pos (htbl : ValidTable tbl) : ∀ (n : ℕ), ∀ m ∈ messages (tbl.length - 1) n, 0 < messageProb tbl m := by
  intro n m hm
  obtain ⟨_, h⟩ := (messages_mem _ n m).1 hm
  unfold messageProb
  refine List.prod_pos ?_
  intro x hx
  obtain ⟨s, hs, rfl⟩ := List.mem_map.1 hx
  exact symbolProb_pos htbl (h s hs)

theorem messageProb_sum (htbl : ValidTable tbl) : ∀ (n : ℕ), ∑ m ∈ messages (tbl.length - 1) n, messageProb tbl m = 1
  | 0 => by simp [messages, messageProb]
  | n + 1 => by
    rw [messages_sum]
    simp only [messageProb, List.map_cons, List.prod_cons]
    simp only [← Finset.mul_sum]
    have := messageProb_sum htbl n
    simp only [messageProb] at this
    simp only [this, mul_one]
    exact symbolProb_sum htbl

theorem info_eq (htbl : ValidTable tbl) : ∀ (m : List ℕ), (∀ s ∈ m, s < tbl.length - 1) →
    infoBits (tableCdf tbl) m () = Real.logb 2 (1 / messageProb tbl m)
  | [], _ => by simp [infoBits, messageProb]
  | s :: m, h => by
    have hs := symbolProb_pos htbl (h s (by simp))
    have hm : 0 < messageProb tbl m := messageProb_pos htbl m.length m
      ((messages_mem _ _ m).2 ⟨rfl, fun x hx => h x (by simp [hx])⟩)
    have ih := info_eq htbl m fun x hx => h x (by simp [hx])
    have e : messageProb tbl (s :: m) = symbolProb tbl s * messageProb tbl m := by simp [messageProb]
    rw [infoBits, ih, e, one_div (symbolProb tbl s * messageProb tbl m), mul_inv,
      Real.logb_mul (inv_ne_zero hs.ne') (inv_ne_zero hm.ne')]
    congr 1
    · unfold symbolProb tableCdf
      rw [inv_div]
    · rw [one_div]

theorem info_sum (htbl : ValidTable tbl) : ∀ (n : ℕ),
    ∑ m ∈ messages (tbl.length - 1) n, messageProb tbl m * infoBits (tableCdf tbl) m () = n * tableEntropy tbl
  | 0 => by simp [messages, infoBits]
  | n + 1 => by
    rw [messages_sum]
    have hstep : ∀ s ∈ Finset.range (tbl.length - 1), ∑ m ∈ messages (tbl.length - 1) n,
        messageProb tbl (s :: m) * infoBits (tableCdf tbl) (s :: m) () =
        symbolProb tbl s * Real.logb 2 (1 / symbolProb tbl s) + symbolProb tbl s * (n * tableEntropy tbl) := by
      intro s _
      have e : ∀ m, messageProb tbl (s :: m) * infoBits (tableCdf tbl) (s :: m) () =
          symbolProb tbl s * Real.logb 2 (1 / symbolProb tbl s) * messageProb tbl m +
            symbolProb tbl s * (messageProb tbl m * infoBits (tableCdf tbl) m ()) := by
        intro m
        have e1 : messageProb tbl (s :: m) = symbolProb tbl s * messageProb tbl m := by simp [messageProb]
        have e2 : infoBits (tableCdf tbl) (s :: m) () =
            Real.logb 2 (1 / symbolProb tbl s) + infoBits (tableCdf tbl) m () := by
          rw [infoBits]
          congr 2
          unfold symbolProb tableCdf
          rw [one_div, inv_div]
        rw [e1, e2]
        ring
      simp only [e]
      rw [Finset.sum_add_distrib, ← Finset.mul_sum, ← Finset.mul_sum, messageProb_sum htbl n, info_sum htbl n, mul_one]
    rw [Finset.sum_congr rfl hstep, Finset.sum_add_distrib, ← Finset.sum_mul, symbolProb_sum htbl]
    push_cast
    unfold tableEntropy
    ring

/-- **C138, average length for tables.** Messages of `n` independent symbols, distributed as the table says, have codes of `n`
times the entropy of the table on average, or up to `log2 (2^14 / (2^14 - 1))` bits per symbol and ten bits more. -/
theorem C138_table (htbl : ValidTable tbl) (hsz : tbl.length ≤ 257) {fuel cap n : ℕ} (hf : 32 ≤ fuel) (hcap : 3 * n + 1 ≤ cap) :
    ∃ code : List ℕ → List ℕ,
      (∀ m : List ℕ, m.length = n → (∀ s ∈ m, s + 1 < tbl.length) →
        encode fuel (tableCdf tbl) () cap m = .ok (code m)) ∧
      n * tableEntropy tbl ≤ ∑ m ∈ messages (tbl.length - 1) n, messageProb tbl m * (8 * (code m).length) ∧
      ∑ m ∈ messages (tbl.length - 1) n, messageProb tbl m * (8 * (code m).length) ≤
        n * tableEntropy tbl + n * Real.logb 2 (2 ^ 14 / (2 ^ 14 - 1)) + 10 := by
  have hex : ∀ m : List ℕ, ∃ data, m.length = n → (∀ s ∈ m, s + 1 < tbl.length) →
      encode fuel (tableCdf tbl) () cap m = .ok data := by
    intro m
    by_cases h : m.length = n ∧ ∀ s ∈ m, s + 1 < tbl.length
    · obtain ⟨data, h1, _⟩ := C01_roundtrip_table (cap := cap) htbl hsz h.2 hf (by rw [h.1]; exact hcap)
      exact ⟨data, fun _ _ => h1⟩
    · exact ⟨[], fun h1 h2 => absurd ⟨h1, h2⟩ h⟩
  choose code hcode using hex
  have hmem : ∀ m ∈ messages (tbl.length - 1) n, m.length = n ∧ ∀ s ∈ m, s + 1 < tbl.length := by
    intro m hm
    obtain ⟨h1, h2⟩ := (messages_mem _ n m).1 hm
    exact ⟨h1, fun s hs => by have := h2 s hs; omega⟩
  have hc : Codes fuel cap (tableCdf tbl) () n (messages (tbl.length - 1) n) code :=
    ⟨hf, hcap, fun m hm s hs => by have := (hmem m hm).2 s hs; omega, fun m hm => (hmem m hm).1,
      fun m hm => table_codable htbl m (hmem m hm).2, fun m hm => hcode m (hmem m hm).1 (hmem m hm).2⟩
  obtain ⟨h1, h2⟩ := C138_average hc (table_agree htbl) (t := ()) trivial (messageProb tbl)
    (fun m hm => (messageProb_pos htbl n m hm).le) (messageProb_sum htbl n)
  rw [info_sum htbl n] at h2
  have h3 : ∑ m ∈ messages (tbl.length - 1) n, messageProb tbl m * Real.logb 2 (1 / messageProb tbl m) =
      n * tableEntropy tbl := by
    rw [← info_sum htbl n]
    exact Finset.sum_congr rfl fun m hm => by rw [info_eq htbl m ((messages_mem _ n m).1 hm).2]
  rw [h3] at h1
  exact ⟨code, hcode, h1, h2⟩

end

/-- Messages of three symbols out of two, of the probabilities 1/4 and 3/4. -/
example : ∃ code : List ℕ → List ℕ, (∀ m : List ℕ, m.length = 3 → (∀ s ∈ m, s + 1 < 3) →
      encode 32 (tableCdf [0, 16384, 65536]) () 10 m = .ok (code m)) ∧
    3 * tableEntropy [0, 16384, 65536] ≤
      ∑ m ∈ messages 2 3, messageProb [0, 16384, 65536] m * (8 * (code m).length) := by
  obtain ⟨code, h1, h2, _⟩ := C138_table (tbl := [0, 16384, 65536]) ⟨rfl, rfl, by decide⟩ (by decide) (fuel := 32) (cap := 10)
    (n := 3) (by decide) (by decide)
  exact ⟨code, h1, h2⟩

example : encode 32 (tableCdf [0, 16384, 65536]) () 10 [0, 1, 1] = .ok [32] ∧
    encode 32 (tableCdf [0, 16384, 65536]) () 10 [1, 1, 1] = .ok [160] ∧ (messages 2 3).card = 8 := by
  refine ⟨by decide +kernel, by decide +kernel, by decide +kernel⟩

end Verif.AC
