import Verif.Rans.Props3
import Mathlib.Analysis.Complex.ExponentialBounds

/-
How much tail capacity `encode` needs (C11, C14): a bound by the information content of the message, and the
default capacity of one and a half bytes per symbol.
-/
namespace Verif.Rans

theorem aPushStep_stack {cap sh : Nat} {fs : List Nat} {s s' : St} (h : aPushStep cap sh fs s = some s') :
    s.stack.length ≤ s'.stack.length := by
  simp only [aPushStep] at h
  split_ifs at h
  injection h with h
  subst h
  simp

theorem aPushStep_heads {cap sh : Nat} {fs : List Nat} {s s' : St} (hl : s.heads.length = fs.length)
    (h : aPushStep cap sh fs s = some s') : s'.heads.length = s.heads.length := by
  simp only [aPushStep] at h
  split_ifs at h
  injection h with h
  subst h
  exact shr8_length _ _ (condIdx_length hl)

theorem aPushStep_cap {cap cap' sh : Nat} {fs : List Nat} {s s' : St} (h : aPushStep cap sh fs s = some s')
    (hc : s.stack.length + s.heads.length ≤ cap') : aPushStep cap' sh fs s = some s' := by
  simp only [aPushStep] at h ⊢
  split_ifs at h
  rw [if_pos hc]
  exact h

/-- A push that works with some capacity works with every capacity that leaves a byte per lane in the end. -/
theorem aPush_cap {cap cap' p : Nat} {S : List Slot} {s s' : St} (hl : s.heads.length = S.length)
    (h : aPush cap p S s = some s') (hc : s'.stack.length + S.length ≤ cap') :
    aPush cap' p S s = some s' ∧ s.stack.length ≤ s'.stack.length := by
  have hf : s.heads.length = (S.map Prod.snd).length := by rw [hl, List.length_map]
  simp only [aPush, Option.bind_eq_some_iff, Option.map_eq_some_iff] at h ⊢
  obtain ⟨s1, e1, s2, e2, s3, e3, rfl⟩ := h
  have l1 := aPushStep_heads hf e1
  have l2 := aPushStep_heads (l1.trans hf) e2
  have k1 := aPushStep_stack e1
  have k2 := aPushStep_stack e2
  have k3 := aPushStep_stack e3
  dsimp only at hc ⊢
  exact ⟨⟨s1, aPushStep_cap e1 (by omega), s2, aPushStep_cap e2 (by omega), s3, aPushStep_cap e3 (by omega), rfl⟩,
    by omega⟩

section
variable {σ : Type} {cdf : CdfFun σ} {icdf : InvCdfFun σ} {p L width cap : Nat}
  {V : σ → List Nat → Prop} {R : σ → σ → Prop}

theorem run_cap (hp : p ≤ 24) (h : CdfPair cdf icdf p L width V R) {cap' : Nat} :
    ∀ {msg : List (List Nat)} {s s' : St} {c c' d : σ}, Ok L s → Codable cdf V msg c c' →
    aPushAll (aDefault cap p width cdf icdf).push msg s c = some (s', d) → s'.stack.length + L ≤ cap' →
    aPushAll (aDefault cap' p width cdf icdf).push msg s c = some (s', d) ∧ s.stack.length ≤ s'.stack.length := by
  intro msg
  induction msg with
  | nil =>
    intro s s' c c' d _ _ hr _
    simp only [aPushAll, Option.some.injEq, Prod.mk.injEq] at hr ⊢
    exact ⟨hr, by rw [hr.1]⟩
  | cons x rest ih =>
    rintro s s' c c' d hs ⟨c1, h1, h2, rfl⟩ hr hc
    simp only [aPushAll, Option.bind_eq_some_iff] at hr ⊢
    obtain ⟨⟨s1, d1⟩, e1, e2⟩ := hr
    obtain rfl : d1 = c1 := (codable_run rest h1).2 _ e1
    have ok1 := (run_bits hp h hs h1 e1).2
    simp only [aDefault, Option.map_eq_some_iff, Prod.mk.injEq] at e2
    obtain ⟨s2, e3, rfl, rfl⟩ := e2
    obtain ⟨f1, f2, f3, f4⟩ := slotsOf_spec (h.slots d1 x h2)
    obtain ⟨g1, g2⟩ := aPush_cap (cap' := cap') (by rw [ok1.lanes, f3]) e3 (by rw [f3]; exact hc)
    obtain ⟨i1, i2⟩ := ih hs h1 e1 (by omega)
    refine ⟨⟨(s1, d1), i1, ?_⟩, by omega⟩
    simp only [aDefault, g1, Option.map_some]

/-- **C11, capacity.**  Whatever the message: if the tail holds its information content, `log2 (1 + 2^(p-24))` bits
per symbol more, and one byte per lane, then `encode` succeeds and `decode` with that capacity or a larger one
returns the message. -/
theorem C11_capacity (hp : p ≤ 24) (hL : 1 ≤ L) (h : CdfPair cdf icdf p L width V R) {msg : List (List Nat)}
    {c c' t' : σ} (hcod : Codable cdf V msg c c') (hR : R c' t')
    (hroom : messageBits cdf p msg c + msg.length * (L * Real.logb 2 (1 + 2 ^ p / 2 ^ 24)) + 8 * L ≤ 8 * cap)
    {rnd : List Nat} (hr : rnd.length = cap) (hrb : ∀ x ∈ rnd, x < 256) (init : σ) (ae : Bool) :
    ∃ out, encodeOne (defaultCodec cdf icdf init p width ae) c L cap rnd none msg = .ok (out, c') ∧
      ValidBuffer L out ∧
      ∀ cap', cap ≤ cap' → ∃ t, decodeOne (defaultCodec cdf icdf init p width ae) t' L cap' msg.length out =
        .ok (msg, freshBuffer L, t) ∧ R c t := by
  obtain ⟨s, hsa, hok, hlen, hbytes⟩ := startsAs_of (L := L) (cap := cap) (start := none) trivial
  simp only [startBytes] at hlen
  obtain ⟨s', hrun, hok', _⟩ := default_run_room hp h msg (cap := 3 * L * msg.length) hok hcod (by omega)
  have hb := (run_bits hp h hok hcod hrun).1
  have hs0 : size s = (2 ^ 24) ^ L := by
    cases hsa
    simp [size, List.prod_replicate]
  have h1 : (2 ^ 24) ^ L * 256 ^ s'.stack.length ≤ size s' := by
    simp only [size]
    refine Nat.mul_le_mul_right _ ?_
    rw [← hok'.lanes]
    exact prod_ge fun x hx => (hok'.range x hx).1
  have h2 : (((2 ^ 24) ^ L * 256 ^ s'.stack.length : Nat) : ℝ) ≤ (size s' : ℝ) := by exact_mod_cast h1
  have h3 := Real.logb_le_logb_of_le (b := 2) (by norm_num) (by positivity) h2
  have e : Real.logb 2 (((2 ^ 24) ^ L * 256 ^ s'.stack.length : Nat) : ℝ) =
      Real.logb 2 (((2 ^ 24) ^ L : Nat) : ℝ) + 8 * s'.stack.length := by
    push_cast
    rw [Real.logb_mul (by positivity) (by positivity)]
    congr 1
    rw [show (256 : ℝ) = 2 ^ (8 : ℕ) by norm_num, ← pow_mul, Real.logb_pow, Real.logb_self_eq_one (by norm_num)]
    push_cast; ring
  rw [hs0] at hb
  rw [e] at h3
  have hfin := le_trans h3 hb
  have hst : ((s'.stack.length + L : Nat) : ℝ) ≤ (cap : ℝ) := by
    generalize Real.logb 2 (((2 ^ 24) ^ L : Nat) : ℝ) = A at hfin
    push_cast
    linarith
  have hst' : s'.stack.length + L ≤ cap := by exact_mod_cast hst
  have hLc : L ≤ cap := by omega
  have hrun' := (run_cap hp h hok hcod hrun hst').1
  obtain ⟨ha1, _⟩ := codable_run (icdf := icdf) (cap := cap) (p := p) (width := width) msg (s := s) hcod
  obtain ⟨junk, hj, he, _, hle⟩ := encodeOne_spec hL hLc (default_lossless hp hLc h init ae) hr hrb hsa ha1 hrun'
  refine ⟨_, he, planes_valid hok'.lanes hok'.range ?_, ?_⟩
  · intro x hx
    rcases List.mem_cons.1 hx with rfl | hx
    · exact hj
    · exact hok'.bytes x hx
  · intro cap' hcap
    obtain ⟨t, hd, hRt⟩ := default_decode hp hLc h init ae hj hok hcod hrun' hcap (by omega) hR
    exact ⟨t, by rw [hd, hbytes]; rfl, hRt⟩

end

/-- A symbol of precision `p` has at most `p` bits. -/
theorem slotBits_le {p L : Nat} {lo hi : List Nat} (h : ValidSlots p L lo hi) : slotBits p lo hi ≤ L * p := by
  obtain ⟨e1, e2, e3, e4⟩ := slotsOf_spec h
  rw [← slotBits_eq, infoBits, ← e3]
  have : ∀ S : List Slot, (∀ s ∈ S, SlotOk p s) →
      (S.map fun s => Real.logb 2 ((2 : ℝ) ^ p / (s.2 : ℝ))).sum ≤ S.length * p := by
    intro S
    induction S with
    | nil => simp
    | cons s S ih =>
      intro hS
      have h1 := ih fun t ht => hS t (by simp [ht])
      have h2 : Real.logb 2 ((2 : ℝ) ^ p / (s.2 : ℝ)) ≤ p := by
        have hs := (hS s (by simp)).pos
        have hs' : (1 : ℝ) ≤ (s.2 : ℝ) := by exact_mod_cast hs
        have h3 : (2 : ℝ) ^ p / (s.2 : ℝ) ≤ 2 ^ p := div_le_self (by positivity) hs'
        have h4 := Real.logb_le_logb_of_le (b := 2) (by norm_num) (by positivity) h3
        rwa [Real.logb_pow, Real.logb_self_eq_one (by norm_num), mul_one] at h4
      rw [List.map_cons, List.sum_cons, List.length_cons]
      push_cast
      linarith
  exact this _ e4

theorem messageBits_le {σ : Type} {cdf : CdfFun σ} {icdf : InvCdfFun σ} {p L width : Nat}
    {V : σ → List Nat → Prop} {R : σ → σ → Prop} (h : CdfPair cdf icdf p L width V R) :
    ∀ {msg : List (List Nat)} {c c' : σ}, Codable cdf V msg c c' →
      messageBits cdf p msg c ≤ msg.length * (L * p) := by
  intro msg
  induction msg with
  | nil => intro c c' _; simp [messageBits]
  | cons x rest ih =>
    rintro c c' ⟨c1, h1, h2, rfl⟩
    have := ih h1
    have h3 := slotBits_le (h.slots c1 x h2)
    rw [messageBits, ← codable_final h1, List.length_cons]
    push_cast
    linarith

/-- **C11, default capacity.**  With a precision of at most 11 bits and at least 13 rows, the default capacity — one
and a half bytes per symbol — suffices for every message of every codec: encoding succeeds, and decoding with its
default capacity, which is the same, returns the message. -/
theorem C11_default_capacity {σ : Type} {cdf : CdfFun σ} {icdf : InvCdfFun σ} {p L width : Nat}
    {V : σ → List Nat → Prop} {R : σ → σ → Prop} (hp : p ≤ 11) (hL : 1 ≤ L) (h : CdfPair cdf icdf p L width V R)
    {msg : List (List Nat)} (hn : 13 ≤ msg.length) {c c' t' : σ} (hcod : Codable cdf V msg c c') (hR : R c' t')
    {rnd : List Nat} (hr : rnd.length = defaultCap msg.length L) (hrb : ∀ x ∈ rnd, x < 256) (init : σ) (ae : Bool) :
    ∃ out, encodeOne (defaultCodec cdf icdf init p width ae) c L (defaultCap msg.length L) rnd none msg =
        .ok (out, c') ∧
      ∃ t, decodeOne (defaultCodec cdf icdf init p width ae) t' L (defaultCap msg.length L) msg.length out =
        .ok (msg, freshBuffer L, t) ∧ R c t := by
  have hroom : messageBits cdf p msg c + msg.length * (L * Real.logb 2 (1 + 2 ^ p / 2 ^ 24)) + 8 * L ≤
      8 * (defaultCap msg.length L : ℝ) := by
    have hm := messageBits_le h hcod
    have he : Real.logb 2 (1 + 2 ^ p / 2 ^ 24) ≤ 1 / 13 := by
      have h1 : (1 : ℝ) + 2 ^ p / 2 ^ 24 ≤ 1 + 1 / 8192 := by
        have : (2 : ℝ) ^ p ≤ 2 ^ 11 := pow_le_pow_right₀ (by norm_num) hp
        norm_num at this ⊢
        linarith
      have h2 := Real.logb_le_logb_of_le (b := 2) (by norm_num) (by positivity) h1
      refine h2.trans ?_
      rw [Real.logb, div_le_iff₀ (Real.log_pos (by norm_num))]
      have h3 := Real.log_le_sub_one_of_pos (x := (1 + 1 / 8192 : ℝ)) (by norm_num)
      have h4 := Real.log_two_gt_d9
      norm_num at h3 ⊢
      linarith
    have hcap : (12 : ℝ) * (msg.length * L) - 4 ≤ 8 * (defaultCap msg.length L : ℝ) := by
      have : 12 * (msg.length * L) ≤ 8 * defaultCap msg.length L + 4 := by
        rw [defaultCap]; omega
      have : ((12 * (msg.length * L) : Nat) : ℝ) ≤ ((8 * defaultCap msg.length L + 4 : Nat) : ℝ) := by
        exact_mod_cast this
      push_cast at this
      linarith
    have hp' : (p : ℝ) ≤ 11 := by exact_mod_cast hp
    have hL' : (1 : ℝ) ≤ L := by exact_mod_cast hL
    have hn' : (13 : ℝ) ≤ msg.length := by exact_mod_cast hn
    have hnL : (0 : ℝ) ≤ msg.length * L := by positivity
    have e1 : (msg.length : ℝ) * (L * p) ≤ msg.length * L * 11 := by
      rw [← mul_assoc]; exact mul_le_mul_of_nonneg_left hp' hnL
    have e2 : (msg.length : ℝ) * (L * Real.logb 2 (1 + 2 ^ p / 2 ^ 24)) ≤ msg.length * L * (1 / 13) := by
      rw [← mul_assoc]; exact mul_le_mul_of_nonneg_left he hnL
    have e3 : (13 : ℝ) * L ≤ msg.length * L := mul_le_mul_of_nonneg_right hn' (by linarith)
    nlinarith
  obtain ⟨out, h1, _, h3⟩ := C11_capacity (cap := defaultCap msg.length L) (by omega) hL h hcod hR hroom hr hrb init ae
  exact ⟨out, h1, h3 _ le_rfl⟩

/-- **C14 does not hold with the default capacity either.**  Three lanes, five rows of 20-bit symbols, valid tables:
`encode` with its default capacity of 22 bytes returns a buffer without raising, and `decode` with its default
capacity returns another message, also without raising. -/
theorem C14_violated_default :
    ∃ (tbls : List (List Nat)) (msg : List (List Nat)) (rnd out : List Nat),
      (∀ t ∈ tbls, ValidTable 20 t) ∧ (∀ x ∈ msg, TableSymbols tbls x) ∧ tbls.length = 3 ∧ msg.length = 5 ∧
      rnd.length = defaultCap msg.length tbls.length ∧ defaultCap msg.length tbls.length = 22 ∧
      encodeOne (fixedArrayCodec tbls 20 256 false) tbls 3 (defaultCap msg.length tbls.length) rnd none msg =
        .ok (out, tbls) ∧
      ∃ msg' rest, decodeOne (fixedArrayCodec tbls 20 256 false) tbls 3 (defaultCap msg.length tbls.length)
        msg.length out = .ok (msg', rest, tbls) ∧ msg' ≠ msg := by
  refine ⟨List.replicate 3 [0, 1, 17, 2 ^ 17, 2 ^ 20],
    [[0, 3, 2], [2, 1, 0], [0, 1, 0], [0, 1, 3], [0, 3, 3]], List.replicate 22 7, ?_⟩
  refine ⟨_, ?_, ?_, by rfl, by rfl, by rfl, by rfl, by rfl, _, _, by rfl, by decide +kernel⟩
  · intro t ht
    rw [List.eq_of_mem_replicate ht]
    exact ⟨rfl, rfl, by decide⟩
  · intro x hx
    fin_cases hx <;> simp [TableSymbols, List.replicate]

/-- 16 rows of two lanes with tables of precision 8 meet the hypotheses of `C11_default_capacity`: the default
capacity, 48 bytes, holds them. -/
example : ∃ out,
    encodeOne (fixedArrayCodec [[0, 1, 256], [0, 255, 256]] 8 256 false) [[0, 1, 256], [0, 255, 256]] 2
      (defaultCap 16 2) (List.replicate 48 9) none (List.replicate 16 [0, 1]) = .ok (out, [[0, 1, 256], [0, 255, 256]]) ∧
    ∃ rest t, decodeOne (fixedArrayCodec [[0, 1, 256], [0, 255, 256]] 8 256 false) [[0, 1, 256], [0, 255, 256]] 2
      (defaultCap 16 2) 16 out = .ok (List.replicate 16 [0, 1], rest, t) := by
  exact ⟨_, by rfl, _, _, by rfl⟩
