import Verif.AC.PropsOptimal

/-!
# C150: codes of the arithmetic coder are in the order of the messages, and a beginning of a code gives a beginning of the message
-/

namespace Verif.AC

/-! ### Specification -/

/-- `a` comes before `b` in a dictionary: at the first place where they differ, `a` has the smaller number. (A list is not
before its continuations here.) -/
def Before (a b : List ℕ) : Prop := ∃ p s s' r r', a = p ++ s :: r ∧ b = p ++ s' :: r' ∧ s < s'

/-- The model lays out the slots in the order of the symbols. -/
def Ordered {σ : Type} (cdf : CdfFun σ) : Prop :=
  ∀ c s s', s < s' → (cdf s' c).1 < (cdf s' c).2.1 → (cdf s c).2.1 ≤ (cdf s' c).1

/-! ### Dictionary order of bytes and values of bits -/

theorem before_cases : ∀ x y : List ℕ, Before x y ∨ Before y x ∨ x <+: y ∨ y <+: x
  | [], y => Or.inr (Or.inr (Or.inl (List.nil_prefix)))
  | x :: l, [] => Or.inr (Or.inr (Or.inr (List.nil_prefix)))
  | x :: l, y :: l' => by
    rcases Nat.lt_trichotomy x y with h | rfl | h
    · exact Or.inl ⟨[], x, y, l, l', rfl, rfl, h⟩
    · rcases before_cases l l' with ⟨p, s, s', r, r', rfl, rfl, h⟩ | ⟨p, s, s', r, r', rfl, rfl, h⟩ | h | h
      · exact Or.inl ⟨x :: p, s, s', r, r', rfl, rfl, h⟩
      · exact Or.inr (Or.inl ⟨x :: p, s, s', r, r', rfl, rfl, h⟩)
      · exact Or.inr (Or.inr (Or.inl (List.cons_prefix_cons.2 ⟨rfl, h⟩)))
      · exact Or.inr (Or.inr (Or.inr (List.cons_prefix_cons.2 ⟨rfl, h⟩)))
    · exact Or.inr (Or.inl ⟨[], y, x, l', l, rfl, rfl, h⟩)

theorem before_asymm : ∀ (x y : List ℕ), Before x y → ¬ Before y x := by
  intro x y ⟨p, s, s', r, r', hx, hy, h⟩ ⟨q, u, u', w, w', hy', hx', h'⟩
  induction p generalizing x y q with
  | nil =>
    cases q with
    | nil => simp only [List.nil_append] at hx hy hx' hy'; subst hx hy; simp at hx' hy'; omega
    | cons z q => simp only [List.nil_append, List.cons_append] at hx hy hx' hy'; subst hx hy; simp at hx' hy'; omega
  | cons z p ih =>
    cases q with
    | nil => simp only [List.nil_append, List.cons_append] at hx hy hx' hy'; subst hx hy; simp at hx' hy'; omega
    | cons z' q =>
      simp only [List.cons_append] at hx hy hx' hy'
      subst hx hy
      simp only [List.cons.injEq] at hx' hy'
      exact ih _ _ rfl rfl q hy'.2 hx'.2

theorem P_congr {S S' : ℕ → Bool} : ∀ m, (∀ t < m, S t = S' t) → P S m = P S' m
  | 0, _ => rfl
  | m + 1, h => by
    rw [P, P, P_congr m fun t ht => h t (by omega), h m (by omega)]

/-- A larger beginning stays larger. -/
theorem P_mono {S S' : ℕ → Bool} {m : ℕ} (h : P S m < P S' m) (j : ℕ) : P S (m + j) < P S' (m + j) :=
  calc P S (m + j) < (P S m + 1) * 2 ^ j := P_lt S m j
    _ ≤ P S' m * 2 ^ j := Nat.mul_le_mul_right _ h
    _ ≤ P S' (m + j) := P_ge S' m j

theorem P_byte {x : List ℕ} {k : ℕ} (h : x.getD k 0 < 256) :
    P (bitOf x) (8 * k + 8) = P (bitOf x) (8 * k) * 256 + x.getD k 0 := by
  have e : ∀ i, i < 8 → (bitOf x (8 * k + i)).toNat = x.getD k 0 / 2 ^ (7 - i) % 2 := by
    intro i hi
    unfold bitOf
    rw [show (8 * k + i) / 8 = k by omega, show (8 * k + i) % 8 = i by omega, Nat.testBit_eq_decide_div_mod_eq]
    rcases Nat.mod_two_eq_zero_or_one (x.getD k 0 / 2 ^ (7 - i)) with h0 | h0 <;> rw [h0] <;> rfl
  have e0 := e 0 (by omega)
  have e1 := e 1 (by omega)
  have e2 := e 2 (by omega)
  have e3 := e 3 (by omega)
  have e4 := e 4 (by omega)
  have e5 := e 5 (by omega)
  have e6 := e 6 (by omega)
  have e7 := e 7 (by omega)
  simp only [P, Nat.add_zero] at e0 ⊢
  rw [e0, e1, e2, e3, e4, e5, e6, e7]
  generalize x.getD k 0 = n at h ⊢
  norm_num
  have d : ∀ i, n / 2 ^ (i + 1) = n / 2 ^ i / 2 := fun i => by rw [Nat.div_div_eq_div_mul, pow_succ]
  have d1 := d 1
  have d2 := d 2
  have d3 := d 3
  have d4 := d 4
  have d5 := d 5
  have d6 := d 6
  norm_num at d1 d2 d3 d4 d5 d6
  omega

theorem before_value {x y : List ℕ} (hx : ∀ b ∈ x, b < 256) (hy : ∀ b ∈ y, b < 256) (h : Before x y) (m : ℕ) :
    P (bitOf x) m ≤ P (bitOf y) m := by
  obtain ⟨p, s, s', r, r', rfl, rfl, hs⟩ := h
  have g1 : (p ++ s :: r).getD p.length 0 = s := by simp [List.getD]
  have g2 : (p ++ s' :: r').getD p.length 0 = s' := by simp [List.getD]
  have hbits : ∀ t < 8 * p.length, bitOf (p ++ s :: r) t = bitOf (p ++ s' :: r') t := by
    intro t ht
    unfold bitOf
    rw [getD_append_lt _ _ _ _ (by omega), getD_append_lt _ _ _ _ (by omega)]
  have e1 := P_byte (x := p ++ s :: r) (k := p.length) (by rw [g1]; exact hx s (by simp))
  have e2 := P_byte (x := p ++ s' :: r') (k := p.length) (by rw [g2]; exact hy s' (by simp))
  rw [g1] at e1
  rw [g2] at e2
  have e3 := P_congr _ hbits
  have hlt : P (bitOf (p ++ s :: r)) (8 * p.length + 8) < P (bitOf (p ++ s' :: r')) (8 * p.length + 8) := by
    rw [e1, e2, e3]
    omega
  by_contra hn
  have h1 := P_mono (not_le.1 hn) (8 * p.length + 8)
  have h2 := P_mono hlt m
  rw [Nat.add_comm m] at h1
  omega

/-! ### The interval after a beginning of a message -/

section
variable {σ τ : Type} {cdf : CdfFun σ} {icdf : InvCdfFun τ} {R : σ → τ → Prop}

/-- The state of the model after a beginning of a message. -/
def after (cdf : CdfFun σ) : List ℕ → σ → σ
  | [], c => c
  | s :: rest, c => after cdf rest (cdf s c).2.2

theorem codable_append : ∀ (p r : List ℕ) (c : σ), Codable cdf (p ++ r) c ↔ Codable cdf p c ∧ Codable cdf r (after cdf p c)
  | [], r, c => by simp [Codable, after]
  | s :: p, r, c => by
    rw [List.cons_append, Codable, Codable, codable_append p r]
    simp only [after, and_assoc]

theorem aEncodeLoop_append {fuel : ℕ} (hf : 32 ≤ fuel) : ∀ (p r : List ℕ) (a : AEnc) (c : σ) (a' : AEnc) (c' : σ),
    Wide a.high a.low → Codable cdf p c → aEncodeLoop fuel cdf (p ++ r) a c = some (a', c') →
    ∃ a1, aEncodeLoop fuel cdf p a c = some (a1, after cdf p c) ∧ Wide a1.high a1.low ∧
      aEncodeLoop fuel cdf r a1 (after cdf p c) = some (a', c')
  | [], r, a, c, a', c', hw, _, h => ⟨a, rfl, hw, h⟩
  | s :: p, r, a, c, a', c', hw, hc, h => by
    obtain ⟨h1, h2, h3⟩ := hc.cons
    obtain ⟨a2, ha2, hw2⟩ := aEnqueue_some hf hw h1 h2
    rw [List.cons_append] at h
    simp only [aEncodeLoop, ha2] at h ⊢
    exact aEncodeLoop_append hf p r a2 _ a' c' hw2 h3 h

/-- What a code says about the interval after a beginning. -/
theorem begin_inIv {S : ℕ → Bool} {fuel : ℕ} (hf : 32 ≤ fuel) {p r : List ℕ} {c : σ} (hcod : Codable cdf (p ++ r) c)
    (hS : StartsWith S (codeBits fuel cdf c (p ++ r))) :
    ∃ a1 a', aEncodeLoop fuel cdf p aInit c = some (a1, after cdf p c) ∧ Wide a1.high a1.low ∧ InIv S a1 ∧
      (∃ c', aEncodeLoop fuel cdf r a1 (after cdf p c) = some (a', c')) ∧ InIv S a' := by
  obtain ⟨a', c', ha, hw⟩ := aEncodeLoop_some hf (p ++ r) aInit c init_wide hcod
  have hcb : codeBits fuel cdf c (p ++ r) = aFinish a' := by simp only [codeBits, ha]
  have hx := aEncodeLoop_exit (p ++ r) aInit c a' c' init_exit ha
  rw [hcb] at hS
  have hi := finish_inIv hx hS
  obtain ⟨a1, h1, hw1, h2⟩ := aEncodeLoop_append hf p r aInit c a' c' init_wide ((codable_append p r c).1 hcod).1 ha
  exact ⟨a1, a', h1, hw1, aEncodeLoop_back hf r a1 _ a' c' hw1 ((codable_append p r c).1 hcod).2 h2 hi, ⟨c', h2⟩, hi⟩

theorem narrow_slot {S : ℕ → Bool} {a : AEnc} {lo hi : ℕ} (hw : Wide a.high a.low) (h1 : lo < hi) (h2 : hi ≤ 65536)
    (h : InIv S (narrowed a lo hi)) : off a + a.low + (a.high - a.low + 1) * lo / 65536 ≤ P S (pos a + 32) ∧
      P S (pos a + 32) < off a + a.low + (a.high - a.low + 1) * hi / 65536 := by
  obtain ⟨_, e1, e2, e3, e4⟩ := narrow_spec hw h1 h2
  unfold InIv at h
  rw [off_narrowed, pos_narrowed] at h
  simp only [narrowed] at h
  rw [e1, e2] at h
  generalize P S (pos a + 32) = p at *
  omega

/-- What a code says about the slot of a symbol: the value of its beginning is in the slot. -/
theorem slot_value {S : ℕ → Bool} {fuel : ℕ} (hf : 32 ≤ fuel) {p r : List ℕ} {s : ℕ} {c : σ}
    (hcod : Codable cdf (p ++ s :: r) c) (hS : StartsWith S (codeBits fuel cdf c (p ++ s :: r))) {a1 : AEnc}
    (ha1 : aEncodeLoop fuel cdf p aInit c = some (a1, after cdf p c)) :
    off a1 + a1.low + (a1.high - a1.low + 1) * (cdf s (after cdf p c)).1 / 65536 ≤ P S (pos a1 + 32) ∧
      P S (pos a1 + 32) < off a1 + a1.low + (a1.high - a1.low + 1) * (cdf s (after cdf p c)).2.1 / 65536 := by
  obtain ⟨a2, a', h1, hw, -, ⟨c', hr⟩, hi⟩ := begin_inIv hf hcod hS
  have h12 : a1 = a2 := (Prod.mk.inj (Option.some.inj (ha1.symm.trans h1))).1
  subst h12
  obtain ⟨k1, k2, k3⟩ := ((codable_append p _ c).1 hcod).2.cons
  obtain ⟨a3, ha3, hw3⟩ := aEnqueue_some hf hw k1 k2
  simp only [aEncodeLoop, ha3] at hr
  have hi3 := aEncodeLoop_back hf r a3 _ a' c' hw3 k3 hr hi
  simp only [aEnqueue, Option.map_eq_some_iff, Prod.mk.injEq] at ha3
  obtain ⟨a4, h4, rfl, _⟩ := ha3
  have hin := aLoop_back _ _ _ (narrow_iv hw k1 k2) h4 hi3
  exact narrow_slot hw k1 k2 hin

/-! ### C150 -/

theorem encode_stores {c : σ} {msg : List ℕ} (hcod : Codable cdf msg c) {fuel cap : ℕ} (hf : 32 ≤ fuel)
    (hcap : 3 * msg.length + 1 ≤ cap) {x : List ℕ} (hx : encode fuel cdf c cap msg = .ok x) :
    Stores (codeBits fuel cdf c msg) x := by
  obtain ⟨b, hj, hl, hst⟩ := jaxEncode_spec hf (cap := cap) (by omega) hcod
  have hi : (codeBits fuel cdf c msg).length / 8 < cap := by
    have := codeBits_short hf hcod
    omega
  simp only [encode, hj] at hx
  rw [if_neg (by omega)] at hx
  cases hx
  exact (hst hi).take

/-- **C150, order.** Two messages of any lengths, under a model that lays out the symbols in their order: if the first message
comes before the second in a dictionary, the code of the first comes before the code of the second. -/
theorem C150_order (hord : Ordered cdf) {c : σ} {a b : List ℕ} (ha : Codable cdf a c) (hb : Codable cdf b c) {fuel cap : ℕ}
    (hf : 32 ≤ fuel) (hcap : 3 * a.length + 1 ≤ cap) (hcap' : 3 * b.length + 1 ≤ cap) {x y : List ℕ}
    (hx : encode fuel cdf c cap a = .ok x) (hy : encode fuel cdf c cap b = .ok y) (h : Before a b) : Before x y := by
  have sx := encode_stores ha hf hcap hx
  have sy := encode_stores hb hf hcap' hy
  have bx := C138_bytes hx
  have bY := C138_bytes hy
  obtain ⟨p, s, s', r, r', rfl, rfl, hs⟩ := h
  obtain ⟨a1, -, ha1, hw, -⟩ := begin_inIv hf ha (S := bitOf x) fun t ht => sx.bit t ht
  obtain ⟨k1, k2, _⟩ := ((codable_append p _ c).1 hb).2.cons
  have hle := hord (after cdf p c) s s' hs k1
  have hmul : (a1.high - a1.low + 1) * (cdf s (after cdf p c)).2.1 / 65536 ≤
      (a1.high - a1.low + 1) * (cdf s' (after cdf p c)).1 / 65536 :=
    Nat.div_le_div_right (Nat.mul_le_mul_left _ hle)
  -- whatever starts with the first code is below whatever starts with the second
  have key : ∀ S S' : ℕ → Bool, StartsWith S (codeBits fuel cdf c (p ++ s :: r)) →
      StartsWith S' (codeBits fuel cdf c (p ++ s' :: r')) → P S (pos a1 + 32) < P S' (pos a1 + 32) := by
    intro S S' hS hS'
    have v1 := (slot_value hf ha hS ha1).2
    have v2 := (slot_value hf hb hS' ha1).1
    omega
  have hne : ∀ z, Stores (codeBits fuel cdf c (p ++ s :: r)) z → Stores (codeBits fuel cdf c (p ++ s' :: r')) z → False :=
    fun z h1 h2 => lt_irrefl _ (key (bitOf z) (bitOf z) (fun t ht => h1.bit t ht) fun t ht => h2.bit t ht)
  rcases before_cases x y with h | h | ⟨z, rfl⟩ | ⟨z, rfl⟩
  · exact h
  · have h1 := before_value bY bx h (pos a1 + 32)
    have h2 := key (bitOf x) (bitOf y) (fun t ht => sx.bit t ht) fun t ht => sy.bit t ht
    omega
  · exact (hne _ (sx.append z) sy).elim
  · exact (hne _ sx (sy.append z)).elim

/-- **C150, sorting.** Codes of messages of the same length sort exactly as the messages do. -/
theorem C150_sort (hord : Ordered cdf) {c : σ} {a b : List ℕ} (hl : a.length = b.length) (ha : Codable cdf a c)
    (hb : Codable cdf b c) {fuel cap : ℕ} (hf : 32 ≤ fuel) (hcap : 3 * a.length + 1 ≤ cap) {x y : List ℕ}
    (hx : encode fuel cdf c cap a = .ok x) (hy : encode fuel cdf c cap b = .ok y) : Before x y ↔ Before a b := by
  refine ⟨fun h => ?_, fun h => C150_order hord ha hb hf hcap (by omega) hx hy h⟩
  rcases before_cases a b with h' | h' | h' | h'
  · exact h'
  · exact (before_asymm _ _ h (C150_order hord hb ha hf (by omega) hcap hy hx h')).elim
  · have e := h'.eq_of_length hl
    subst e
    rw [hx] at hy
    cases hy
    exact (before_asymm _ _ h h).elim
  · have e := h'.eq_of_length hl.symm
    subst e
    rw [hx] at hy
    cases hy
    exact (before_asymm _ _ h h).elim

theorem table_ordered {tbl : List ℕ} (h : ValidTable tbl) : Ordered (tableCdf tbl) := by
  intro c s s' hs hlt
  simp only [tableCdf] at hlt ⊢
  have hs' : s' + 1 < tbl.length := by
    by_contra hn
    have : tbl.getD (s' + 1) 0 = 0 := by
      simp [List.getD, List.getElem?_eq_none (show tbl.length ≤ s' + 1 by omega)]
    omega
  rw [List.getD_eq_getElem _ _ (show s + 1 < tbl.length by omega), List.getD_eq_getElem _ _ (show s' < tbl.length by omega)]
  rcases Nat.lt_or_ge (s + 1) s' with h' | h'
  · exact (List.pairwise_iff_getElem.mp h.incr (s + 1) s' (by omega) (by omega) h').le
  · have : s + 1 = s' := by omega
    subst this
    exact le_rfl

/-- **C150 for tables.** With a valid table codes of messages of the same length sort as the messages, no further hypothesis. -/
theorem C150_table {tbl : List ℕ} (h : ValidTable tbl) {a b : List ℕ} (hl : a.length = b.length)
    (ha : ∀ s ∈ a, s + 1 < tbl.length) (hb : ∀ s ∈ b, s + 1 < tbl.length) {fuel cap : ℕ} (hf : 32 ≤ fuel)
    (hcap : 3 * a.length + 1 ≤ cap) {x y : List ℕ} (hx : encode fuel (tableCdf tbl) () cap a = .ok x)
    (hy : encode fuel (tableCdf tbl) () cap b = .ok y) : Before x y ↔ Before a b :=
  C150_sort (table_ordered h) hl (table_codable h a ha) (table_codable h b hb) hf hcap hx hy

/-! ### Beginnings -/

theorem infoBits_pos {fuel : ℕ} (hf : 32 ≤ fuel) {p : List ℕ} {c : σ} (hcod : Codable cdf p c) {a1 : AEnc} {c1 : σ}
    (ha1 : aEncodeLoop fuel cdf p aInit c = some (a1, c1)) :
    (pos a1 : ℝ) ≤ infoBits cdf p c + p.length * Real.logb 2 (2 ^ 14 / (2 ^ 14 - 1)) := by
  have hcb : codeBits fuel cdf c p = aFinish a1 := by simp only [codeBits, ha1]
  have hlen : (codeBits fuel cdf c p).length = pos a1 + 2 := by
    rw [hcb]; simp [aFinish, emit, pos]; omega
  have h := codeBits_length hf hcod
  rw [hlen] at h
  obtain ⟨hp, hl⟩ := freqProd_log p c hcod
  have hR : (freqProd cdf p c : ℝ) * (16383 : ℝ) ^ p.length * 2 ^ (pos a1 + 2) ≤ 4 * (2 ^ 30) ^ p.length := by
    have : ((freqProd cdf p c * 16383 ^ p.length * 2 ^ (pos a1 + 2) : ℕ) : ℝ) ≤ ((4 * 1073741824 ^ p.length : ℕ) : ℝ) := by
      exact_mod_cast h
    push_cast at this
    rw [show (2 : ℝ) ^ 30 = 1073741824 by norm_num]
    exact this
  have hp' : (0 : ℝ) < (freqProd cdf p c : ℝ) := by exact_mod_cast hp
  have hlog := Real.logb_le_logb_of_le (b := 2) (by norm_num) (by positivity) hR
  rw [Real.logb_mul (by positivity) (by positivity), Real.logb_mul (by positivity) (by positivity),
    Real.logb_mul (by positivity) (by positivity), hl, Real.logb_pow, Real.logb_pow, Real.logb_pow,
    Real.logb_pow] at hlog
  have h4 : Real.logb 2 4 = 2 := by
    rw [show (4 : ℝ) = 2 ^ 2 by norm_num, Real.logb_pow]; simp
  have h22 : Real.logb 2 2 = 1 := by simp
  have hd : Real.logb 2 ((2 : ℝ) ^ 14 / (2 ^ 14 - 1)) = 14 - Real.logb 2 16383 := by
    rw [show ((2 : ℝ) ^ 14 - 1) = 16383 by norm_num, Real.logb_div (by positivity) (by norm_num),
      Real.logb_pow, h22]
    norm_num
  rw [h4, h22] at hlog
  rw [hd]
  push_cast at hlog ⊢
  linarith

/-- The decoder's first bits are those of the bytes that are kept. -/
theorem stream_begin {data z : List ℕ} {k t : ℕ} (hk : k ≤ data.length) (ht : t + 1 < 8 * k) :
    stream (data.take k ++ z) t = stream data t := by
  have e : ∀ l : List ℕ, k ≤ l.length → gather l (t / 8) = l.getD (t / 8) 0 := by
    intro l hl
    unfold gather
    rw [show min (t / 8) (l.length - 1) = t / 8 by omega]
  have hl : k ≤ (data.take k ++ z).length := by
    rw [List.length_append, List.length_take]
    omega
  have hg : (data.take k ++ z).getD (t / 8) 0 = data.getD (t / 8) 0 := by
    rw [getD_append_lt _ _ _ _ (by rw [List.length_take]; omega)]
    simp [List.getD, show t / 8 < k by omega]
  unfold stream
  rw [e _ hl, e _ hk, hg]
  simp only [decide_eq_true (show (t + 1) / 8 < (data.take k ++ z).length by omega),
    decide_eq_true (show (t + 1) / 8 < data.length by omega)]

/-- **C150, beginnings.** The code of a message is cut off, or continued in any other way, after its first `k` bytes. The symbols at
the beginning whose information content (with 0.0001 bits per symbol) is less than `8 k - 33` bits are still decoded: asked for them
the decoder returns them, and asked for more it returns them first. -/
theorem C150_beginning (hag : Agree cdf icdf R) {T : τ → Prop} (hT : Total icdf T) {c : σ} {t : τ} (hR : R c t) (ht : T t)
    {p r : List ℕ} (hb : Bytes p) (hcod : Codable cdf (p ++ r) c) {fuel cap : ℕ} (hf : 32 ≤ fuel)
    (hcap : 3 * (p ++ r).length + 1 ≤ cap) {data : List ℕ} (hx : encode fuel cdf c cap (p ++ r) = .ok data) {k : ℕ}
    (hk : k ≤ data.length)
    (hinfo : infoBits cdf p c + p.length * Real.logb 2 (2 ^ 14 / (2 ^ 14 - 1)) + 33 ≤ 8 * k) (z : List ℕ) :
    decode fuel icdf [⟨data.take k ++ z, p.length, t⟩] = .ok [p] ∧
      ∀ n, ∃ m, decode fuel icdf [⟨data.take k ++ z, p.length + n, t⟩] = .ok [p ++ m] ∧ m.length = n := by
  have hst := encode_stores hcod hf hcap hx
  obtain ⟨a1, -, ha1, hw, hi, -⟩ := begin_inIv hf hcod hst.stream
  have hcp := ((codable_append p r c).1 hcod).1
  have hpos : pos a1 + 33 ≤ 8 * k := by
    have h1 := infoBits_pos hf hcp ha1
    have h2 : ((pos a1 + 33 : ℕ) : ℝ) ≤ ((8 * k : ℕ) : ℝ) := by
      push_cast
      linarith
    exact_mod_cast h2
  have hne : data.take k ++ z ≠ [] := by
    intro h
    have := congrArg List.length h
    rw [List.length_append, List.length_take, List.length_nil] at this
    omega
  have hi' : InIv (stream (data.take k ++ z)) a1 := by
    have : P (stream (data.take k ++ z)) (pos a1 + 32) = P (stream data) (pos a1 + 32) :=
      P_congr _ fun u hu => stream_begin hk (by omega)
    unfold InIv at hi ⊢
    rw [this]
    exact hi
  have hdec := decodeLoop_eq hf hag p aInit c t _ a1 _ init_wide hcp hR ha1 hi' (load_rel _)
  rw [map_mod_eq hb] at hdec
  refine ⟨decode_single hne hdec, fun n => ?_⟩
  obtain ⟨m, hm, hl⟩ := decodeLoop_ok hf hT (arr := data.take k ++ z) (p.length + n) _ t (load_ok _) ht
  have := decodeLoop_prefix _ _ _ _ _ hm
  rw [hdec, Except.ok.injEq] at this
  refine ⟨m.drop p.length, ?_, by rw [List.length_drop, hl]; omega⟩
  rw [decode_single hne hm, this]
  congr 2
  conv_lhs => rw [← List.take_append_drop p.length m]
  rw [← this]

end

/-! ### Non-trivial cases -/

/-- Two messages that differ in the middle, and their codes. -/
example : Before [1, 0, 2, 2, 1] [1, 0, 2, 2, 2] ∧
    encode 32 (tableCdf [0, 200, 320, 65536]) () 16 [1, 0, 2, 2, 1] = .ok [0, 200, 1, 64] ∧
    (∃ y, encode 32 (tableCdf [0, 200, 320, 65536]) () 16 [1, 0, 2, 2, 2] = .ok y ∧ Before [0, 200, 1, 64] y) := by
  refine ⟨⟨[1, 0, 2, 2], 1, 2, [], [], rfl, rfl, by norm_num⟩, by decide +kernel, [0, 200, 32], by decide +kernel, ?_⟩
  exact ⟨[0, 200], 1, 32, [64], [], rfl, rfl, by norm_num⟩

/-- The first symbol of a message of nine symbols survives whatever happens after the sixth byte of the code. -/
example (z : List ℕ) : decode 32 (tableInv [0, 200, 320, 65536]) [⟨[0, 200, 0, 73, 171, 152] ++ z, 1, ()⟩] = .ok [[1]] := by
  have hx : encode 32 (tableCdf [0, 200, 320, 65536]) () 40 ([1] ++ [0, 1, 2, 2, 0, 0, 1, 1]) =
      .ok [0, 200, 0, 73, 171, 152, 106, 138] := by decide +kernel
  refine (C150_beginning (table_agree exTable_valid) (table_total exTable_valid) trivial trivial (p := [1])
    (by intro s hs; simp at hs; omega) (table_codable exTable_valid _ (by decide)) (by norm_num) (by decide) hx (k := 6)
    (by decide) ?_ z).1
  have e : infoBits (tableCdf [0, 200, 320, 65536]) [1] () = Real.logb 2 (2 ^ 16 / 120) := by
    simp [infoBits, tableCdf]
    norm_num
  have h1 : Real.logb 2 (2 ^ 16 / 120) ≤ 10 := by
    rw [Real.logb_le_iff_le_rpow (by norm_num) (by norm_num)]
    norm_num
  have h2 : Real.logb 2 (2 ^ 14 / (2 ^ 14 - 1)) ≤ 1 := by
    rw [Real.logb_le_iff_le_rpow (by norm_num) (by norm_num)]
    norm_num
  rw [e]
  norm_num at h1 h2 ⊢
  linarith

end Verif.AC
