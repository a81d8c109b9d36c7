import Verif.Rans.Room

/-
Heads stay in range and no 32-bit operation wraps, whatever the stack does.
-/
namespace Verif.Rans

theorem insertKV_mem {a x : Nat × Nat} : ∀ {l : List (Nat × Nat)}, x ∈ insertKV a l → x = a ∨ x ∈ l := by
  intro l
  induction l with
  | nil => intro h; simpa [insertKV] using h
  | cons b l ih =>
    intro h
    simp only [insertKV] at h
    split at h
    · simpa using h
    · rcases List.mem_cons.mp h with rfl | h
      · simp
      · rcases ih h with rfl | h <;> simp [*]

theorem sortKV_mem {x : Nat × Nat} : ∀ {l : List (Nat × Nat)}, x ∈ sortKV l → x ∈ l := by
  intro l
  induction l with
  | nil => intro h; simpa [sortKV] using h
  | cons a l ih =>
    intro h
    rcases insertKV_mem h with rfl | h
    · simp
    · simp [ih h]

theorem insertKV_length (a : Nat × Nat) : ∀ (l : List (Nat × Nat)), (insertKV a l).length = l.length + 1 := by
  intro l
  induction l with
  | nil => rfl
  | cons b l ih =>
    simp only [insertKV]
    split <;> simp [ih]

theorem sortKV_length : ∀ (l : List (Nat × Nat)), (sortKV l).length = l.length := by
  intro l
  induction l with
  | nil => rfl
  | cons a l ih => simp [sortKV, insertKV_length, ih]

theorem sortKeyVal_mem {ks vs : List Nat} {x : Nat} (h : x ∈ sortKeyVal ks vs) : x ∈ vs := by
  simp only [sortKeyVal, List.mem_map] at h
  obtain ⟨⟨k, v⟩, h1, rfl⟩ := h
  exact (List.of_mem_zip (sortKV_mem h1)).2

theorem sortKeyVal_length (ks vs : List Nat) : (sortKeyVal ks vs).length = min ks.length vs.length := by
  simp [sortKeyVal, sortKV_length]

/-- The tail is an array of `cap ≥ L` bytes. -/
structure TailOk (L cap : Nat) (m : Msg) : Prop where
  lanes : m.head.length = L
  len : m.data.length = cap
  fits : L ≤ cap
  bytes : ∀ x ∈ m.data, x < 256

theorem dynStart_le (idx : Int) {len size : Nat} (h : size ≤ len) : dynStart idx len size + size ≤ len := by
  simp only [dynStart]; split <;> omega

theorem pushStep_tailOk {L cap sh : Nat} {fs : List Nat} {m : Msg} (hf : fs.length = L)
    (h : TailOk L cap m) : TailOk L cap (pushStep sh fs m) ∧
      (pushStep sh fs m).head = shr8 (condIdx sh m.head fs) m.head := by
  have hl := h.lanes
  have hd := dynStart_le (m.limit - (m.head.map u8).length) (len := m.data.length)
    (size := (m.head.map u8).length) (by simp [hl, h.len, h.fits])
  have hs : (sortKeyVal (List.map keyOf (List.zipWith (fun h f => decide (f ≤ h / 2 ^ sh)) m.head fs))
      (List.map u8 m.head)).length = L := by
    rw [sortKeyVal_length]; simp [hl, hf]
  have he : (pushStep sh fs m).head = shr8 (condIdx sh m.head fs) m.head := shr8_zipWith _ _
  refine ⟨⟨?_, ?_, h.fits, ?_⟩, he⟩
  · rw [he, shr8_length _ _ (condIdx_length (by rw [hl, hf])), hl]
  · simp only [pushStep, tailPush, List.length_append, hs, List.length_take, List.length_drop, h.len,
      List.length_map, hl] at hd ⊢
    omega
  · intro x hx
    simp only [pushStep, tailPush, List.mem_append] at hx
    rcases hx with (hx | hx) | hx
    · exact h.bytes x (List.mem_of_mem_take hx)
    · have := sortKeyVal_mem hx
      simp only [List.mem_map, u8] at this
      obtain ⟨y, _, rfl⟩ := this
      exact Nat.mod_lt _ (by norm_num)
    · exact h.bytes x (List.mem_of_mem_drop hx)

/-- `push_symbols` without 32-bit wrap-around in the head arithmetic. -/
def pushExact (m : Msg) (lo hi : List Nat) (p : Nat) : Msg :=
  let f := List.zipWith (fun l h => h - l) lo hi
  let m := pushStep (2 * 8 + 32 - p) f m
  let m := pushStep (1 * 8 + 32 - p) f m
  let m := pushStep (32 - p) f m
  { m with head := zip3With (fun h f l => h / f * 2 ^ p + h % f + l) m.head f lo }

theorem aPushHeads_zip3 (p : Nat) : ∀ (H : List Nat) (S : List Slot),
    zip3With (fun h f l => h / f * 2 ^ p + h % f + l) H (S.map Prod.snd) (S.map Prod.fst)
      = aPushHeads p H S := by
  intro H
  induction H with
  | nil => intro S; cases S <;> rfl
  | cons h H ih =>
    intro S
    cases S with
    | nil => rfl
    | cons s S =>
      have := ih S
      simp only [aPushHeads] at this
      simp only [List.map_cons, zip3With, aPushHeads, List.zipWith_cons_cons, this]

theorem pushSymbols_range {L cap p : Nat} (hp : p ≤ 24) {S : List Slot} {m : Msg}
    (ht : TailOk L cap m) (hl : LanesOk p m.head S) :
    let m' := pushSymbols m (S.map Prod.fst) (S.map fun s => s.1 + s.2) p
    TailOk L cap m' ∧ InSlots p m'.head S ∧
      m' = pushExact m (S.map Prod.fst) (S.map fun s => s.1 + s.2) p := by
  intro m'
  have hm' : m' = pushSymbols m (S.map Prod.fst) (S.map fun s => s.1 + s.2) p := rfl
  clear_value m'
  have hlen := hl.heads.1
  have hfl : (S.map Prod.snd).length = L := by rw [List.length_map, ← hlen, ht.lanes]
  obtain ⟨l0, l1, l2, l3, c1, c2, c3, hm⟩ := push_lanes hp hl
  obtain ⟨t1, e1⟩ := pushStep_tailOk (sh := 48 - p) hfl ht
  obtain ⟨t2, e2⟩ := pushStep_tailOk (sh := 40 - p) hfl t1
  obtain ⟨t3, e3⟩ := pushStep_tailOk (sh := 32 - p) hfl t2
  rw [e1] at e2
  rw [e2] at e3
  have hfr : List.zipWith (fun l h => h - l) (S.map Prod.fst) (S.map fun s => s.1 + s.2)
      = S.map Prod.snd := by
    clear * -
    induction S with
    | nil => rfl
    | cons s S ih => simp [ih]
  have hex : m' = pushExact m (S.map Prod.fst) (S.map fun s => s.1 + s.2) p := by
    rw [hm']
    simp only [pushSymbols, pushExact, freqsOf_eq hp S hl.slots, hfr]
    rw [show 2 * 8 + 32 - p = 48 - p by omega, show 1 * 8 + 32 - p = 40 - p by omega]
    congr 1
    rw [e3, pushHead_eq hp hm, aPushHeads_zip3]
  have hh : m'.head = aPushHeads p (pushStep (32 - p) (S.map Prod.snd)
      (pushStep (40 - p) (S.map Prod.snd) (pushStep (48 - p) (S.map Prod.snd) m))).head S := by
    rw [hm']
    simp only [pushSymbols, freqsOf_eq hp S hl.slots]
    rw [show 2 * 8 + 32 - p = 48 - p by omega, show 1 * 8 + 32 - p = 40 - p by omega]
    rw [e3, pushHead_eq hp hm]
  rw [e3] at hh
  have hin := (pushHeads_inSlots hp hm).1
  rw [← hh] at hin
  refine ⟨⟨?_, ?_, ht.fits, ?_⟩, hin, hex⟩
  · rw [hin.lanesOk.heads.1, ← hlen, ht.lanes]
  · rw [hm']
    simp only [pushSymbols, freqsOf_eq hp S hl.slots]
    rw [show 2 * 8 + 32 - p = 48 - p by omega, show 1 * 8 + 32 - p = 40 - p by omega]
    exact t3.len
  · rw [hm']
    simp only [pushSymbols, freqsOf_eq hp S hl.slots]
    rw [show 2 * 8 + 32 - p = 48 - p by omega, show 1 * 8 + 32 - p = 40 - p by omega]
    exact t3.bytes

/-- Reading one byte per low lane, whatever bytes are found. -/
theorem readBack_rel : ∀ (H B : List Nat), B.length = H.length → (∀ b ∈ B, b < 256) →
    List.Forall₂ ReadRel H (zip3With (fun b h x => if b = 1 then u32 (h * 2 ^ 8) ||| x else h)
      ((H.map fun h => decide (h < HEAD_MIN)).map keyOf) H B) ∧
    zip3With (fun b h x => if b = 1 then u32 (h * 2 ^ 8) ||| x else h)
      ((H.map fun h => decide (h < HEAD_MIN)).map keyOf) H B =
    List.zipWith (fun h x => if h < 2 ^ 24 then h * 256 + x else h) H B := by
  intro H
  induction H with
  | nil => intro B hl _; cases B <;> simp_all [zip3With]
  | cons h H ih =>
    intro B hl hb
    cases B with
    | nil => simp at hl
    | cons b B =>
      obtain ⟨i1, i2⟩ := ih B (by simpa using hl) (fun x hx => hb x (by simp [hx]))
      have hb0 := hb b (by simp)
      simp only [List.map_cons, zip3With, List.zipWith_cons_cons]
      by_cases hlt : h < 16777216
      · have hk : keyOf (decide (h < HEAD_MIN)) = 1 := by
          simp [keyOf, hlt]
        have hor : u32 (h * 2 ^ 8) ||| b = h * 256 + b := by
          have : u32 (h * 2 ^ 8) = h * 2 ^ 8 := by
            simp only [u32]; exact Nat.mod_eq_of_lt (by norm_num; omega)
          rw [this, Nat.mul_comm, Nat.two_pow_add_eq_or_of_lt (by norm_num; omega) h |>.symm]
          norm_num; omega
        rw [hk, if_pos rfl, hor]
        refine ⟨.cons (Or.inr ⟨hlt, b, hb0, rfl⟩) i1, ?_⟩
        rw [i2, if_pos (by norm_num; omega)]
      · have hk : keyOf (decide (h < HEAD_MIN)) = 0 := by
          simp only [keyOf, HEAD_MIN, decide_eq_true_eq]; norm_num; omega
        rw [hk, if_neg (by norm_num)]
        refine ⟨.cons (Or.inl ⟨by omega, rfl⟩) i1, ?_⟩
        rw [i2, if_neg (by norm_num; omega)]

/-- `popStep` without wrap-around. -/
def popStepExact (allowEmpty : Bool) (m : Msg) : Msg :=
  let idx := m.head.map (fun h => decide (h < HEAD_MIN))
  let t := tailPop m.limit m.data idx allowEmpty
  { head := List.zipWith (fun h x => if h < 2 ^ 24 then h * 256 + x else h) m.head t.2
    limit := t.1, data := m.data }

theorem popStep_tailOk {L cap : Nat} {m : Msg} (ae : Bool) (h : TailOk L cap m) :
    TailOk L cap (popStep ae m) ∧ List.Forall₂ ReadRel m.head (popStep ae m).head ∧
      popStep ae m = popStepExact ae m := by
  set B := (tailPop m.limit m.data (m.head.map (fun h => decide (h < HEAD_MIN))) ae).2 with hB
  have hBl : B.length = m.head.length ∧ ∀ b ∈ B, b < 256 := by
    rw [hB]
    simp only [tailPop]
    have hd := fun i => dynStart_le i (len := m.data.length) (size := m.head.length)
      (by rw [h.lanes, h.len]; exact h.fits)
    constructor
    · rw [sortKeyVal_length, sortKeyVal_length]
      simp only [List.length_map, List.length_range, List.length_take, List.length_drop]
      split
      · have := hd (max 0 (min (m.limit + ↑(countTrue (m.head.map (fun h => decide (h < HEAD_MIN))))) ↑m.data.length) - m.head.length)
        omega
      · have := hd (m.limit + ↑(countTrue (m.head.map (fun h => decide (h < HEAD_MIN)))) - m.head.length)
        omega
    · intro b hb
      exact h.bytes b (List.mem_of_mem_drop (List.mem_of_mem_take (sortKeyVal_mem hb)))
  obtain ⟨r1, r2⟩ := readBack_rel m.head B hBl.1 hBl.2
  refine ⟨⟨?_, h.len, h.fits, h.bytes⟩, r1, ?_⟩
  · rw [← h.lanes]; exact r1.length_eq.symm
  · simp only [popStep, popStepExact]
    rw [r2]

/-- `pop_symbols` without wrap-around. -/
def popExact (m : Msg) (cfs lo hi : List Nat) (p : Nat) (allowEmpty : Bool) : Msg :=
  let f := List.zipWith (fun l h => h - l) lo hi
  let heads := List.zipWith (fun hf cl => hf.2 * (hf.1 / 2 ^ p) + (cl.1 - cl.2))
    (m.head.zip f) (cfs.zip lo)
  let m := { m with head := heads }
  popStepExact allowEmpty (popStepExact allowEmpty (popStepExact allowEmpty m))

theorem aPopHeads_zip (p : Nat) : ∀ (H : List Nat) (S : List Slot),
    List.zipWith (fun hf cl => hf.2 * (hf.1 / 2 ^ p) + (cl.1 - cl.2)) (H.zip (S.map Prod.snd))
      ((H.map fun h => h &&& (2 ^ p - 1)).zip (S.map Prod.fst)) = aPopHeads p H S := by
  intro H
  induction H with
  | nil => intro S; cases S <;> rfl
  | cons h H ih =>
    intro S
    cases S with
    | nil => rfl
    | cons s S =>
      have := ih S
      simp only [aPopHeads] at this
      simp only [List.map_cons, List.zip_cons_cons, aPopHeads, List.zipWith_cons_cons, this]
      rw [Nat.and_two_pow_sub_one_eq_mod]

theorem popSymbols_range {L cap p : Nat} (hp : p ≤ 24) {S : List Slot} {m : Msg} (ae : Bool)
    (ht : TailOk L cap m) (hl : InSlots p m.head S) :
    let m' := popSymbols m (peek m p) (S.map Prod.fst) (S.map fun s => s.1 + s.2) p ae
    TailOk L cap m' ∧ LanesOk p m'.head S ∧
      m' = popExact m (peek m p) (S.map Prod.fst) (S.map fun s => s.1 + s.2) p ae := by
  intro m'
  have hm' : m' = popSymbols m (peek m p) (S.map Prod.fst) (S.map fun s => s.1 + s.2) p ae := rfl
  clear_value m'
  have hfr : List.zipWith (fun l h => h - l) (S.map Prod.fst) (S.map fun s => s.1 + s.2)
      = S.map Prod.snd := by
    clear * -
    induction S with
    | nil => rfl
    | cons s S ih => simp [ih]
  have hlen := hl.lanesOk.heads.1
  obtain ⟨hm, _⟩ := popHeads_mid hp hl
  have t0 : TailOk L cap { m with head := aPopHeads p m.head S } :=
    ⟨by simp [aPopHeads, hlen, ← ht.lanes], ht.len, ht.fits, ht.bytes⟩
  have hm1 : m' = popStep ae (popStep ae (popStep ae { m with head := aPopHeads p m.head S })) := by
    rw [hm']
    simp only [popSymbols, freqsOf_eq hp S hl.lanesOk.slots, peek]
    rw [popHead_eq hp hl]
  obtain ⟨t1, r1, x1⟩ := popStep_tailOk ae t0
  obtain ⟨t2, r2, x2⟩ := popStep_tailOk ae t1
  obtain ⟨t3, r3, x3⟩ := popStep_tailOk ae t2
  obtain ⟨_, _, _, hl'⟩ := pop_lanes hp hm r1 r2 r3
  rw [← hm1] at t3 hl'
  refine ⟨t3, hl', ?_⟩
  rw [hm1, x3, x2, x1]
  simp only [popExact, hfr, peek]
  rw [aPopHeads_zip]

end Verif.Rans
