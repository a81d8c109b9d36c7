import Verif.Rans.Inverse

/-
The concrete coder state (array with a limit) refines the abstract one.
-/
namespace Verif.Rans

/-! ### Sorting -/

/-- Values of the lanes with key `b`. -/
def sel (b : Bool) : List Bool → List Nat → List Nat
  | i :: is, v :: vs => if i = b then v :: sel b is vs else sel b is vs
  | _, _ => []

/-- Redistribution of the two groups to the lanes. -/
def spread : List Bool → List Nat → List Nat → List Nat
  | true :: is, fs, t :: ts => t :: spread is fs ts
  | false :: is, f :: fs, ts => f :: spread is fs ts
  | _, _, _ => []

theorem insertKV_lt {a : Nat × Nat} : ∀ {l : List (Nat × Nat)}, (∀ b ∈ l, a.1 ≤ b.1) →
    insertKV a l = a :: l := by
  intro l h
  cases l with
  | nil => rfl
  | cons b l => simp only [insertKV]; rw [if_pos (h b (by simp))]

theorem insertKV_append {a : Nat × Nat} : ∀ {l l' : List (Nat × Nat)}, (∀ b ∈ l, b.1 < a.1) →
    insertKV a (l ++ l') = l ++ insertKV a l' := by
  intro l
  induction l with
  | nil => intro l' _; rfl
  | cons b l ih =>
    intro l' h
    have hb := h b (by simp)
    simp only [List.cons_append, insertKV]
    rw [if_neg (by omega), ih (fun x hx => h x (by simp [hx]))]

theorem sel_length : ∀ (idx : List Bool) (vs : List Nat), idx.length = vs.length →
    (sel true idx vs).length = countTrue idx ∧
    (sel false idx vs).length = vs.length - countTrue idx ∧ countTrue idx ≤ vs.length := by
  intro idx
  induction idx with
  | nil => intro vs h; cases vs <;> simp_all [sel, countTrue]
  | cons b is ih =>
    intro vs hl
    cases vs with
    | nil => simp at hl
    | cons v vs =>
      obtain ⟨h1, h2, h3⟩ := ih vs (by simpa using hl)
      cases b <;> simp [sel, countTrue_cons, h1, h2] <;> omega

theorem sortKeyVal_bool : ∀ (idx : List Bool) (vs : List Nat), idx.length = vs.length →
    sortKV ((idx.map keyOf).zip vs) =
      (sel false idx vs).map (fun v => (0, v)) ++ (sel true idx vs).map (fun v => (1, v)) := by
  intro idx
  induction idx with
  | nil => intro vs _; simp [sel, sortKV]
  | cons b is ih =>
    intro vs hl
    cases vs with
    | nil => simp at hl
    | cons v vs =>
      have := ih vs (by simpa using hl)
      simp only [List.map_cons, List.zip_cons_cons, sortKV, this]
      cases b
      · simp only [sel, keyOf, Bool.false_eq_true, if_false, if_true]
        rw [insertKV_lt (by simp)]; simp
      · simp only [sel, keyOf, if_true]
        rw [insertKV_append (by simp), insertKV_lt (by simp)]; simp

/-- The stable sort by `push_indices`: unselected lanes first. -/
theorem sort_bool {idx : List Bool} {vs : List Nat} (h : idx.length = vs.length) :
    sortKeyVal (idx.map keyOf) vs = sel false idx vs ++ sel true idx vs := by
  simp only [sortKeyVal, sortKeyVal_bool idx vs h, List.map_append, List.map_map]
  congr 1 <;> (conv_rhs => rw [← List.map_id (sel _ idx vs)]) <;> rfl

/-- An element smaller than all others comes first. -/
theorem sortKV_middle {a : Nat × Nat} {B : List (Nat × Nat)} (hB : ∀ b ∈ B, a.1 < b.1) :
    ∀ (A : List (Nat × Nat)), (∀ b ∈ A, a.1 < b.1) →
    sortKV (A ++ a :: B) = a :: sortKV (A ++ B) := by
  have mem_insert : ∀ (x b : Nat × Nat) (l : List (Nat × Nat)), b ∈ insertKV x l → b = x ∨ b ∈ l := by
    intro x b l
    induction l with
    | nil => simp [insertKV]
    | cons y l ih =>
      intro h
      simp only [insertKV] at h
      split at h
      · simpa using h
      · rcases List.mem_cons.mp h with h | h
        · simp [h]
        · rcases ih h with h | h <;> simp [h]
  have mem_sort : ∀ (b : Nat × Nat) (l : List (Nat × Nat)), b ∈ sortKV l → b ∈ l := by
    intro b l
    induction l with
    | nil => simp [sortKV]
    | cons y l ih =>
      intro h
      rcases mem_insert _ _ _ h with h | h
      · simp [h]
      · simp [ih h]
  intro A
  induction A with
  | nil =>
    intro _
    simp only [List.nil_append, sortKV]
    exact insertKV_lt (fun b hb => Nat.le_of_lt (hB b (mem_sort b B hb)))
  | cons x A ih =>
    intro hA
    have hx := hA x (by simp)
    simp only [List.cons_append, sortKV, ih (fun b hb => hA b (by simp [hb])), insertKV]
    rw [if_neg (by omega)]

theorem sel_mem (b : Bool) : ∀ (idx : List Bool) (vs : List Nat), ∀ x ∈ sel b idx vs, x ∈ vs := by
  intro idx
  induction idx with
  | nil => intro vs x hx; simp [sel] at hx
  | cons i is ih =>
    intro vs x hx
    cases vs with
    | nil => simp [sel] at hx
    | cons v vs =>
      simp only [sel] at hx
      split at hx
      · rcases List.mem_cons.mp hx with h | h
        · simp [h]
        · simp [ih vs x h]
      · simp [ih vs x hx]

theorem zip_mem_fst {A B : List Nat} {x : Nat × Nat} (h : x ∈ A.zip B) : x.1 ∈ A := by
  obtain ⟨a, b⟩ := x
  exact (List.of_mem_zip h).1

theorem sort_spread : ∀ (idx : List Bool) (k : Nat) (fs ts : List Nat),
    fs.length = idx.length - countTrue idx → ts.length = countTrue idx →
    sortKV ((sel false idx (List.range' k idx.length) ++ sel true idx (List.range' k idx.length)).zip
      (fs ++ ts)) = (List.range' k idx.length).zip (spread idx fs ts) := by
  intro idx
  induction idx with
  | nil => intro k fs ts _ _; simp [sel, sortKV]
  | cons b is ih =>
    intro k fs ts hf ht
    have hle : countTrue is ≤ is.length := List.countP_le_length
    have hselF := (sel_length is (List.range' (k + 1) is.length) (by simp)).2.1
    have hkey : ∀ (b : Bool), ∀ x ∈ sel b is (List.range' (k + 1) is.length), k < x := by
      intro b x hx
      have := sel_mem b _ _ x hx
      simp only [List.mem_range'_1] at this
      omega
    simp only [List.length_cons, List.range'_succ]
    cases b
    · simp only [countTrue_cons, Bool.false_eq_true, if_false, Nat.zero_add, List.length_cons] at hf ht
      cases fs with
      | nil => simp at hf; omega
      | cons f fs =>
        simp only [sel, if_true, if_false, Bool.false_eq_true, spread, List.cons_append,
          List.zip_cons_cons, sortKV]
        simp only [List.length_cons] at hf
        rw [ih (k + 1) fs ts (by omega) ht]
        apply insertKV_lt
        intro x hx
        have := zip_mem_fst hx
        simp only [List.mem_range'_1] at this
        simp only
        omega
    · simp only [countTrue_cons, if_true, List.length_cons] at hf ht
      cases ts with
      | nil => simp at ht; omega
      | cons t ts =>
        simp only [sel, if_true, if_false, Bool.true_eq_false, spread, List.zip_cons_cons]
        simp only [List.length_cons] at ht
        have hlenF : (sel false is (List.range' (k + 1) is.length)).length = fs.length := by
          rw [hselF]; simp; omega
        rw [List.zip_append hlenF, List.zip_cons_cons, sortKV_middle]
        · rw [← List.zip_append hlenF, ih (k + 1) fs ts (by omega) (by omega)]
        · intro x hx; exact hkey true _ (zip_mem_fst hx)
        · intro x hx; exact hkey false _ (zip_mem_fst hx)

theorem spread_length : ∀ (idx : List Bool) (fs ts : List Nat),
    fs.length = idx.length - countTrue idx → ts.length = countTrue idx →
    (spread idx fs ts).length = idx.length := by
  intro idx
  induction idx with
  | nil => intro fs ts _ _; simp [spread]
  | cons b is ih =>
    intro fs ts hf ht
    have hle : countTrue is ≤ is.length := List.countP_le_length
    cases b
    · simp only [countTrue_cons, Bool.false_eq_true, if_false, Nat.zero_add, List.length_cons] at hf ht
      cases fs with
      | nil => simp at hf; omega
      | cons f fs =>
        simp only [List.length_cons] at hf
        simp [spread, ih fs ts (by omega) ht]
    · simp only [countTrue_cons, if_true, List.length_cons] at hf ht
      cases ts with
      | nil => simp at ht; omega
      | cons t ts =>
        simp only [List.length_cons] at ht
        simp [spread, ih fs ts (by omega) (by omega)]

/-- `tail_pop`'s un-sorting hands the read bytes to the lanes in lane order. -/
theorem unsort_spec {idx : List Bool} {fs ts : List Nat}
    (hf : fs.length = idx.length - countTrue idx) (ht : ts.length = countTrue idx) :
    sortKeyVal (sortKeyVal (idx.map keyOf) (List.range idx.length)) (fs ++ ts) =
      spread idx fs ts := by
  rw [sort_bool (by simp), List.range_eq_range', sortKeyVal, sort_spread idx 0 fs ts hf ht,
    List.map_snd_zip]
  rw [spread_length idx fs ts hf ht]; simp

theorem readL_spread : ∀ (idx : List Bool) (hs fs ts : List Nat), idx.length = hs.length →
    fs.length = idx.length - countTrue idx → ts.length = countTrue idx →
    (∀ t ∈ ts, t < 256) → (∀ (h i : Nat), hs[i]? = some h → idx[i]? = some true → h < 2 ^ 24) →
    zip3With (fun b h x => if b = 1 then u32 (h * 2 ^ 8) ||| x else h) (idx.map keyOf) hs
      (spread idx fs ts) = readL idx hs ts := by
  intro idx
  induction idx with
  | nil => intro hs fs ts hl _ _ _ _; cases hs <;> simp_all [zip3With, readL]
  | cons b is ih =>
    intro hs fs ts hl hf ht hb hlow
    have hle : countTrue is ≤ is.length := List.countP_le_length
    cases hs with
    | nil => simp at hl
    | cons h hs =>
      have hlow' : ∀ (h i : Nat), hs[i]? = some h → is[i]? = some true → h < 2 ^ 24 := by
        intro h' i h1 h2; exact hlow h' (i + 1) (by simpa using h1) (by simpa using h2)
      cases b
      · simp only [countTrue_cons, Bool.false_eq_true, if_false, Nat.zero_add, List.length_cons] at hf ht
        cases fs with
        | nil => simp at hf; omega
        | cons f fs =>
          simp only [List.length_cons] at hf hl
          simp only [spread, readL, List.map_cons, zip3With]
          rw [ih hs fs ts (by omega) (by omega) ht hb hlow']
          simp [keyOf]
      · simp only [countTrue_cons, if_true, List.length_cons] at hf ht
        cases ts with
        | nil => simp at ht; omega
        | cons t ts =>
          simp only [List.length_cons] at ht hl
          simp only [spread, readL, List.map_cons, zip3With]
          rw [ih hs fs ts (by omega) (by omega) (by omega) (fun x hx => hb x (by simp [hx])) hlow']
          have hh := hlow h 0 rfl rfl
          have ht' := hb t (by simp)
          have e : u32 (h * 2 ^ 8) = h <<< 8 := by
            rw [Nat.shiftLeft_eq, u32, Nat.mod_eq_of_lt]
            norm_num at hh ⊢; omega
          simp only [keyOf, if_true, e]
          rw [← Nat.shiftLeft_add_eq_or_of_lt (by norm_num; exact ht'), Nat.shiftLeft_eq]

/-! ### The refinement relation -/

/-- The array `m` represents the abstract state `s`: the live bytes are those from
the limit on. -/
structure Abs (cap : Nat) (m : Msg) (s : St) : Prop where
  head : m.head = s.heads
  len : m.data.length = cap
  room : s.stack.length ≤ cap
  limit : m.limit = (cap : Int) - s.stack.length
  live : m.data.drop (cap - s.stack.length) = s.stack
  bytes : ∀ x ∈ m.data, x < 256

theorem Abs.stack_bytes {cap : Nat} {m : Msg} {s : St} (h : Abs cap m s) :
    ∀ x ∈ s.stack, x < 256 := by
  intro x hx
  rw [← h.live] at hx
  exact h.bytes x (List.mem_of_mem_drop hx)

theorem outs_sel : ∀ (idx : List Bool) (hs : List Nat),
    outs idx hs = sel true idx (hs.map u8) := by
  intro idx
  induction idx with
  | nil => intro hs; simp [outs, sel]
  | cons b is ih =>
    intro hs
    cases hs with
    | nil => cases b <;> simp [outs, sel]
    | cons h hs => cases b <;> simp [outs, sel, ih hs, u8]

theorem shr8_zipWith : ∀ (idx : List Bool) (hs : List Nat),
    List.zipWith (fun b h => if b then h / 2 ^ 8 else h) idx hs = shr8 idx hs := by
  intro idx
  induction idx with
  | nil => intro hs; cases hs <;> simp [shr8]
  | cons b is ih =>
    intro hs
    cases hs with
    | nil => cases b <;> simp [shr8]
    | cons h hs =>
      have := ih hs
      cases b <;> simp_all [shr8]

theorem dynStart_in {idx : Int} {len size : Nat} (h0 : 0 ≤ idx) (h1 : idx + size ≤ len) :
    dynStart idx len size = idx.toNat := by
  simp only [dynStart]
  rw [if_neg (by omega)]
  congr 1
  omega

/-- One write step refines. -/
theorem pushStep_ref {cap sh : Nat} {fs : List Nat} {m : Msg} {s s' : St} (h : Abs cap m s)
    (hl : s.heads.length = fs.length) (hs : aPushStep cap sh fs s = some s') :
    Abs cap (pushStep sh fs m) s' := by
  simp only [aPushStep] at hs
  split at hs
  swap
  · cases hs
  rename_i hroom
  obtain rfl := Option.some.inj hs
  obtain ⟨h1, h2, h3, h4, h5, h6⟩ := h
  have hcl := condIdx_length (sh := sh) hl
  simp only [pushStep, h1, ← condIdx.eq_def]
  set idx := condIdx sh s.heads fs with hidx
  have hlen : (s.heads.map u8).length = s.heads.length := by simp
  have hol := outs_length idx s.heads hcl
  have hst : dynStart (m.limit - (s.heads.map u8).length) m.data.length (s.heads.map u8).length
      = cap - s.stack.length - s.heads.length := by
    rw [hlen, h2, h4, dynStart_in (by omega) (by omega)]; omega
  have hsort : sortKeyVal (idx.map keyOf) (s.heads.map u8)
      = sel false idx (s.heads.map u8) ++ outs idx s.heads := by
    rw [sort_bool (by simp [hcl]), outs_sel]
  obtain ⟨k1, k2, k3⟩ := sel_length idx (s.heads.map u8) (by simp [hcl])
  rw [hlen] at k2 k3
  simp only [tailPush, hst, hsort]
  have hdl : m.data.drop (cap - s.stack.length - s.heads.length + (s.heads.map u8).length) = s.stack := by
    rw [hlen, show cap - s.stack.length - s.heads.length + s.heads.length
      = cap - s.stack.length by omega, h5]
  have htl : (m.data.take (cap - s.stack.length - s.heads.length)).length
      = cap - s.stack.length - s.heads.length := by rw [List.length_take]; omega
  refine ⟨?_, ?_, ?_, ?_, ?_, ?_⟩
  · simp only [shr8_zipWith]
  · simp only [hdl, List.length_append, htl, k2, hol]; omega
  · simp only [List.length_append, hol]; omega
  · simp only [List.length_append, hol, h4]; push_cast; omega
  · simp only [hdl, List.length_append, hol]
    rw [show m.data.take (cap - s.stack.length - s.heads.length) ++
        (sel false idx (s.heads.map u8) ++ outs idx s.heads) ++ s.stack =
        (m.data.take (cap - s.stack.length - s.heads.length) ++ sel false idx (s.heads.map u8)) ++
        (outs idx s.heads ++ s.stack) by simp]
    rw [List.drop_left']
    rw [List.length_append, htl, k2]; omega
  · intro x hx
    simp only [hdl, List.mem_append] at hx
    rcases hx with (hx | hx | hx) | hx
    · exact h6 x (List.mem_of_mem_take hx)
    · have := sel_mem _ _ _ x hx
      simp only [List.mem_map] at this
      obtain ⟨y, _, rfl⟩ := this
      simp only [u8]; omega
    · exact outs_bytes _ _ x hx
    · rw [← h5] at hx; exact h6 x (List.mem_of_mem_drop hx)

/-- One read step refines, with or without `allow_empty_pops`. -/
theorem popStep_ref {cap : Nat} {m : Msg} {s s' : St} (ae : Bool) (h : Abs cap m s)
    (hs : aPopStep cap s = some s') : Abs cap (popStep ae m) s' := by
  simp only [aPopStep] at hs
  split at hs
  swap
  · cases hs
  rename_i hroom
  obtain rfl := Option.some.inj hs
  have hsb := h.stack_bytes
  obtain ⟨h1, h2, h3, h4, h5, h6⟩ := h
  obtain ⟨r1, r2⟩ := hroom
  simp only [popStep, h1, ← lowIdx.eq_def]
  set idx := lowIdx s.heads with hidx
  have hil : idx.length = s.heads.length := by simp [hidx, lowIdx]
  have hct : countTrue idx ≤ idx.length := List.countP_le_length
  set t := countTrue idx with ht
  have hlim : (if ae then max 0 (min (m.limit + t) m.data.length) else m.limit + t)
      = (cap : Int) - (s.stack.length - t) := by
    rw [h4, h2]; split <;> omega
  have hst : dynStart ((cap : Int) - (s.stack.length - t) - idx.length) m.data.length idx.length
      = cap - (s.stack.length - t) - idx.length := by
    rw [h2, dynStart_in (by omega) (by omega)]; omega
  have hslice : (m.data.drop (cap - (s.stack.length - t) - idx.length)).take idx.length
      = ((m.data.drop (cap - (s.stack.length - t) - idx.length)).take (idx.length - t)) ++
        s.stack.take t := by
    have e : m.data.drop (cap - (s.stack.length - t) - idx.length) =
        (m.data.drop (cap - (s.stack.length - t) - idx.length)).take (idx.length - t) ++ s.stack := by
      conv_lhs => rw [← List.take_append_drop (idx.length - t)
        (m.data.drop (cap - (s.stack.length - t) - idx.length))]
      rw [List.drop_drop, show cap - (s.stack.length - t) - idx.length + (idx.length - t)
        = cap - s.stack.length by omega, h5]
    conv_lhs => rw [e]
    rw [List.take_append]
    have hl : ((m.data.drop (cap - (s.stack.length - t) - idx.length)).take (idx.length - t)).length
        = idx.length - t := by rw [List.length_take, List.length_drop]; omega
    rw [hl, List.take_of_length_le (by omega), show idx.length - (idx.length - t) = t by omega]
  have hfl : ((m.data.drop (cap - (s.stack.length - t) - idx.length)).take (idx.length - t)).length
        = idx.length - countTrue idx := by rw [List.length_take, List.length_drop]; omega
  have htl : (s.stack.take t).length = countTrue idx := by rw [List.length_take]; omega
  simp only [tailPop]
  rw [← ht, hlim, hst, hslice, unsort_spec hfl htl]
  refine ⟨?_, h2, ?_, ?_, ?_, h6⟩
  · simp only
    apply readL_spread _ _ _ _ hil hfl htl
    · intro x hx; exact hsb x (List.mem_of_mem_take hx)
    · intro y i hy hi
      simp only [hidx, lowIdx, List.getElem?_map, hy, Option.map_some, Option.some.injEq,
        decide_eq_true_eq] at hi
      exact hi
  · simp only [List.length_drop]; omega
  · simp only [List.length_drop]; omega
  · simp only [List.length_drop]
    rw [← h5, List.drop_drop]
    congr 1
    have : (s.stack).length = (m.data.drop (cap - s.stack.length)).length := by rw [h5]
    rw [h5]
    omega

/-- `cdf_high - cdf_low` without wrap-around. -/
theorem freqsOf_eq {p : Nat} (hp : p ≤ 24) : ∀ (S : List Slot), (∀ s ∈ S, SlotOk p s) →
    freqsOf (S.map Prod.fst) (S.map fun s => s.1 + s.2) = S.map Prod.snd := by
  intro S
  induction S with
  | nil => intro _; rfl
  | cons s S ih =>
    intro h
    have hs := h s (by simp)
    have : 2 ^ p ≤ 2 ^ 24 := Nat.pow_le_pow_right (by norm_num) hp
    have hf := hs.fits
    have hS := ih (fun x hx => h x (by simp [hx]))
    simp only [freqsOf, List.map_cons, List.zipWith_cons_cons] at hS ⊢
    rw [hS]
    congr 1
    rw [u32, show s.1 + s.2 + 2 ^ 32 - s.1 = s.2 + 2 ^ 32 by omega, Nat.add_mod_right,
      Nat.mod_eq_of_lt]
    norm_num at this ⊢; omega

theorem LanesOk.slots {p : Nat} {H : List Nat} {S : List Slot} (h : LanesOk p H S) :
    ∀ s ∈ S, SlotOk p s := by
  induction h with
  | nil => simp
  | cons hd _ ih =>
    intro s hs
    rcases List.mem_cons.mp hs with rfl | hs
    · exact hd.2
    · exact ih s hs

theorem pushHead_eq {p : Nat} (hp : p ≤ 24) {H : List Nat} {S : List Slot}
    (h : List.Forall₂ (MidOk p) H S) :
    zip3With (pushHead p) H (S.map Prod.snd) (S.map Prod.fst) = aPushHeads p H S := by
  induction h with
  | nil => rfl
  | cons hd _ ih =>
    have hr := (push_head_range hp hd).2
    simp only [List.map_cons, zip3With, ih, aPushHeads, List.zipWith_cons_cons]
    congr 1
    rw [pushHead, u32, u32, Nat.mod_eq_of_lt (a := _ / _ * _) (by omega), Nat.mod_eq_of_lt hr]

/-- **Push refines.** -/
theorem pushSymbols_ref {cap p : Nat} (hp : p ≤ 24) {S : List Slot} {m : Msg} {s s' : St}
    (h : Abs cap m s) (hl : LanesOk p s.heads S) (hs : aPush cap p S s = some s') :
    Abs cap (pushSymbols m (S.map Prod.fst) (S.map fun s => s.1 + s.2) p) s' := by
  simp only [pushSymbols, freqsOf_eq hp S hl.slots]
  simp only [aPush] at hs
  obtain ⟨l0, l1, l2, l3, c1, c2, c3, hm⟩ := push_lanes hp hl
  rcases h1 : aPushStep cap (48 - p) (S.map Prod.snd) s with _ | s1
  · simp [h1] at hs
  rcases h2 : aPushStep cap (40 - p) (S.map Prod.snd) s1 with _ | s2
  · simp [h1, h2] at hs
  rcases h3 : aPushStep cap (32 - p) (S.map Prod.snd) s2 with _ | s3
  · simp [h1, h2, h3] at hs
  simp only [h1, h2, h3, Option.bind_some, Option.map_some, Option.some.injEq] at hs
  have g1 : s1.heads = shr8 (condIdx (48 - p) s.heads (S.map Prod.snd)) s.heads := by
    simp only [aPushStep] at h1; split at h1
    · exact (Option.some.inj h1) ▸ rfl
    · cases h1
  have g2 : s2.heads = shr8 (condIdx (40 - p) s1.heads (S.map Prod.snd)) s1.heads := by
    simp only [aPushStep] at h2; split at h2
    · exact (Option.some.inj h2) ▸ rfl
    · cases h2
  have g3 : s3.heads = shr8 (condIdx (32 - p) s2.heads (S.map Prod.snd)) s2.heads := by
    simp only [aPushStep] at h3; split at h3
    · exact (Option.some.inj h3) ▸ rfl
    · cases h3
  rw [← g1] at l1 l2 hm
  rw [← g2] at l2 hm
  rw [← g3] at hm
  have r1 := pushStep_ref h l0 h1
  have r2 := pushStep_ref r1 l1 h2
  have r3 := pushStep_ref r2 l2 h3
  rw [show 2 * 8 + 32 - p = 48 - p by omega, show 1 * 8 + 32 - p = 40 - p by omega]
  subst hs
  refine ⟨?_, r3.len, r3.room, r3.limit, r3.live, r3.bytes⟩
  simp only [r3.head]
  exact pushHead_eq hp hm

theorem popHead_eq {p : Nat} (hp : p ≤ 24) {H : List Nat} {S : List Slot} (h : InSlots p H S) :
    List.zipWith (fun hf cl => popHead p hf.1 hf.2 cl.1 cl.2) (H.zip (S.map Prod.snd))
      ((H.map fun h => h &&& (2 ^ p - 1)).zip (S.map Prod.fst)) = aPopHeads p H S := by
  induction h with
  | nil => rfl
  | @cons x s _ _ hd _ ih =>
    obtain ⟨a1, a2, a3, a4⟩ := hd
    have hm := mid_of_head hp a2 a1 a3 a4
    have hg := (g_bounds hp a2).2
    have h1 := hm.2.1
    simp only [List.map_cons, List.zip_cons_cons, List.zipWith_cons_cons, ih, aPopHeads]
    congr 1
    rw [popHead, Nat.and_two_pow_sub_one_eq_mod, u32]
    have : s.2 * (x / 2 ^ p) + x % 2 ^ p + 2 ^ 32 - s.1 =
        s.2 * (x / 2 ^ p) + (x % 2 ^ p - s.1) + 2 ^ 32 := by omega
    rw [this, Nat.add_mod_right, Nat.mod_eq_of_lt]
    norm_num; omega

/-- **Pop refines.** -/
theorem popSymbols_ref {cap p : Nat} (hp : p ≤ 24) (ae : Bool) {S : List Slot} {m : Msg} {s s' : St}
    (h : Abs cap m s) (hl : InSlots p s.heads S) (hs : aPop cap p S s = some s') :
    Abs cap (popSymbols m (peek m p) (S.map Prod.fst) (S.map fun s => s.1 + s.2) p ae) s' := by
  simp only [popSymbols, freqsOf_eq hp S hl.lanesOk.slots, peek, h.head]
  rw [popHead_eq hp hl]
  simp only [aPop] at hs
  rcases h1 : aPopStep cap ⟨aPopHeads p s.heads S, s.stack⟩ with _ | s1
  · simp [h1] at hs
  rcases h2 : aPopStep cap s1 with _ | s2
  · simp [h1, h2] at hs
  simp only [h1, h2, Option.bind_some] at hs
  have h0 : Abs cap { m with head := aPopHeads p s.heads S } ⟨aPopHeads p s.heads S, s.stack⟩ :=
    ⟨rfl, h.len, h.room, h.limit, h.live, h.bytes⟩
  exact popStep_ref ae (popStep_ref ae (popStep_ref ae h0 h1) h2) hs

end Verif.Rans
