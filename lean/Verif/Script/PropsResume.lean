import Verif.Script.Resume
import Mathlib.Data.Nat.Digits.Lemmas
import Mathlib.Tactic.Linarith
import Mathlib.Tactic.Ring

/-!
C89, C90: continuing an interrupted encoding.
-/

namespace Verif.Script.Resume

/-! ### Names -/

theorem padDigits_spec (w n : ℕ) : ∃ ds : List ℕ, padDigits w n = ds.map .digit ∧ Nat.ofDigits 10 ds = n ∧
    (∀ d ∈ ds, d < 10) ∧ ds.length = max w (Nat.digits 10 n).length := by
  refine ⟨_, rfl, ?_, ?_, ?_⟩
  · rw [Nat.ofDigits_append, Nat.ofDigits_digits, Nat.ofDigits_replicate_zero, Nat.mul_zero, Nat.add_zero]
  · intro d hd
    rw [List.mem_append] at hd
    rcases hd with h | h
    · exact Nat.digits_lt_base (by norm_num) h
    · rw [List.eq_of_mem_replicate h]; norm_num
  · rw [List.length_append, List.length_replicate]; omega

theorem vals_digits (ds : List ℕ) : (ds.map Glyph.digit).filterMap Glyph.val? = ds := by
  induction ds with
  | nil => rfl
  | cons d ds ih => simp [Glyph.val?, ih]

theorem last_digits (ds : List ℕ) : (ds.map Glyph.digit).getLast? ≠ some .minus := by
  intro h
  have := List.mem_of_getLast? h
  simp at this

theorem parse_digits (ds : List ℕ) : parseInt (ds.map .digit) = (Nat.ofDigits 10 ds : ℕ) := by
  unfold parseInt
  rw [if_neg (last_digits ds), vals_digits]

/-- The number that is read back from a file name: numbers from -99999 to 999999 are read back, greater ones lose their
leading digits, and smaller ones lose the minus sign as well. -/
theorem resumeStep_eq (z : ℤ) : resumeStep z =
    if 0 ≤ z then z % 1000000 else if -100000 < z then z else (-z) % 1000000 := by
  unfold resumeStep fmt06
  by_cases h : 0 ≤ z
  · rw [if_pos h, if_pos h]
    obtain ⟨ds, h1, h2, h3, h4⟩ := padDigits_spec 6 z.toNat
    rw [h1, ← List.map_take, parse_digits, ← Nat.ofDigits_mod_pow_eq_ofDigits_take 6 (by norm_num) ds h3, h2]
    push_cast
    rw [Int.toNat_of_nonneg h]
  · rw [if_neg h, if_neg h]
    obtain ⟨ds, h1, h2, h3, h4⟩ := padDigits_spec 5 (-z).toNat
    have hl : (Nat.digits 10 (-z).toNat).length ≤ 5 ↔ (-z).toNat < 100000 := by
      constructor
      · intro hl
        have := Nat.lt_base_pow_length_digits (b := 10) (m := (-z).toNat) (by norm_num)
        exact this.trans_le (Nat.pow_le_pow_right (by norm_num) hl)
      · intro hl
        by_contra hc
        push Not at hc
        have := Nat.base_pow_length_digits_le 10 (-z).toNat (by norm_num) (by omega)
        have h6 : 10 ^ 6 ≤ 10 ^ (Nat.digits 10 (-z).toNat).length := Nat.pow_le_pow_right (by norm_num) hc
        omega
    by_cases h5 : -100000 < z
    · rw [if_pos h5, h1]
      have e : ds.length = 5 := by rw [h4, max_eq_left (hl.2 (by omega))]
      rw [List.take_of_length_le (by simp [e])]
      unfold parseInt
      rw [if_pos (by simp), List.filterMap_append, vals_digits]
      simp only [List.filterMap_cons, Glyph.val?, List.filterMap_nil, List.append_nil, h2]
      omega
    · rw [if_neg h5, h1]
      have e : 6 ≤ ds.length := by
        rw [h4]
        have : ¬ (Nat.digits 10 (-z).toNat).length ≤ 5 := fun h' => by have := hl.1 h'; omega
        omega
      rw [List.take_append_of_le_length (by simp [e]), ← List.map_take, parse_digits,
        ← Nat.ofDigits_mod_pow_eq_ofDigits_take 6 (by norm_num) ds h3, h2]
      push_cast
      rw [Int.toNat_of_nonneg (by omega)]

example : resumeStep 5000 = 5000 ∧ resumeStep (-5000) = -5000 ∧ resumeStep 1250000 = 250000 ∧
    resumeStep (-100000) = 100000 := by simp [resumeStep_eq]

/-! ### Specification -/

variable {M D : Type}

/-- A message that holds the first `k` batches: taking `k` batches off it gives these batches, the last one first. -/
def Holds (C : Coder M D) (data : ℕ → D) : M → ℕ → Prop
  | _, 0 => True
  | m, k + 1 => ∃ m', C.pop m = some (m', data k) ∧ Holds C data m' k

/-- The codec is invertible (this is C19). -/
def Coder.Lossless (C : Coder M D) : Prop := ∀ m d m', C.push m d = some m' → C.pop m' = some (m, d)

/-- The number of batches a process has to encode: the least `K` with `B * K * W ≥ num_samples`. -/
def Cfg.IsTotal (c : Cfg D) (K : ℕ) : Prop := ∀ k, c.More k ↔ k < K

/-- All runs from `w` that do not crash reach a state with `P`. -/
inductive Inevitably (R : World M D → World M D → Prop) (P : World M D → Prop) : World M D → Prop
  | now {w} : P w → Inevitably R P w
  | later {w} : (∃ w', R w w') → (∀ w', R w w' → Inevitably R P w') → Inevitably R P w

/-! ### Invariants -/

variable {c : Cfg D} {C : Coder M D}

/-- What the process holds in memory is right. -/
def ProcGood (C : Coder M D) (data : ℕ → D) : Proc M D → Prop
  | .encoding m k => Holds C data m k
  | .savingEnc m k => Holds C data m k
  | .loading m k => Holds C data m k
  | .decoding m k => Holds C data m k
  | .savingBatch m k d => Holds C data m k ∧ d = data k
  | .savingDec m k => Holds C data m k
  | _ => True

/-- Complete files are right. -/
structure Sound (C : Coder M D) (data : ℕ → D) (w : World M D) : Prop where
  enc : ∀ k m n, w.dir.enc k = some (.full (m, n)) → n = k ∧ Holds C data m k
  dec : ∀ k m n, w.dir.dec k = some (.full (m, n)) → n = k ∧ Holds C data m k
  batch : ∀ k d, w.dir.batch k = some (.full d) → d = data k
  proc : ProcGood C data w.proc

theorem put_full {α : Type} {f : ℕ → Option (File α)} {k j : ℕ} {a b : α} (h : put f k (.full a) j = some (.full b)) :
    (j = k ∧ b = a) ∨ f j = some (.full b) := by
  unfold put at h
  split_ifs at h with e
  · left; refine ⟨e, ?_⟩
    simp only [Option.some.injEq, File.full.injEq] at h
    exact h.symm
  · exact .inr h

theorem put_torn {α : Type} {f : ℕ → Option (File α)} {k j : ℕ} {b : α} (h : put f k .torn j = some (.full b)) :
    f j = some (.full b) := by
  unfold put at h
  split_ifs at h with e
  · cases h
  · exact h

theorem sound_step (hC : C.Lossless) {w w' : World M D} (h : Sound C c.data w) (hs : Step c C w w') :
    Sound C c.data w' := by
  obtain ⟨he, hd, hb, hp⟩ := h
  cases hs with
  | start h =>
    cases h with
    | fresh m _ _ => exact ⟨he, hd, hb, trivial⟩
    | load k n m _ _ h => exact ⟨he, hd, hb, by obtain ⟨rfl, h'⟩ := he _ _ _ h; exact h'⟩
    | bad k _ _ _ => exact ⟨he, hd, hb, trivial⟩
  | run h =>
    cases h with
    | encode f m m' k h1 h2 h3 => exact ⟨he, hd, hb, ⟨m, hC _ _ _ h2, hp⟩⟩
    | encodeSave f m m' k h1 h2 h3 => exact ⟨he, hd, hb, ⟨m, hC _ _ _ h2, hp⟩⟩
    | encodeFail => exact ⟨he, hd, hb, trivial⟩
    | savedEnc f m k =>
      refine ⟨?_, hd, hb, hp⟩
      intro j m1 n h
      rcases put_full h with ⟨rfl, h'⟩ | h'
      · simp only [Prod.mk.injEq] at h'
        obtain ⟨rfl, rfl⟩ := h'
        exact ⟨rfl, hp⟩
      · exact he _ _ _ h'
    | finish => exact ⟨he, hd, hb, trivial⟩
    | encoded => exact ⟨he, hd, hb, hp⟩
    | loadNone => exact ⟨he, hd, hb, hp⟩
    | loadDec f m m' k j n h1 h2 => exact ⟨he, hd, hb, by obtain ⟨rfl, h'⟩ := hd _ _ _ h2; exact h'⟩
    | loadBad => exact ⟨he, hd, hb, trivial⟩
    | decode f m m' k d h =>
      refine ⟨he, hd, hb, ?_⟩
      obtain ⟨m1, h1, h2⟩ := hp
      rw [h] at h1
      simp only [Option.some.injEq, Prod.mk.injEq] at h1
      obtain ⟨rfl, rfl⟩ := h1
      exact ⟨h2, rfl⟩
    | decodeFail => exact ⟨he, hd, hb, trivial⟩
    | savedBatch f m k d h =>
      refine ⟨he, hd, ?_, hp.1⟩
      intro j b hj
      rcases put_full hj with ⟨rfl, rfl⟩ | h'
      · exact hp.2
      · exact hb _ _ h'
    | savedBatchSave f m k d h =>
      refine ⟨he, hd, ?_, hp.1⟩
      intro j b hj
      rcases put_full hj with ⟨rfl, rfl⟩ | h'
      · exact hp.2
      · exact hb _ _ h'
    | savedDec f m k =>
      refine ⟨he, ?_, hb, hp⟩
      intro j m1 n h
      rcases put_full h with ⟨rfl, h'⟩ | h'
      · simp only [Prod.mk.injEq] at h'
        obtain ⟨rfl, rfl⟩ := h'
        exact ⟨rfl, hp⟩
      · exact hd _ _ _ h'
    | decoded => exact ⟨he, hd, hb, trivial⟩
    | passed => exact ⟨he, hd, hb, trivial⟩
    | mismatch => exact ⟨he, hd, hb, trivial⟩
  | crash h =>
    cases h with
    | lost => exact ⟨he, hd, hb, trivial⟩
    | tornEnc f m k => exact ⟨fun j m1 n h => he _ _ _ (put_torn h), hd, hb, trivial⟩
    | tornBatch f m k d => exact ⟨he, hd, fun j b h => hb _ _ (put_torn h), trivial⟩
    | tornDec f m k => exact ⟨he, fun j m1 n h => hd _ _ _ (put_torn h), hb, trivial⟩

theorem sound_empty (C : Coder M D) (data : ℕ → D) : Sound C data ⟨emptyDir, .idle⟩ :=
  ⟨by simp [emptyDir], by simp [emptyDir], by simp [emptyDir], trivial⟩

theorem sound_reachable (hC : C.Lossless) {w : World M D} (h : Reachable c C w) : Sound C c.data w := by
  unfold Reachable at h
  induction h with
  | refl => exact sound_empty _ _
  | tail _ hs ih => exact sound_step hC ih hs

/-- **C89** (safety): after any history of starts, steps and crashes, with any file names, every complete file in the
directory is right: a checkpoint holds exactly the batches its name says, in order, and a decoded batch is the original
one. -/
theorem C89_files (hC : C.Lossless) (w : World M D) (h : Reachable c C w) :
    (∀ k m n, w.dir.enc k = some (.full (m, n)) → n = k ∧ Holds C c.data m k) ∧
    (∀ k m n, w.dir.dec k = some (.full (m, n)) → n = k ∧ Holds C c.data m k) ∧
    ∀ k d, w.dir.batch k = some (.full d) → d = c.data k :=
  let s := sound_reachable hC h
  ⟨s.enc, s.dec, s.batch⟩

/-! ### Order of the checkpoints -/

theorem encKey_eq {K : ℕ} (hfit : c.B * K < 1000000) {k : ℕ} (h : k ≤ K) : c.encKey k = (c.B * k : ℕ) := by
  have : c.B * k ≤ c.B * K := Nat.mul_le_mul_left _ h
  unfold Cfg.encKey
  rw [resumeStep_eq, if_pos (by omega)]
  omega

theorem decKey_eq {K : ℕ} (hfit : c.B * K < 100000) {k : ℕ} (h : k ≤ K) : c.decKey k = -((c.B * k : ℕ) : ℤ) := by
  have : c.B * k ≤ c.B * K := Nat.mul_le_mul_left _ h
  unfold Cfg.decKey
  rw [resumeStep_eq]
  split_ifs <;> omega

/-- The place of the process, and what the directory must contain then. -/
def ProcPlace (c : Cfg D) (K : ℕ) (f : Dir M D) : Proc M D → Prop
  | .encoding _ k => k ≤ K ∧ (k = K → 0 < K → ∃ m, f.enc K = some (.full (m, K)))
  | .savingEnc _ k => 0 < k ∧ k ≤ K
  | .loading _ k => k = K ∧ c.check = true ∧ (0 < K → ∃ m, f.enc K = some (.full (m, K)))
  | .decoding _ k => k ≤ K ∧ (∀ j, (f.dec j).isSome → k ≤ j) ∧ (∀ j, k ≤ j → j < K → ∃ d, f.batch j = some (.full d)) ∧
      (k < K → (f.dec k).isSome ∨ ¬ c.SaveDec k) ∧
      (0 < K → ∃ m, f.enc K = some (.full (m, K))) ∧ c.check = true
  | .savingBatch _ k _ => k < K ∧ (∀ j, (f.dec j).isSome → k < j) ∧
      (∀ j, k < j → j < K → ∃ d, f.batch j = some (.full d)) ∧
      (0 < K → ∃ m, f.enc K = some (.full (m, K))) ∧ c.check = true
  | .savingDec _ k => k < K ∧ (∀ j, (f.dec j).isSome → k < j) ∧
      (∀ j, k ≤ j → j < K → ∃ d, f.batch j = some (.full d)) ∧
      (0 < K → ∃ m, f.enc K = some (.full (m, K))) ∧ c.check = true
  | .checking => (∀ j, j < K → ∃ d, f.batch j = some (.full d)) ∧ (0 < K → (f.dec 0).isSome) ∧
      (0 < K → ∃ m, f.enc K = some (.full (m, K)))
  | .done => (c.check = true → (∀ j, j < K → ∃ d, f.batch j = some (.full d)) ∧ (0 < K → (f.dec 0).isSome)) ∧
      (0 < K → ∃ m, f.enc K = some (.full (m, K)))
  | _ => True

structure Placed (c : Cfg D) (K : ℕ) (w : World M D) : Prop where
  enc : ∀ k, (w.dir.enc k).isSome → 0 < k ∧ k ≤ K
  /-- A checkpoint is written after the batches it leaves out. -/
  dec : ∀ k, (w.dir.dec k).isSome → k < K ∧ ∀ j, k ≤ j → j < K → ∃ d, w.dir.batch j = some (.full d)
  batch : ∀ k, (w.dir.batch k).isSome → k < K
  proc : ProcPlace c K w.dir w.proc

theorem put_some {α : Type} {f : ℕ → Option α} {k j : ℕ} {a : α} (h : (put f k a j).isSome) : j = k ∨ (f j).isSome := by
  unfold put at h
  split_ifs at h with e
  · exact .inl e
  · exact .inr h

theorem put_same {α : Type} (f : ℕ → Option α) (k : ℕ) (a : α) : put f k a k = some a := by simp [put]

theorem put_other {α : Type} (f : ℕ → Option α) {k j : ℕ} (a : α) (h : j ≠ k) : put f k a j = f j := by simp [put, h]

theorem newest_dec {K : ℕ} (hB : 0 < c.B) (hfit : c.B * K < 100000) {f : Dir M D}
    (hdec : ∀ k, (f.dec k).isSome → k < K) {k : ℕ} (h : Newest c.decKey f.dec k) (j : ℕ) (hj : (f.dec j).isSome) :
    k ≤ j := by
  have h1 := h.2 j hj
  rw [decKey_eq hfit (hdec j hj).le, decKey_eq hfit (hdec k h.1).le] at h1
  have h2 : c.B * k ≤ c.B * j := by omega
  exact Nat.le_of_mul_le_mul_left h2 hB

theorem placed_step {K : ℕ} (hB : 0 < c.B) (hK : c.IsTotal K) (hfit : c.B * K < 100000) {w w' : World M D}
    (hsound : Sound C c.data w) (h : Placed c K w) (hs : Step c C w w') : Placed c K w' := by
  obtain ⟨he, hd, hb, hp⟩ := h
  have hfull : ∀ {k m n}, w.dir.enc k = some (.full (m, n)) → w.dir.enc k = some (.full (m, k)) := by
    intro k m n h
    rw [h, (hsound.enc _ _ _ h).1]
  cases hs with
  | start h =>
    cases h with
    | fresh m _ h => exact ⟨he, hd, hb, ⟨Nat.zero_le _, fun h1 h2 => by omega⟩⟩
    | load k n m _ h1 h2 =>
      have e := (hsound.enc _ _ _ h2).1
      subst e
      exact ⟨he, hd, hb, ⟨(he n (by rw [h2]; rfl)).2, fun h3 h4 => ⟨m, by rw [← h3]; exact h2⟩⟩⟩
    | bad k _ _ _ => exact ⟨he, hd, hb, trivial⟩
  | run h =>
    cases h with
    | encode f m m' k h1 h2 h3 =>
      refine ⟨he, hd, hb, ⟨(hK k).1 h1, fun h4 _ => ?_⟩⟩
      exfalso
      apply h3
      left
      have : ¬ c.More (k + 1) := fun h => by have := (hK _).1 h; omega
      unfold Cfg.More at this; omega
    | encodeSave f m m' k h1 h2 h3 => exact ⟨he, hd, hb, ⟨Nat.succ_pos _, (hK k).1 h1⟩⟩
    | encodeFail => exact ⟨he, hd, hb, trivial⟩
    | savedEnc f m k =>
      refine ⟨?_, hd, hb, ⟨hp.2, fun h _ => ⟨m, by rw [← h]; exact put_same _ _ _⟩⟩⟩
      intro j hj
      rcases put_some hj with rfl | h
      · exact hp
      · exact he j h
    | finish f m k h1 h2 =>
      refine ⟨he, hd, hb, ⟨by simp [h2], hp.2 ?_⟩⟩
      have := hp.1
      have : ¬ k < K := fun h => h1 ((hK k).2 h)
      omega
    | encoded f m k h1 h2 =>
      have h3 : k = K := by
        have := hp.1
        have : ¬ k < K := fun h => h1 ((hK k).2 h)
        omega
      exact ⟨he, hd, hb, ⟨h3, h2, hp.2 h3⟩⟩
    | loadNone f m k h =>
      obtain ⟨rfl, h2, h3⟩ := hp
      refine ⟨he, hd, hb, ⟨le_rfl, fun j hj => ?_, fun j h1 h2 => by omega, fun h => by omega, h3, h2⟩⟩
      rw [h] at hj; simp at hj
    | loadDec f m m' k j n h1 h2 =>
      obtain ⟨rfl, h4, h5⟩ := hp
      have e := (hsound.dec _ _ _ h2).1
      subst e
      have h3 := hd n h1.1
      exact ⟨he, hd, hb, ⟨h3.1.le, newest_dec hB hfit (fun k hk => (hd k hk).1) h1, h3.2, fun _ => .inl h1.1, h5, h4⟩⟩
    | loadBad => exact ⟨he, hd, hb, trivial⟩
    | decode f m m' k d h =>
      obtain ⟨h1, h2, h3, _, h5⟩ := hp
      exact ⟨he, hd, hb, ⟨h1, fun j hj => h2 j hj, fun j hj => h3 j hj, h5⟩⟩
    | decodeFail => exact ⟨he, hd, hb, trivial⟩
    | savedBatch f m k d h =>
      obtain ⟨h1, h2, h3, h5⟩ := hp
      have hfill : ∀ j, k ≤ j → j < K → ∃ d', put f.batch k (.full d) j = some (.full d') := by
        intro j hj hjK
        rcases Nat.eq_or_lt_of_le hj with rfl | hlt
        · exact ⟨d, put_same _ _ _⟩
        · rw [put_other _ _ (by omega)]; exact h3 j hlt hjK
      refine ⟨he, fun j hj => ⟨(hd j hj).1, fun i hi hiK => ?_⟩, ?_,
        ⟨h1.le, fun j hj => (h2 j hj).le, hfill, fun _ => .inr h, h5⟩⟩
      · exact hfill i (by have := h2 j hj; omega) hiK
      · intro j hj
        rcases put_some hj with rfl | h
        · exact h1
        · exact hb j h
    | savedBatchSave f m k d h =>
      obtain ⟨h1, h2, h3, h5⟩ := hp
      have hfill : ∀ j, k ≤ j → j < K → ∃ d', put f.batch k (.full d) j = some (.full d') := by
        intro j hj hjK
        rcases Nat.eq_or_lt_of_le hj with rfl | hlt
        · exact ⟨d, put_same _ _ _⟩
        · rw [put_other _ _ (by omega)]; exact h3 j hlt hjK
      refine ⟨he, fun j hj => ⟨(hd j hj).1, fun i hi hiK => ?_⟩, ?_, ⟨h1, h2, hfill, h5⟩⟩
      · exact hfill i (by have := h2 j hj; omega) hiK
      · intro j hj
        rcases put_some hj with rfl | h
        · exact h1
        · exact hb j h
    | savedDec f m k =>
      obtain ⟨h1, h2, h3, h5⟩ := hp
      refine ⟨he, ?_, hb, ⟨h1.le, ?_, h3, fun _ => .inl (by simp [put_same]), h5⟩⟩
      · intro j hj
        rcases put_some hj with rfl | h
        · exact ⟨h1, h3⟩
        · exact hd j h
      · intro j hj
        rcases put_some hj with rfl | h
        · exact le_rfl
        · exact (h2 j h).le
    | decoded f m =>
      obtain ⟨h1, h2, h3, h4, h5, h6⟩ := hp
      refine ⟨he, hd, hb, ⟨fun j hj => h3 j (Nat.zero_le _) hj, fun h => ?_, h5⟩⟩
      rcases h4 h with h7 | h7
      · exact h7
      · exfalso; apply h7
        unfold Cfg.SaveDec
        simpa using hB
    | passed f h =>
      exact ⟨he, hd, hb, ⟨fun _ => ⟨hp.1, hp.2.1⟩, hp.2.2⟩⟩
    | mismatch => exact ⟨he, hd, hb, trivial⟩
  | crash h =>
    cases h with
    | lost => exact ⟨he, hd, hb, trivial⟩
    | tornEnc f m k =>
      refine ⟨?_, hd, hb, trivial⟩
      intro j hj
      rcases put_some hj with rfl | h
      · exact hp
      · exact he j h
    | tornBatch f m k d =>
      refine ⟨he, fun j hj => ⟨(hd j hj).1, fun i hi hiK => ?_⟩, ?_, trivial⟩
      · have := hp.2.1 j hj
        dsimp only
        rw [put_other _ _ (by omega)]
        exact (hd j hj).2 i hi hiK
      · intro j hj
        rcases put_some hj with rfl | h
        · exact hp.1
        · exact hb j h
    | tornDec f m k =>
      refine ⟨he, ?_, hb, trivial⟩
      intro j hj
      rcases put_some hj with rfl | h
      · exact ⟨hp.1, hp.2.2.1⟩
      · exact hd j h

theorem placed_empty (c : Cfg D) (K : ℕ) : Placed c K (⟨emptyDir, .idle⟩ : World M D) :=
  ⟨by simp [emptyDir], by simp [emptyDir], by simp [emptyDir], trivial⟩

theorem placed_reachable (hC : C.Lossless) {K : ℕ} (hB : 0 < c.B) (hK : c.IsTotal K) (hfit : c.B * K < 100000)
    {w : World M D} (h : Reachable c C w) : Placed c K w := by
  unfold Reachable at h
  induction h with
  | refl => exact placed_empty _ _
  | tail hr hs ih => exact placed_step hB hK hfit (sound_reachable hC hr) ih hs

/-- **C89** (completed runs): when the script reports completion, after whatever crashes and restarts, the final encode
checkpoint holds all `K` batches; with `check`, all of them have been decoded, and they are the original ones.
Missing from the full statement: more than 99999 samples per process, whose numbers do not fit into the file names of
`decode`. -/
theorem C89_done_partial (hC : C.Lossless) (K : ℕ) (hB : 0 < c.B) (hK : c.IsTotal K) (hfit : c.B * K < 100000)
    (w : World M D) (h : Reachable c C w) (hd : w.proc = .done) :
    (0 < K → ∃ m, w.dir.enc K = some (.full (m, K)) ∧ Holds C c.data m K) ∧
    (c.check = true → ∀ j, w.dir.batch j = if j < K then some (.full (c.data j)) else none) := by
  have hs := sound_reachable hC h
  have hp := placed_reachable hC hB hK hfit h
  have hp' := hp.proc
  rw [hd] at hp'
  constructor
  · intro h0
    obtain ⟨m, hm⟩ := hp'.2 h0
    exact ⟨m, hm, (hs.enc _ _ _ hm).2⟩
  · intro hc j
    split_ifs with hj
    · obtain ⟨d, h1⟩ := (hp'.1 hc).1 j hj
      rw [h1, hs.batch j d h1]
    · by_contra hne
      exact hj (hp.batch j (Option.isSome_iff_ne_none.2 hne))

/-! ### Progress -/

/-- No checkpoint is torn. -/
def Intact (f : Dir M D) : Prop := (∀ k, f.enc k ≠ some .torn) ∧ ∀ k, f.dec k ≠ some .torn

theorem exists_newest {α : Type} (key : ℕ → ℤ) (files : ℕ → Option α) (K : ℕ) (h : ∀ k, (files k).isSome → k < K) :
    (∀ k, files k = none) ∨ ∃ k, Newest key files k := by
  by_cases he : ∃ k, (files k).isSome
  · right
    have hne : ((Finset.range K).filter (fun k => (files k).isSome = true)).Nonempty := by
      obtain ⟨k, hk⟩ := he
      exact ⟨k, by simp [h k hk, hk]⟩
    obtain ⟨k, hk, hmax⟩ := Finset.exists_max_image _ key hne
    simp only [Finset.mem_filter, Finset.mem_range] at hk hmax
    exact ⟨k, hk.2, fun j hj => hmax j ⟨h j hj, hj⟩⟩
  · left
    intro k
    by_contra hk
    exact he ⟨k, Option.isSome_iff_ne_none.2 hk⟩

/-- The states from which a run without crashes ends well. -/
structure Ready (c : Cfg D) (C : Coder M D) (K : ℕ) (w : World M D) : Prop where
  sound : Sound C c.data w
  placed : Placed c K w
  intact : Intact w.dir

theorem ready_run {K : ℕ} (hC : C.Lossless) (hB : 0 < c.B) (hK : c.IsTotal K) (hfit : c.B * K < 100000)
    {w w' : World M D} (h : Ready c C K w) (hr : Run c C w w') : Ready c C K w' := by
  refine ⟨sound_step hC h.sound (.run hr), placed_step hB hK hfit h.sound h.placed (.run hr), ?_⟩
  have hi := h.intact
  cases hr with
  | savedEnc f m k =>
    refine ⟨fun j => ?_, hi.2⟩
    dsimp only [put]
    split_ifs
    · simp
    · exact hi.1 j
  | savedDec f m k =>
    refine ⟨hi.1, fun j => ?_⟩
    dsimp only [put]
    split_ifs
    · simp
    · exact hi.2 j
  | _ => exact hi

abbrev IsDone (w : World M D) : Prop := w.proc = .done

theorem passes_of {K : ℕ} {w : World M D} (hs : Sound C c.data w) (hp : Placed c K w)
    (h : ∀ j, j < K → ∃ d, w.dir.batch j = some (.full d)) : Passes c w.dir.batch := by
  intro j f hj
  have hjK := hp.batch j (by rw [hj]; rfl)
  have hcount : ∀ i, i ≤ K → Nat.count (fun i => (w.dir.batch i).isSome = true) i = i := by
    intro i
    induction i with
    | zero => intro _; simp
    | succ i ih =>
      intro hi
      obtain ⟨d, hd⟩ := h i (by omega)
      rw [Nat.count_succ, ih (by omega), if_pos (by rw [hd]; rfl)]
  rw [hcount j hjK.le]
  obtain ⟨d, hd⟩ := h j hjK
  rw [hd] at hj
  have := hs.batch j d hd
  simp only [Option.some.injEq] at hj
  rw [← hj, this]

theorem checking_ends {K : ℕ} {f : Dir M D} (h : Ready c C K ⟨f, .checking⟩) :
    Inevitably (Run c C) IsDone ⟨f, .checking⟩ := by
  have hpass : Passes c f.batch := passes_of h.sound h.placed h.placed.proc.1
  refine .later ⟨_, .passed f hpass⟩ fun w' hr => ?_
  cases hr with
  | passed _ _ => exact .now rfl
  | mismatch _ h' => exact absurd hpass h'

theorem decoding_ends {K : ℕ} (hC : C.Lossless) (hB : 0 < c.B) (hK : c.IsTotal K) (hfit : c.B * K < 100000) :
    ∀ (k : ℕ) (m : M) (f : Dir M D), Ready c C K ⟨f, .decoding m k⟩ →
      Inevitably (Run c C) IsDone ⟨f, .decoding m k⟩ := by
  intro k
  induction k with
  | zero =>
    intro m f h
    refine .later ⟨_, .decoded f m⟩ fun w' hr => ?_
    have h' := ready_run hC hB hK hfit h hr
    cases hr with
    | decoded _ _ => exact checking_ends h'
  | succ k ih =>
    intro m f h
    obtain ⟨m1, hpop, hm1⟩ := h.sound.proc
    refine .later ⟨_, .decode f m m1 k _ hpop⟩ fun w' hr => ?_
    have h' := ready_run hC hB hK hfit h hr
    cases hr with
    | decodeFail _ _ _ hn => rw [hpop] at hn; cases hn
    | decode _ _ m' _ d hpop' =>
      refine .later ?_ fun w2 hr2 => ?_
      · by_cases hs : c.SaveDec k
        · exact ⟨_, .savedBatchSave f m' k d hs⟩
        · exact ⟨_, .savedBatch f m' k d hs⟩
      · have h2 := ready_run hC hB hK hfit h' hr2
        cases hr2 with
        | savedBatch _ _ _ _ hs => exact ih _ _ h2
        | savedBatchSave _ _ _ _ hs =>
          refine .later ⟨_, .savedDec _ m' k⟩ fun w3 hr3 => ?_
          have h3 := ready_run hC hB hK hfit h2 hr3
          cases hr3 with
          | savedDec _ _ _ => exact ih _ _ h3

theorem loading_ends {K : ℕ} (hC : C.Lossless) (hB : 0 < c.B) (hK : c.IsTotal K) (hfit : c.B * K < 100000)
    (k : ℕ) (m : M) (f : Dir M D) (h : Ready c C K ⟨f, .loading m k⟩) :
    Inevitably (Run c C) IsDone ⟨f, .loading m k⟩ := by
  refine .later ?_ fun w' hr => ?_
  · rcases exists_newest c.decKey f.dec K (fun k hk => (h.placed.dec k hk).1) with hn | ⟨j, hj⟩
    · exact ⟨_, .loadNone f m k hn⟩
    · rcases hf : f.dec j with _ | a | ⟨m', n⟩
      · have := hj.1; rw [hf] at this; cases this
      · exact absurd hf (h.intact.2 j)
      · exact ⟨_, .loadDec f m m' k j n hj hf⟩
  · have h' := ready_run hC hB hK hfit h hr
    cases hr with
    | loadNone _ _ _ _ => exact decoding_ends hC hB hK hfit _ _ _ h'
    | loadDec _ _ _ _ _ _ _ _ => exact decoding_ends hC hB hK hfit _ _ _ h'
    | loadBad _ _ _ j _ hb => exact absurd hb (h.intact.2 j)

theorem encoding_ends {K : ℕ} (hC : C.Lossless) (htot : ∀ m d, (C.push m d).isSome) (hB : 0 < c.B) (hK : c.IsTotal K)
    (hfit : c.B * K < 100000) : ∀ (n k : ℕ) (m : M) (f : Dir M D), K - k = n → Ready c C K ⟨f, .encoding m k⟩ →
      Inevitably (Run c C) IsDone ⟨f, .encoding m k⟩ := by
  intro n
  induction n with
  | zero =>
    intro k m f hn h
    have hk : ¬ c.More k := fun h' => by have := (hK k).1 h'; omega
    refine .later ?_ fun w' hr => ?_
    · cases hc : c.check with
      | false => exact ⟨_, .finish f m k hk hc⟩
      | true => exact ⟨_, .encoded f m k hk hc⟩
    · have h' := ready_run hC hB hK hfit h hr
      cases hr with
      | finish => exact .now rfl
      | encoded => exact loading_ends hC hB hK hfit _ _ _ h'
      | encode _ _ _ _ hm => exact absurd hm hk
      | encodeSave _ _ _ _ hm => exact absurd hm hk
      | encodeFail _ _ _ hm => exact absurd hm hk
  | succ n ih =>
    intro k m f hn h
    have hk : c.More k := (hK k).2 (by omega)
    obtain ⟨m1, hm1⟩ := Option.isSome_iff_exists.1 (htot m (c.data k))
    refine .later ?_ fun w' hr => ?_
    · by_cases hs : c.SaveEnc (k + 1)
      · exact ⟨_, .encodeSave f m m1 k hk hm1 hs⟩
      · exact ⟨_, .encode f m m1 k hk hm1 hs⟩
    · have h' := ready_run hC hB hK hfit h hr
      cases hr with
      | finish _ _ _ hm => exact absurd hk hm
      | encoded _ _ _ hm => exact absurd hk hm
      | encode _ _ _ _ _ _ _ => exact ih _ _ _ (by omega) h'
      | encodeFail _ _ _ _ hf => rw [hm1] at hf; cases hf
      | encodeSave _ _ m' _ _ _ _ =>
        refine .later ⟨_, .savedEnc f m' (k + 1)⟩ fun w2 hr2 => ?_
        have h2 := ready_run hC hB hK hfit h' hr2
        cases hr2 with
        | savedEnc _ _ _ => exact ih _ _ _ (by omega) h2

/-- **C89** (progress): as long as no crash has torn a checkpoint, starting the script again and letting it run leads to
completion, from every state a history of crashes can leave behind, torn batch files included.  Missing from the full statement: torn
checkpoints, see `C89_violated`. -/
theorem C89_progress_partial (hC : C.Lossless) (htot : ∀ m d, (C.push m d).isSome) (K : ℕ) (hB : 0 < c.B) (hK : c.IsTotal K)
    (hfit : c.B * K < 100000) (w : World M D) (h : Reachable c C w)
    (hst : w.proc = .idle ∨ w.proc = .failed ∨ w.proc = .done) (hi : Intact w.dir) [Nonempty M] :
    (∃ w', Start c w w') ∧ ∀ w', Start c w w' → Inevitably (Run c C) IsDone w' := by
  have hs := sound_reachable hC h
  have hp := placed_reachable hC hB hK hfit h
  constructor
  · rcases exists_newest c.encKey w.dir.enc (K + 1) (fun k hk => Nat.lt_succ_of_le (hp.enc k hk).2) with hn | ⟨k, hk⟩
    · exact ⟨_, .fresh w (Classical.arbitrary M) hst hn⟩
    · rcases hf : w.dir.enc k with _ | a | ⟨m', n⟩
      · have := hk.1; rw [hf] at this; cases this
      · exact absurd hf (hi.1 k)
      · exact ⟨_, .load w k n m' hst hk hf⟩
  · intro w' hw
    have hr : Ready c C K w' := by
      refine ⟨sound_step hC hs (.start hw), placed_step hB hK hfit hs hp (.start hw), ?_⟩
      cases hw <;> exact hi
    cases hw with
    | fresh m _ _ => exact encoding_ends hC htot hB hK hfit _ _ _ _ rfl hr
    | load k n m _ _ _ => exact encoding_ends hC htot hB hK hfit _ _ _ _ rfl hr
    | bad k _ _ hb => exact absurd hb (hi.1 k)

/-! ### How much work a crash can cost -/

/-- The checkpoints before the place of the process exist. -/
structure Kept (c : Cfg D) (K : ℕ) (w : World M D) : Prop where
  enc : ∀ k, (w.dir.enc k).isSome → ∀ j, 0 < j → j < k → c.SaveEnc j → (w.dir.enc j).isSome
  le : ∀ k, (w.dir.enc k).isSome → k ≤ K
  proc : ∀ m k, w.proc = .encoding m k → k ≤ K ∧ ∀ j, 0 < j → j ≤ k → c.SaveEnc j → (w.dir.enc j).isSome
  saving : ∀ m k, w.proc = .savingEnc m k → k ≤ K ∧ ∀ j, 0 < j → j < k → c.SaveEnc j → (w.dir.enc j).isSome

theorem kept_of_enc {K : ℕ} {w : World M D} (h : Kept c K w) (f : Dir M D) (p : Proc M D) (hf : f.enc = w.dir.enc)
    (hp : ∀ m k, p ≠ .encoding m k) (hp' : ∀ m k, p ≠ .savingEnc m k) : Kept c K (⟨f, p⟩ : World M D) :=
  ⟨by dsimp only; rw [hf]; exact h.enc, by dsimp only; rw [hf]; exact h.le, fun m k e => absurd e (hp m k),
    fun m k e => absurd e (hp' m k)⟩

theorem kept_put {K : ℕ} {f : Dir M D} {m : M} {k : ℕ} (h : Kept c K ⟨f, .savingEnc m k⟩) (a : File (M × ℕ)) (p : Proc M D)
    (hp : ∀ m' k', p = .encoding m' k' → k' = k) (hp' : ∀ m k, p ≠ .savingEnc m k) :
    Kept c K (⟨{ f with enc := put f.enc k a }, p⟩ : World M D) := by
  obtain ⟨h1, h2⟩ := h.saving m k rfl
  have hold : ∀ j, (f.enc j).isSome → (put f.enc k a j).isSome := by
    intro j hj
    unfold put; split_ifs <;> simp [hj]
  refine ⟨?_, ?_, ?_, fun m k e => absurd e (hp' m k)⟩
  · intro i hi j hj hji hs
    apply hold
    rcases put_some hi with rfl | h'
    · exact h2 j hj hji hs
    · exact h.enc i h' j hj hji hs
  · intro i hi
    rcases put_some hi with rfl | h'
    · exact h1
    · exact h.le i h'
  · intro m' k' e
    have := hp m' k' e
    subst this
    refine ⟨h1, fun j hj hjk hs => ?_⟩
    rcases Nat.eq_or_lt_of_le hjk with rfl | hlt
    · simp [put_same]
    · exact hold j (h2 j hj hlt hs)

theorem kept_step {K : ℕ} (hK : c.IsTotal K) {w w' : World M D} (hsound : Sound C c.data w) (h : Kept c K w)
    (hs : Step c C w w') : Kept c K w' := by
  cases hs with
  | start hst =>
    cases hst with
    | fresh m _ hn =>
      refine ⟨h.enc, h.le, ?_, by simp⟩
      rintro m' k' e
      simp only [Proc.encoding.injEq] at e
      obtain ⟨_, rfl⟩ := e
      exact ⟨Nat.zero_le _, fun j h1 h2 => by omega⟩
    | load k n m _ h1 h2 =>
      refine ⟨h.enc, h.le, ?_, by simp⟩
      rintro m' k' e
      simp only [Proc.encoding.injEq] at e
      obtain ⟨_, rfl⟩ := e
      have e := (hsound.enc _ _ _ h2).1
      subst e
      refine ⟨h.le n h1.1, fun j h3 h4 h5 => ?_⟩
      rcases Nat.eq_or_lt_of_le h4 with rfl | hlt
      · exact h1.1
      · exact h.enc n h1.1 j h3 hlt h5
    | bad k _ _ _ => exact kept_of_enc h _ _ rfl (by simp) (by simp)
  | run hr =>
    cases hr with
    | encode f m m' k h1 h2 h3 =>
      refine ⟨h.enc, h.le, ?_, by simp⟩
      rintro m1 k' e
      simp only [Proc.encoding.injEq] at e
      obtain ⟨_, rfl⟩ := e
      refine ⟨(hK k).1 h1, fun j h4 h5 h6 => ?_⟩
      rcases Nat.eq_or_lt_of_le h5 with rfl | hlt
      · exact absurd h6 h3
      · exact (h.proc m k rfl).2 j h4 (by omega) h6
    | encodeSave f m m' k h1 h2 h3 =>
      refine ⟨h.enc, h.le, by simp, ?_⟩
      rintro m1 k' e
      simp only [Proc.savingEnc.injEq] at e
      obtain ⟨_, rfl⟩ := e
      exact ⟨(hK k).1 h1, fun j h4 h5 h6 => (h.proc m k rfl).2 j h4 (by omega) h6⟩
    | savedEnc f m k => exact kept_put h _ _ (by intro m' k' e; cases e; rfl) (by simp)
    | _ => exact kept_of_enc h _ _ rfl (by simp) (by simp)
  | crash hc =>
    cases hc with
    | tornEnc f m k => exact kept_put h _ _ (by simp) (by simp)
    | _ => exact kept_of_enc h _ _ rfl (by simp) (by simp)

theorem kept_reachable (hC : C.Lossless) {K : ℕ} (hK : c.IsTotal K) {w : World M D} (h : Reachable c C w) :
    Kept c K w := by
  unfold Reachable at h
  induction h with
  | refl => exact ⟨by simp [emptyDir], by simp [emptyDir], by simp, by simp⟩
  | tail hr hs ih => exact kept_step hK (sound_reachable hC hr) ih hs

theorem last_save (c : Cfg D) (k : ℕ) (hB : 0 < c.B) (hS : 0 < c.S) (h : c.S + c.B ≤ c.B * k) :
    ∃ j, 0 < j ∧ j ≤ k ∧ c.SaveEnc j ∧ c.B * k < c.B * j + c.S + c.B := by
  -- the first multiple of the batch size that reaches the last multiple of the interval
  rcases Nat.lt_or_ge c.S c.B with hlt | hge
  · refine ⟨k, ?_, le_rfl, .inr ((Nat.mod_lt _ hS).trans hlt), by omega⟩
    rcases Nat.eq_zero_or_pos k with rfl | h'
    · omega
    · exact h'
  · set t := c.B * k / c.S with ht
    have h1 : c.S * t + c.B * k % c.S = c.B * k := Nat.div_add_mod _ _
    have h2 := Nat.mod_lt (c.B * k) hS
    have ht1 : 1 ≤ t := (Nat.le_div_iff_mul_le hS).2 (by omega)
    set j := (c.S * t + c.B - 1) / c.B with hj
    have h3 : c.B * j + (c.S * t + c.B - 1) % c.B = c.S * t + c.B - 1 := Nat.div_add_mod _ _
    have h4 := Nat.mod_lt (c.S * t + c.B - 1) hB
    have h5 : c.S ≤ c.S * t := Nat.le_mul_of_pos_right _ ht1
    have hjk : c.B * j ≤ c.B * k := by
      have hjk' : j ≤ k := by
        rw [hj]
        apply Nat.le_of_lt_succ
        rw [Nat.div_lt_iff_lt_mul hB, Nat.succ_mul, Nat.mul_comm k c.B]
        omega
      exact Nat.mul_le_mul_left _ hjk'
    refine ⟨j, ?_, Nat.le_of_mul_le_mul_left hjk hB, .inr ?_, by omega⟩
    · rcases Nat.eq_zero_or_pos j with h0 | h0
      · rw [h0] at h3; omega
      · exact h0
    · have e : c.B * j = c.S * t + (c.B * j - c.S * t) := by omega
      rw [e, Nat.mul_add_mod]
      exact (Nat.mod_le _ _).trans_lt (by omega)

/-- **C89** (lost work): if the script dies while it encodes and no checkpoint was torn, the next start continues less
than `save_interval` plus one batch of samples before that point.  Missing from the full statement: torn checkpoints and
more than 999999 samples, see `C89_violated_names`. -/
theorem C89_lost_work_partial (hC : C.Lossless) (K : ℕ) (hB : 0 < c.B) (hS : 0 < c.S) (hK : c.IsTotal K)
    (hfit : c.B * K < 1000000) (w w' : World M D) (h : Reachable c C w) (m : M) (k : ℕ) (hp : w.proc = .encoding m k)
    (hst : Start c ⟨w.dir, .idle⟩ w') (hi : ∀ j, w.dir.enc j ≠ some .torn) :
    ∃ m' k', w'.proc = .encoding m' k' ∧ c.B * k < c.B * k' + c.S + c.B := by
  have hk := kept_reachable hC hK h
  have hs := sound_reachable hC h
  have hpr := hk.proc m k hp
  cases hst with
  | fresh m' _ hn =>
    refine ⟨m', 0, rfl, ?_⟩
    by_contra hc
    obtain ⟨j, h1, h2, h3, _⟩ := last_save c k hB hS (by omega)
    have := hpr.2 j h1 h2 h3
    simp only at hn
    rw [hn j] at this; cases this
  | load n n' m' _ h1 h2 =>
    have e := (hs.enc _ _ _ h2).1
    subst e
    refine ⟨m', n', rfl, ?_⟩
    by_cases hc : c.S + c.B ≤ c.B * k
    · obtain ⟨j, h3, h4, h5, h6⟩ := last_save c k hB hS hc
      have h7 := h1.2 j (hpr.2 j h3 h4 h5)
      rw [encKey_eq hfit (h4.trans hpr.1), encKey_eq hfit (hk.le _ h1.1)] at h7
      have : c.B * j ≤ c.B * n' := by exact_mod_cast h7
      omega
    · omega
  | bad j _ _ hb => exact absurd hb (hi j)

/-- The decode checkpoints after the place of the process exist. -/
structure KeptDec (c : Cfg D) (K : ℕ) (w : World M D) : Prop where
  dec : ∀ k, (w.dir.dec k).isSome → ∀ j, k < j → j < K → c.SaveDec j → (w.dir.dec j).isSome
  loading : ∀ m k, w.proc = .loading m k → K ≤ k
  proc : ∀ m k, w.proc = .decoding m k → ∀ j, k ≤ j → j < K → c.SaveDec j → (w.dir.dec j).isSome
  batch : ∀ m k d, w.proc = .savingBatch m k d → ∀ j, k < j → j < K → c.SaveDec j → (w.dir.dec j).isSome
  saving : ∀ m k, w.proc = .savingDec m k → ∀ j, k < j → j < K → c.SaveDec j → (w.dir.dec j).isSome

theorem keptDec_put {K : ℕ} {f : Dir M D} {m : M} {k : ℕ} (h : KeptDec c K ⟨f, .savingDec m k⟩) (a : File (M × ℕ))
    (p : Proc M D) (hp : p = .idle ∨ p = .decoding m k) :
    KeptDec c K (⟨{ f with dec := put f.dec k a }, p⟩ : World M D) := by
  have h2 := h.saving m k rfl
  have hold : ∀ j, (f.dec j).isSome → (put f.dec k a j).isSome := by
    intro j hj
    unfold put; split_ifs <;> simp [hj]
  refine ⟨?_, ?_, ?_, ?_, ?_⟩
  · intro i hi j hj hjK hs
    apply hold
    rcases put_some hi with rfl | h'
    · exact h2 j hj hjK hs
    · exact h.dec i h' j hj hjK hs
  · rcases hp with rfl | rfl <;> simp
  · intro m' k' e j hj hjK hs
    rcases hp with rfl | rfl
    · cases e
    · simp only [Proc.decoding.injEq] at e
      obtain ⟨_, rfl⟩ := e
      rcases Nat.eq_or_lt_of_le hj with rfl | hlt
      · simp [put_same]
      · exact hold j (h2 j hlt hjK hs)
  · rcases hp with rfl | rfl <;> simp
  · rcases hp with rfl | rfl <;> simp

theorem keptDec_step {K : ℕ} (hK : c.IsTotal K) {w w' : World M D} (hsound : Sound C c.data w) (h : KeptDec c K w)
    (hs : Step c C w w') : KeptDec c K w' := by
  cases hs with
  | start hst => cases hst <;> exact ⟨h.dec, by simp, by simp, by simp, by simp⟩
  | run hr =>
    cases hr with
    | encoded f m k h1 h2 =>
      refine ⟨h.dec, ?_, by simp, by simp, by simp⟩
      intro m' k' e
      simp only [Proc.loading.injEq] at e
      obtain ⟨_, rfl⟩ := e
      by_contra hlt
      exact h1 ((hK k).2 (by omega))
    | loadNone f m k h1 =>
      refine ⟨h.dec, by simp, ?_, by simp, by simp⟩
      intro m' k' e j hj hjK
      simp only [Proc.decoding.injEq] at e
      obtain ⟨_, rfl⟩ := e
      have := h.loading m k rfl
      omega
    | loadDec f m m' k i n h1 h2 =>
      refine ⟨h.dec, by simp, ?_, by simp, by simp⟩
      intro m1 k' e j hj hjK hs
      simp only [Proc.decoding.injEq] at e
      obtain ⟨_, rfl⟩ := e
      have e := (hsound.dec _ _ _ h2).1
      subst e
      rcases Nat.eq_or_lt_of_le hj with rfl | hlt
      · exact h1.1
      · exact h.dec n h1.1 j hlt hjK hs
    | decode f m m' k d h1 =>
      refine ⟨h.dec, by simp, by simp, ?_, by simp⟩
      intro m1 k' d' e j hj hjK hs
      simp only [Proc.savingBatch.injEq] at e
      obtain ⟨_, rfl, _⟩ := e
      exact h.proc m (k + 1) rfl j hj hjK hs
    | savedBatch f m k d h1 =>
      refine ⟨h.dec, by simp, ?_, by simp, by simp⟩
      intro m1 k' e j hj hjK hs
      simp only [Proc.decoding.injEq] at e
      obtain ⟨_, rfl⟩ := e
      rcases Nat.eq_or_lt_of_le hj with rfl | hlt
      · exact absurd hs h1
      · exact h.batch m k d rfl j hlt hjK hs
    | savedBatchSave f m k d h1 =>
      refine ⟨h.dec, by simp, by simp, by simp, ?_⟩
      intro m1 k' e j hj hjK hs
      simp only [Proc.savingDec.injEq] at e
      obtain ⟨_, rfl⟩ := e
      exact h.batch m k d rfl j hj hjK hs
    | savedDec f m k => exact keptDec_put h _ _ (.inr rfl)
    | _ => exact ⟨h.dec, by simp, by simp, by simp, by simp⟩
  | crash hc =>
    cases hc with
    | tornDec f m k => exact keptDec_put h _ _ (.inl rfl)
    | _ => exact ⟨h.dec, by simp, by simp, by simp, by simp⟩

theorem keptDec_reachable (hC : C.Lossless) {K : ℕ} (hK : c.IsTotal K) {w : World M D} (h : Reachable c C w) :
    KeptDec c K w := by
  unfold Reachable at h
  induction h with
  | refl => exact ⟨by simp [emptyDir], by simp, by simp, by simp, by simp⟩
  | tail hr hs ih => exact keptDec_step hK (sound_reachable hC hr) ih hs

theorem next_save (c : Cfg D) (k : ℕ) (hB : 0 < c.B) (hS : 0 < c.S) :
    ∃ j, k ≤ j ∧ c.SaveDec j ∧ c.B * j < c.B * k + c.S + c.B := by
  set t := (c.B * k + c.S - 1) / c.S with ht
  have h1 : c.S * t + (c.B * k + c.S - 1) % c.S = c.B * k + c.S - 1 := Nat.div_add_mod _ _
  have h2 := Nat.mod_lt (c.B * k + c.S - 1) hS
  set j := (c.S * t + c.B - 1) / c.B with hj
  have h3 : c.B * j + (c.S * t + c.B - 1) % c.B = c.S * t + c.B - 1 := Nat.div_add_mod _ _
  have h4 := Nat.mod_lt (c.S * t + c.B - 1) hB
  refine ⟨j, Nat.le_of_mul_le_mul_left (by omega : c.B * k ≤ c.B * j) hB, ?_, by omega⟩
  unfold Cfg.SaveDec
  have e : c.B * j = c.S * t + (c.B * j - c.S * t) := by omega
  rw [e, Nat.mul_add_mod]
  exact (Nat.mod_le _ _).trans_lt (by omega)

/-- **C89** (lost work of the check): if the script dies while it decodes for the check and no checkpoint was torn, a later
run that has found the same decode checkpoints decodes less than `save_interval` plus one batch of samples again.  Missing
from the full statement: torn checkpoints and more than 99999 samples. -/
theorem C89_lost_check_partial (hC : C.Lossless) (K : ℕ) (hB : 0 < c.B) (hS : 0 < c.S) (hK : c.IsTotal K)
    (hfit : c.B * K < 100000) (w w1 w2 : World M D) (h : Reachable c C w) (m m1 : M) (k k1 : ℕ)
    (hp : w.proc = .decoding m k) (h1 : Reachable c C w1) (hp1 : w1.proc = .loading m1 k1)
    (hdir : w1.dir.dec = w.dir.dec) (hi : ∀ j, w1.dir.dec j ≠ some .torn) (hr : Run c C w1 w2) :
    ∃ m2 k2, w2.proc = .decoding m2 k2 ∧ c.B * k2 < c.B * k + c.S + c.B := by
  have hk := (keptDec_reachable hC hK h).proc m k hp
  have hpl := placed_reachable hC hB hK hfit h1
  have hs1 := sound_reachable hC h1
  obtain ⟨j, hj1, hj2, hj3⟩ := next_save c k hB hS
  have hplace := hpl.proc
  rw [hp1] at hplace
  obtain ⟨f, p⟩ := w1
  dsimp only at hp1 hdir hi
  subst hp1
  have hsome : j < K → (f.dec j).isSome := fun hlt => by
    rw [hdir]
    exact hk j hj1 hlt hj2
  have hKj : K ≤ j → c.B * K ≤ c.B * j := fun h' => Nat.mul_le_mul_left _ h'
  cases hr with
  | loadNone _ _ _ hn =>
    refine ⟨m1, k1, rfl, ?_⟩
    have e : k1 = K := hplace.1
    rcases Nat.lt_or_ge j K with hlt | hge
    · have := hsome hlt
      rw [hn j] at this
      cases this
    · have := hKj hge
      rw [e]
      omega
  | loadDec _ _ m' _ i n hn hf =>
    have e := (hs1.dec _ _ _ hf).1
    subst e
    refine ⟨m', n, rfl, ?_⟩
    rcases Nat.lt_or_ge j K with hlt | hge
    · have h7 := newest_dec hB hfit (fun k hk => (hpl.dec k hk).1) hn j (hsome hlt)
      have := Nat.mul_le_mul_left c.B h7
      omega
    · have := hKj hge
      have h8 := Nat.mul_le_mul_left c.B (hpl.dec n hn.1).1.le
      omega
  | loadBad _ _ _ i _ hb => exact absurd hb (hi i)

/-! ### Concrete configurations -/

/-- The codec of the examples: a stack. -/
def stack : Coder (List ℕ) ℕ where
  push m d := some (d :: m)
  pop
    | [] => none
    | d :: m => some (m, d)

theorem stack_lossless : stack.Lossless := by
  intro m d m' h
  simp only [stack, Option.some.injEq] at h
  rw [← h]; rfl

/-- The configuration of the project for CIFAR-10: 10000 samples in batches of 250, a checkpoint every 5000 samples. -/
def cifar : Cfg ℕ := ⟨250, 5000, 10000, 1, true, id⟩

theorem cifar_total : cifar.IsTotal 40 := by
  intro k
  simp only [Cfg.More, cifar]
  omega

/-- The hypotheses of the theorems are met, and completion can be reached. -/
example : ∃ w, Reachable cifar stack w ∧ w.proc = .done ∧
    ∀ j, w.dir.batch j = if j < 40 then some (.full j) else none := by
  have h := (C89_progress_partial (c := cifar) stack_lossless (fun _ _ => rfl) 40 (by decide) cifar_total (by decide)
    ⟨emptyDir, .idle⟩ .refl (.inl rfl) ⟨by simp [emptyDir], by simp [emptyDir]⟩)
  obtain ⟨w', hw⟩ := h.1
  have key : ∀ w, Inevitably (Run cifar stack) IsDone w → Reachable cifar stack w →
      ∃ w, Reachable cifar stack w ∧ w.proc = .done := by
    intro w hi
    induction hi with
    | now hd => exact fun hr => ⟨_, hr, hd⟩
    | later he _ ih =>
      intro hr
      obtain ⟨w2, h2⟩ := he
      exact ih w2 h2 (hr.tail (.run h2))
  obtain ⟨w, hr, hd⟩ := key w' (h.2 w' hw) (.single (.start hw))
  exact ⟨w, hr, hd, (C89_done_partial stack_lossless 40 (by decide) cifar_total (by decide) w hr hd).2 rfl⟩

/-! ### What goes wrong -/

/-- A torn encode checkpoint is the last thing that happens. -/
structure TornLast (w : World M D) : Prop where
  torn : ∀ k, w.dir.enc k = some .torn → (w.proc = .idle ∨ w.proc = .failed) ∧ ∀ j, (w.dir.enc j).isSome → j ≤ k
  proc : ∀ m k, w.proc = .encoding m k → ∀ j, (w.dir.enc j).isSome → j ≤ k
  saving : ∀ m k, w.proc = .savingEnc m k → ∀ j, (w.dir.enc j).isSome → j < k

theorem newest_enc {K : ℕ} (hB : 0 < c.B) (hfit : c.B * K < 1000000) {f : Dir M D}
    (henc : ∀ k, (f.enc k).isSome → k ≤ K) {k : ℕ} (h : Newest c.encKey f.enc k) (j : ℕ) (hj : (f.enc j).isSome) :
    j ≤ k := by
  have h1 := h.2 j hj
  rw [encKey_eq hfit (henc j hj), encKey_eq hfit (henc k h.1)] at h1
  exact Nat.le_of_mul_le_mul_left (by exact_mod_cast h1) hB

theorem tornLast_step {K : ℕ} (hB : 0 < c.B) (hfit : c.B * K < 1000000) {w w' : World M D} (hsound : Sound C c.data w)
    (hk : Kept c K w) (h : TornLast w) (hs : Step c C w w') : TornLast w' := by
  -- while the process runs, no checkpoint is torn
  have hrun : w.proc ≠ .idle → w.proc ≠ .failed → ∀ k, w.dir.enc k ≠ some .torn := by
    intro h1 h2 k hk
    rcases (h.torn k hk).1 with h3 | h3
    · exact h1 h3
    · exact h2 h3
  cases hs with
  | start hst =>
    cases hst with
    | fresh m _ hn =>
      refine ⟨fun k hk => (by simp only at hk; rw [hn] at hk; cases hk), fun m k _ j hj => ?_, by simp⟩
      simp only at hj; rw [hn] at hj; cases hj
    | load k n m _ h1 h2 =>
      have e := (hsound.enc _ _ _ h2).1
      subst e
      have hmax := newest_enc hB hfit hk.le h1
      refine ⟨fun j hj => ?_, ?_, by simp⟩
      · exfalso
        have h3 := (h.torn j hj).2 n h1.1
        have h4 := hmax j (by simp only at hj; rw [hj]; rfl)
        have : n = j := by omega
        subst this
        simp only at hj
        rw [h2] at hj; cases hj
      · rintro m' k' e
        simp only [Proc.encoding.injEq] at e
        obtain ⟨_, rfl⟩ := e
        exact hmax
    | bad k _ _ _ => exact ⟨fun j hj => ⟨.inr rfl, (h.torn j hj).2⟩, by simp, by simp⟩
  | run hr =>
    cases hr with
    | encode f m m' k h1 h2 h3 =>
      refine ⟨fun j hj => absurd hj (hrun (by simp) (by simp) j), ?_, by simp⟩
      rintro m1 k' e j hj
      simp only [Proc.encoding.injEq] at e
      obtain ⟨_, rfl⟩ := e
      exact (h.proc m k rfl j hj).trans (Nat.le_succ _)
    | encodeSave f m m' k h1 h2 h3 =>
      refine ⟨fun j hj => absurd hj (hrun (by simp) (by simp) j), by simp, ?_⟩
      rintro m1 k' e j hj
      simp only [Proc.savingEnc.injEq] at e
      obtain ⟨_, rfl⟩ := e
      exact Nat.lt_succ_of_le (h.proc m k rfl j hj)
    | savedEnc f m k =>
      refine ⟨fun j hj => ?_, ?_, by simp⟩
      · exfalso
        dsimp only [put] at hj
        split_ifs at hj
        · cases hj
        · exact hrun (by simp) (by simp) j hj
      · rintro m1 k' e j hj
        simp only [Proc.encoding.injEq] at e
        obtain ⟨_, rfl⟩ := e
        rcases put_some hj with rfl | h'
        · exact le_rfl
        · exact (h.saving m k rfl j h').le
    | _ => exact ⟨fun j hj => absurd hj (hrun (by simp) (by simp) j), by simp, by simp⟩
  | crash hc =>
    cases hc with
    | lost => exact ⟨fun j hj => ⟨.inl rfl, (h.torn j hj).2⟩, by simp, by simp⟩
    | tornEnc f m k =>
      refine ⟨fun j hj => ⟨.inl rfl, fun i hi => ?_⟩, by simp, by simp⟩
      have hjk : j = k := by
        dsimp only [put] at hj
        split_ifs at hj with e
        · exact e
        · exact absurd hj (hrun (by simp) (by simp) j)
      subst hjk
      rcases put_some hi with rfl | h'
      · exact le_rfl
      · exact (h.saving m j rfl i h').le
    | _ => exact ⟨fun j hj => absurd hj (hrun (by simp) (by simp) j), by simp, by simp⟩

theorem tornLast_reachable (hC : C.Lossless) {K : ℕ} (hB : 0 < c.B) (hK : c.IsTotal K) (hfit : c.B * K < 1000000)
    {w : World M D} (h : Reachable c C w) : TornLast w := by
  unfold Reachable at h
  induction h with
  | refl => exact ⟨by simp [emptyDir], by simp, by simp⟩
  | tail hr hs ih => exact tornLast_step hB hfit (sound_reachable hC hr) (kept_reachable hC hK hr) ih hs

/-- Once an encode checkpoint is torn, nothing changes any more and the script never completes again, however often it
is started. -/
theorem C89_torn_blocks (hC : C.Lossless) (K : ℕ) (hB : 0 < c.B) (hK : c.IsTotal K) (hfit : c.B * K < 1000000)
    (w : World M D) (h : Reachable c C w) (k : ℕ) (ht : w.dir.enc k = some .torn) (w2 : World M D)
    (h2 : Relation.ReflTransGen (Step c C) w w2) : w2.dir = w.dir ∧ w2.proc ≠ .done := by
  have key : w2.dir = w.dir ∧ (w2.proc = .idle ∨ w2.proc = .failed) := by
    induction h2 with
    | refl => exact ⟨rfl, ((tornLast_reachable hC hB hK hfit h).torn k ht).1⟩
    | @tail a b h1 hs ih =>
      obtain ⟨e, hp⟩ := ih
      have hr : Reachable c C a := Relation.ReflTransGen.trans h h1
      have htl := tornLast_reachable hC hB hK hfit hr
      have hta : a.dir.enc k = some .torn := by rw [e]; exact ht
      have hka := kept_reachable hC hK hr
      have hmaxk := (htl.torn k hta).2
      have huniq : ∀ n, Newest c.encKey a.dir.enc n → n = k := fun n hn => by
        have h3 := newest_enc hB hfit hka.le hn k (by rw [hta]; rfl)
        have h4 := hmaxk n hn.1
        omega
      cases hs with
      | start hst =>
        cases hst with
        | fresh m _ hn => rw [hn] at hta; cases hta
        | load n n' m _ h3 h4 => rw [huniq n h3, hta] at h4; cases h4
        | bad n _ _ _ => exact ⟨e, .inr rfl⟩
      | run hr => cases hr <;> simp at hp
      | crash hc =>
        cases hc with
        | lost => exact ⟨e, .inl rfl⟩
        | _ => simp at hp
  refine ⟨key.1, ?_⟩
  rcases key.2 with h | h <;> simp [h]

theorem reach_encoding (htot : ∀ m d, (C.push m d).isSome) [Nonempty M] {K : ℕ} (hK : c.IsTotal K) (k : ℕ) (hk : k ≤ K) :
    ∃ f m, Reachable c C ⟨f, .encoding m k⟩ ∧ ∀ j, f.enc j ≠ some .torn := by
  induction k with
  | zero => exact ⟨emptyDir, Classical.arbitrary M, .single (.start (.fresh _ _ (.inl rfl) (fun _ => rfl))),
      by simp [emptyDir]⟩
  | succ k ih =>
    obtain ⟨f, m, hr, hi⟩ := ih (by omega)
    have hm : c.More k := (hK k).2 (by omega)
    obtain ⟨m1, hm1⟩ := Option.isSome_iff_exists.1 (htot m (c.data k))
    by_cases hs : c.SaveEnc (k + 1)
    · refine ⟨_, _, (hr.tail (.run (.encodeSave f m m1 k hm hm1 hs))).tail (.run (.savedEnc f m1 (k + 1))), ?_⟩
      intro j
      dsimp only [put]
      split_ifs
      · simp
      · exact hi j
    · exact ⟨_, _, hr.tail (.run (.encode f m m1 k hm hm1 hs)), hi⟩

/-- **C89 is violated** by a crash inside `np.savez`: in every configuration there is a history after which the script
can never complete again, whatever happens. -/
theorem C89_violated (hC : C.Lossless) (htot : ∀ m d, (C.push m d).isSome) [Nonempty M] (K : ℕ) (hB : 0 < c.B)
    (hK : c.IsTotal K) (h0 : 0 < K) (hfit : c.B * K < 1000000) :
    ∃ w : World M D, Reachable c C w ∧ w.proc = .idle ∧
      ∀ w2, Relation.ReflTransGen (Step c C) w w2 → w2.dir = w.dir ∧ w2.proc ≠ .done := by
  obtain ⟨f, m, hr, -⟩ := reach_encoding (C := C) htot hK (K - 1) (by omega)
  have hm : c.More (K - 1) := (hK _).2 (by omega)
  obtain ⟨m1, hm1⟩ := Option.isSome_iff_exists.1 (htot m (c.data (K - 1)))
  have hs : c.SaveEnc (K - 1 + 1) := by
    left
    have : ¬ c.More (K - 1 + 1) := fun h => by have := (hK _).1 h; omega
    unfold Cfg.More at this; omega
  have hr2 : Reachable c C ⟨{ f with enc := put f.enc (K - 1 + 1) .torn }, .idle⟩ :=
    (hr.tail (.run (.encodeSave f m m1 _ hm hm1 hs))).tail (.crash (.tornEnc f m1 _))
  exact ⟨_, hr2, rfl, fun w2 h2 => C89_torn_blocks hC K hB hK hfit _ hr2 (K - 1 + 1) (put_same _ _ _) w2 h2⟩

example : ∃ w : World (List ℕ) ℕ, Reachable cifar stack w ∧ w.proc = .idle ∧
    ∀ w2, Relation.ReflTransGen (Step cifar stack) w w2 → w2.dir = w.dir ∧ w2.proc ≠ .done :=
  C89_violated stack_lossless (fun _ _ => rfl) 40 (by decide) cifar_total (by decide) (by decide)

/-- Two million samples, with checkpoints every 250000 samples. -/
def large : Cfg ℕ := ⟨250000, 250000, 2000000, 1, false, id⟩

theorem large_total : large.IsTotal 8 := by
  intro k
  simp only [Cfg.More, large]
  omega

/-- **C89 is violated** by file names with more than six digits: all samples are encoded and the last checkpoint is in
the directory, but every further start goes back to an older one. -/
theorem C89_violated_names : ∃ w : World (List ℕ) ℕ, Reachable large stack w ∧ w.proc = .done ∧
    (∃ m, w.dir.enc 8 = some (.full (m, 8))) ∧
    ∀ w', Start large w w' → ∃ m k, w'.proc = .encoding m k ∧ k < 8 := by
  obtain ⟨f, m, hr, hi⟩ := reach_encoding (c := large) (C := stack) (fun _ _ => rfl) large_total 8 le_rfl
  have hs := sound_reachable stack_lossless hr
  have hk := kept_reachable stack_lossless large_total hr
  have hsome : ∀ j, 0 < j → j ≤ 8 → (f.enc j).isSome := by
    intro j h1 h2
    refine (hk.proc m 8 rfl).2 j h1 h2 (.inr ?_)
    simp [large]
  refine ⟨⟨f, .done⟩, hr.tail (.run (.finish f m 8 (by simp [Cfg.More, large]) rfl)), rfl, ?_, ?_⟩
  · have h8 := hsome 8 (by norm_num) le_rfl
    rcases hf : f.enc 8 with _ | a | ⟨m', n⟩
    · rw [hf] at h8; cases h8
    · exact absurd hf (hi 8)
    · exact ⟨m', by rw [← (hs.enc _ _ _ hf).1]⟩
  · intro w' hst
    cases hst with
    | fresh m' _ hn => exact ⟨m', 0, rfl, by norm_num⟩
    | load n n' m' _ h1 h2 =>
      have e := (hs.enc _ _ _ h2).1
      subst e
      refine ⟨m', n', rfl, ?_⟩
      have h3 := hk.le n' h1.1
      have h4 := h1.2 3 (hsome 3 (by norm_num) (by norm_num))
      rcases Nat.eq_or_lt_of_le h3 with rfl | h5
      · exfalso
        simp [Cfg.encKey, resumeStep_eq, large] at h4
      · exact h5
    | bad j _ _ hb => exact absurd hb (hi j)

/-! ### Running again with more samples -/

theorem stale_encoding {c2 : Cfg D} {K2 : ℕ} (htot : ∀ m d, (C.push m d).isSome) (hK2 : c2.IsTotal K2)
    (hcheck : c2.check = true) (b : ℕ → Option (File D)) (hb : Passes c2 b) (dc : ℕ → Option (File (M × ℕ))) (j0 : ℕ)
    (hdc : (dc j0).isSome) (hd0 : ∀ j, Newest c2.decKey dc j → ∃ m, dc j = some (.full (m, 0)))
    (hex : ∃ j, Newest c2.decKey dc j) :
    ∀ (n k : ℕ) (m : M) (f : Dir M D), K2 - k = n → k ≤ K2 → f.batch = b → f.dec = dc →
      (k = K2 → ∃ m, f.enc K2 = some (.full (m, K2))) →
      Inevitably (Run c2 C) (fun v => v.proc = .done ∧ v.dir.batch = b ∧ ∃ m, v.dir.enc K2 = some (.full (m, K2)))
        ⟨f, .encoding m k⟩ := by
  intro n
  induction n with
  | zero =>
    intro k m f hn hk hfb hfd hfe
    have hk' : k = K2 := by omega
    have hm : ¬ c2.More k := fun h => by have := (hK2 k).1 h; omega
    refine .later ⟨_, .encoded f m k hm hcheck⟩ fun w' hr => ?_
    cases hr with
    | encode _ _ _ _ h => exact absurd h hm
    | encodeSave _ _ _ _ h => exact absurd h hm
    | encodeFail _ _ _ h => exact absurd h hm
    | finish _ _ _ _ h => rw [hcheck] at h; cases h
    | encoded _ _ _ _ _ =>
      obtain ⟨j, hj⟩ := hex
      obtain ⟨m1, hm1⟩ := hd0 j hj
      refine .later ⟨_, .loadDec f m m1 k j 0 (by rw [hfd]; exact hj) (by rw [hfd]; exact hm1)⟩ fun w2 hr2 => ?_
      cases hr2 with
      | loadNone _ _ _ h =>
        have := h j0
        rw [hfd] at this; rw [this] at hdc; cases hdc
      | loadBad _ _ _ i h1 h2 =>
        rw [hfd] at h1 h2
        obtain ⟨m2, hm2⟩ := hd0 i h1
        rw [hm2] at h2; cases h2
      | loadDec _ _ m2 _ i n' h1 h2 =>
        rw [hfd] at h1 h2
        obtain ⟨m3, hm3⟩ := hd0 i h1
        rw [hm3] at h2
        simp only [Option.some.injEq, File.full.injEq, Prod.mk.injEq] at h2
        obtain ⟨rfl, rfl⟩ := h2
        refine .later ⟨_, .decoded f m3⟩ fun w3 hr3 => ?_
        cases hr3 with
        | decoded _ _ =>
          have hp : Passes c2 f.batch := by rw [hfb]; exact hb
          refine .later ⟨_, .passed f hp⟩ fun w4 hr4 => ?_
          cases hr4 with
          | passed _ _ => exact .now ⟨rfl, hfb, hfe hk'⟩
          | mismatch _ h => exact absurd hp h
  | succ n ih =>
    intro k m f hn hk hfb hfd hfe
    have hm : c2.More k := (hK2 k).2 (by omega)
    obtain ⟨m1, hm1⟩ := Option.isSome_iff_exists.1 (htot m (c2.data k))
    refine .later ?_ fun w' hr => ?_
    · by_cases hs : c2.SaveEnc (k + 1)
      · exact ⟨_, .encodeSave f m m1 k hm hm1 hs⟩
      · exact ⟨_, .encode f m m1 k hm hm1 hs⟩
    · cases hr with
      | finish _ _ _ h => exact absurd hm h
      | encoded _ _ _ h => exact absurd hm h
      | encodeFail _ _ _ _ h => rw [hm1] at h; cases h
      | encode _ _ _ _ _ _ hs =>
        refine ih _ _ _ (by omega) (by omega) hfb hfd fun h => ?_
        exfalso
        apply hs
        left
        have : ¬ c2.More (k + 1) := fun h' => by have := (hK2 _).1 h'; omega
        unfold Cfg.More at this; omega
      | encodeSave _ _ m' _ _ _ _ =>
        refine .later ⟨_, .savedEnc f m' (k + 1)⟩ fun w2 hr2 => ?_
        cases hr2 with
        | savedEnc _ _ _ =>
          refine ih _ _ _ (by omega) (by omega) hfb hfd fun h => ?_
          exact ⟨m', by dsimp only; rw [← h]; exact put_same _ _ _⟩

/-- **C90 is violated**: after a completed run with `check`, asking for more samples in the same directory encodes the new
batches and reports completion, but none of them is decoded and compared: the decode checkpoint of the first run, with
nothing left to decode, is loaded in place of the new message. -/
theorem C90_violated (hC : C.Lossless) (htot : ∀ m d, (C.push m d).isSome) (c1 c2 : Cfg D) (K1 K2 : ℕ)
    (hsame : c2.B = c1.B ∧ c2.data = c1.data) (hB : 0 < c1.B) (hK1 : c1.IsTotal K1) (hK2 : c2.IsTotal K2)
    (h1 : 0 < K1) (h12 : K1 < K2) (hfit : c1.B * K1 < 100000) (hc1 : c1.check = true) (hc2 : c2.check = true)
    (w : World M D) (hr : Reachable c1 C w) (hd : w.proc = .done) (hi : Intact w.dir) (w' : World M D)
    (hst : Start c2 w w') :
    Inevitably (Run c2 C) (fun v => v.proc = .done ∧ (∃ m, v.dir.enc K2 = some (.full (m, K2))) ∧
      ∀ j, K1 ≤ j → v.dir.batch j = none) w' := by
  have hs := sound_reachable hC hr
  have hp := placed_reachable hC hB hK1 hfit hr
  have hpp := hp.proc
  rw [hd] at hpp
  have hkey : c2.decKey = c1.decKey := by funext k; unfold Cfg.decKey; rw [hsame.1]
  have hpass : Passes c2 w.dir.batch := by
    have := passes_of hs hp ((hpp.1 hc1).1)
    unfold Passes at this ⊢
    rw [hsame.2]; exact this
  have hd0 : (w.dir.dec 0).isSome := (hpp.1 hc1).2 h1
  have hnew : ∀ j, Newest c2.decKey w.dir.dec j → ∃ m, w.dir.dec j = some (.full (m, 0)) := by
    intro j hj
    rw [hkey] at hj
    have h0 := newest_dec hB hfit (fun k hk => (hp.dec k hk).1) hj 0 hd0
    have : j = 0 := by omega
    subst this
    rcases hf : w.dir.dec 0 with _ | a | ⟨m, n⟩
    · rw [hf] at hd0; cases hd0
    · exact absurd hf (hi.2 0)
    · exact ⟨m, by rw [(hs.dec _ _ _ hf).1]⟩
  have hex : ∃ j, Newest c2.decKey w.dir.dec j := by
    rcases exists_newest c2.decKey w.dir.dec K1 (fun k hk => (hp.dec k hk).1) with h | h
    · rw [h 0] at hd0; cases hd0
    · exact h
  have hbatch : ∀ j, K1 ≤ j → w.dir.batch j = none := by
    intro j hj
    by_contra hne
    have := hp.batch j (Option.isSome_iff_ne_none.2 hne)
    omega
  have fin : ∀ v, Inevitably (Run c2 C) (fun v => v.proc = .done ∧ v.dir.batch = w.dir.batch ∧
      ∃ m, v.dir.enc K2 = some (.full (m, K2))) v →
      Inevitably (Run c2 C) (fun v => v.proc = .done ∧ (∃ m, v.dir.enc K2 = some (.full (m, K2))) ∧
        ∀ j, K1 ≤ j → v.dir.batch j = none) v := by
    intro v hv
    induction hv with
    | now h => exact .now ⟨h.1, h.2.2, by rw [h.2.1]; exact hbatch⟩
    | later he _ ih => exact .later he ih
  apply fin
  cases hst with
  | fresh m _ _ =>
    exact stale_encoding htot hK2 hc2 _ hpass w.dir.dec 0 hd0 hnew hex _ 0 m w.dir rfl (by omega) rfl rfl
      (fun h => by omega)
  | load n n' m _ h3 h4 =>
    have e := (hs.enc _ _ _ h4).1
    subst e
    have := (hp.enc n' h3.1).2
    exact stale_encoding htot hK2 hc2 _ hpass w.dir.dec 0 hd0 hnew hex _ n' m w.dir rfl (by omega) rfl rfl
      (fun h => by omega)
  | bad j _ _ hb => exact absurd hb (hi.1 j)

/-- **C90**, for runs that ask for the same number of samples each time: completion with `check` means that exactly the
encoded batches have been decoded and equal the original ones.  Missing: other numbers of samples, see `C90_violated`. -/
theorem C90_partial (hC : C.Lossless) (K : ℕ) (hB : 0 < c.B) (hK : c.IsTotal K) (hfit : c.B * K < 100000)
    (hc : c.check = true) (w : World M D) (h : Reachable c C w) (hd : w.proc = .done) (j : ℕ) :
    w.dir.batch j = if j < K then some (.full (c.data j)) else none :=
  (C89_done_partial hC K hB hK hfit w h hd).2 hc j

/-- The hypotheses of `C90_violated` are met: 10000 samples first, then 20000. -/
example : ∃ w : World (List ℕ) ℕ, Reachable cifar stack w ∧ w.proc = .done ∧ Intact w.dir ∧
    ∃ w', Start { cifar with N := 20000 } w w' := by
  have key : ∀ w, Inevitably (Run cifar stack) IsDone w → Reachable cifar stack w → Ready cifar stack 40 w →
      ∃ w, Reachable cifar stack w ∧ w.proc = .done ∧ Ready cifar stack 40 w := by
    intro w hi
    induction hi with
    | now hd => exact fun hr h => ⟨_, hr, hd, h⟩
    | later he _ ih =>
      intro hr h
      obtain ⟨w2, h2⟩ := he
      exact ih w2 h2 (hr.tail (.run h2)) (ready_run stack_lossless (by decide) cifar_total (by decide) h h2)
  have h0 : Start cifar (⟨emptyDir, .idle⟩ : World (List ℕ) ℕ) ⟨emptyDir, .encoding [] 0⟩ :=
    .fresh _ _ (.inl rfl) (fun _ => rfl)
  have hr : Ready cifar stack 40 ⟨emptyDir, .encoding [] 0⟩ :=
    ⟨sound_step stack_lossless (sound_empty _ _) (.start h0),
      placed_step (by decide) cifar_total (by decide) (sound_empty stack cifar.data) (placed_empty _ _) (.start h0),
      ⟨by simp [emptyDir], by simp [emptyDir]⟩⟩
  obtain ⟨w, h1, h2, h3⟩ := key _ (encoding_ends stack_lossless (fun _ _ => rfl) (by decide) cifar_total (by decide) _ _ _ _
    rfl hr) (.single (.start h0)) hr
  refine ⟨w, h1, h2, h3.intact, ?_⟩
  rcases exists_newest (Cfg.encKey { cifar with N := 20000 }) w.dir.enc 41
    (fun k hk => Nat.lt_succ_of_le (h3.placed.enc k hk).2) with hn | ⟨k, hk⟩
  · exact ⟨_, .fresh w [] (.inr (.inr h2)) hn⟩
  · rcases hf : w.dir.enc k with _ | a | ⟨m', n⟩
    · have := hk.1; rw [hf] at this; cases this
    · exact absurd hf (h3.intact.1 k)
    · exact ⟨_, .load w k n m' (.inr (.inr h2)) hk hf⟩

end Verif.Script.Resume
