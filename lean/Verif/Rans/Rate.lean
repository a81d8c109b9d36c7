import Mathlib.Analysis.SpecialFunctions.Log.Base
import Verif.Rans.Empty

/-
The rate of the rANS coder: how much a push can enlarge the state.
-/
namespace Verif.Rans

/-- Bytes written by one lane in a push. -/
def laneBytes (p f h : Nat) : Nat :=
  let h1 := laneStep (48 - p) f h
  let h2 := laneStep (40 - p) f h1
  (if f ≤ h / 2 ^ (48 - p) then 1 else 0) + (if f ≤ h1 / 2 ^ (40 - p) then 1 else 0) +
    (if f ≤ h2 / 2 ^ (32 - p) then 1 else 0)

def laneOut (p f h : Nat) : Nat :=
  laneStep (32 - p) f (laneStep (40 - p) f (laneStep (48 - p) f h))

theorem laneStep_mul (sh f h : Nat) :
    laneStep sh f h * 256 ^ (if f ≤ h / 2 ^ sh then 1 else 0) ≤ h := by
  simp only [laneStep]; split
  · rw [pow_one]; exact Nat.div_mul_le_self _ _
  · simp

theorem lane_shrink (p f h : Nat) : laneOut p f h * 256 ^ laneBytes p f h ≤ h := by
  simp only [laneOut, laneBytes]
  rw [pow_add, pow_add]
  have h1 := laneStep_mul (48 - p) f h
  have h2 := laneStep_mul (40 - p) f (laneStep (48 - p) f h)
  have h3 := laneStep_mul (32 - p) f (laneStep (40 - p) f (laneStep (48 - p) f h))
  calc _ = laneStep (32 - p) f (laneStep (40 - p) f (laneStep (48 - p) f h)) *
        256 ^ (if f ≤ laneStep (40 - p) f (laneStep (48 - p) f h) / 2 ^ (32 - p) then 1 else 0) *
        256 ^ (if f ≤ laneStep (48 - p) f h / 2 ^ (40 - p) then 1 else 0) *
        256 ^ (if f ≤ h / 2 ^ (48 - p) then 1 else 0) := by ring
    _ ≤ _ := le_trans (Nat.mul_le_mul_right _ (le_trans (Nat.mul_le_mul_right _ h3) h2)) h1

/-- One lane: the new head, times `256` per byte written, against the old head. -/
theorem lane_rate {p : Nat} (hp : p ≤ 24) {s : Slot} (hs : SlotOk p s) {h : Nat} (hh : HeadOk h) :
    (laneOut p s.2 h / s.2 * 2 ^ p + laneOut p s.2 h % s.2 + s.1) * 256 ^ laneBytes p s.2 h
      * s.2 * 2 ^ 24 ≤ h * 2 ^ p * (2 ^ 24 + 2 ^ p) := by
  obtain ⟨_, _, _, _, hlow⟩ := lane_push hp hs hh
  have hlow : s.2 * 2 ^ (32 - p) ≤ laneOut p s.2 h * 256 := hlow
  have hsh := lane_shrink p s.2 h
  generalize laneOut p s.2 h = y at *
  generalize laneBytes p s.2 h = k at *
  have hy : s.2 * 2 ^ (24 - p) ≤ y := by
    have : s.2 * 2 ^ (32 - p) = s.2 * 2 ^ (24 - p) * 256 := by
      rw [show 32 - p = (24 - p) + 8 by omega, pow_add]; ring
    omega
  have hy2 : s.2 * 2 ^ 24 ≤ y * 2 ^ p := by
    calc s.2 * 2 ^ 24 = s.2 * 2 ^ (24 - p) * 2 ^ p := by
          rw [mul_assoc, ← pow_add, show 24 - p + p = 24 by omega]
      _ ≤ _ := Nat.mul_le_mul_right _ hy
  have hx : (y / s.2 * 2 ^ p + y % s.2 + s.1) * s.2 ≤ (y + s.2) * 2 ^ p := by
    have h1 : y % s.2 + s.1 ≤ 2 ^ p := by
      have := Nat.mod_lt y hs.pos; have := hs.fits; omega
    calc (y / s.2 * 2 ^ p + y % s.2 + s.1) * s.2 ≤ (y / s.2 * 2 ^ p + 2 ^ p) * s.2 :=
          Nat.mul_le_mul_right _ (by omega)
      _ = (y / s.2 * s.2 + s.2) * 2 ^ p := by ring
      _ ≤ _ := Nat.mul_le_mul_right _ (Nat.add_le_add_right (Nat.div_mul_le_self _ _) _)
  clear hlow hy hh
  generalize 2 ^ 24 = C at hy2 ⊢
  generalize 256 ^ k = K at hsh ⊢
  calc _ = (y / s.2 * 2 ^ p + y % s.2 + s.1) * s.2 * (K * C) := by ring
    _ ≤ (y + s.2) * 2 ^ p * (K * C) := Nat.mul_le_mul_right _ hx
    _ = (y * C + s.2 * C) * (K * 2 ^ p) := by ring
    _ ≤ (y * C + y * 2 ^ p) * (K * 2 ^ p) := Nat.mul_le_mul_right _ (by omega)
    _ = y * K * (2 ^ p * (C + 2 ^ p)) := by ring
    _ ≤ h * (2 ^ p * (C + 2 ^ p)) := Nat.mul_le_mul_right _ hsh
    _ = _ := by ring

/-- The coder's state as one number: the product of the heads, times `256` per byte. -/
def size (s : St) : Nat := s.heads.prod * 256 ^ s.stack.length

def bytesOf (p : Nat) : List Nat → List Slot → Nat
  | h :: H, s :: S => laneBytes p s.2 h + bytesOf p H S
  | _, _ => 0

theorem countTrue_condIdx_cons (sh h f : Nat) (H F : List Nat) :
    countTrue (condIdx sh (h :: H) (f :: F)) =
      (if f ≤ h / 2 ^ sh then 1 else 0) + countTrue (condIdx sh H F) := by
  simp only [condIdx, List.zipWith_cons_cons, countTrue_cons]
  congr 1
  by_cases hc : f ≤ h / 2 ^ sh <;> simp [hc]

theorem bytes_eq (p : Nat) : ∀ (H : List Nat) (S : List Slot), H.length = S.length →
    let F := S.map Prod.snd
    let H1 := shr8 (condIdx (48 - p) H F) H
    let H2 := shr8 (condIdx (40 - p) H1 F) H1
    countTrue (condIdx (48 - p) H F) + countTrue (condIdx (40 - p) H1 F) +
      countTrue (condIdx (32 - p) H2 F) = bytesOf p H S := by
  intro H
  induction H with
  | nil => intro S hl; cases S <;> simp_all [condIdx, shr8, countTrue, bytesOf]
  | cons h H ih =>
    intro S hl
    cases S with
    | nil => simp at hl
    | cons s S =>
      have hl' : H.length = S.length := by simpa using hl
      have := ih S hl'
      intro F H1 H2
      have e1 : H1 = laneStep (48 - p) s.2 h :: shr8 (condIdx (48 - p) H (S.map Prod.snd)) H := by
        show shr8 (condIdx (48 - p) (h :: H) (s.2 :: S.map Prod.snd)) (h :: H) = _
        rw [shr8_condIdx _ _ _ (by simp [hl']), shr8_condIdx _ _ _ (by simp [hl'])]; rfl
      have hl1 : (shr8 (condIdx (48 - p) H (S.map Prod.snd)) H).length = (S.map Prod.snd).length := by
        rw [shr8_length _ _ (condIdx_length (by simp [hl']))]; simp [hl']
      have e2 : H2 = laneStep (40 - p) s.2 (laneStep (48 - p) s.2 h) ::
          shr8 (condIdx (40 - p) (shr8 (condIdx (48 - p) H (S.map Prod.snd)) H) (S.map Prod.snd))
            (shr8 (condIdx (48 - p) H (S.map Prod.snd)) H) := by
        show shr8 (condIdx (40 - p) H1 (s.2 :: S.map Prod.snd)) H1 = _
        rw [e1, shr8_condIdx _ _ _ (by simp only [List.length_cons]; omega),
          shr8_condIdx (40 - p) (shr8 _ H) _ hl1]; rfl
      rw [e2, e1]
      show countTrue (condIdx _ (h :: H) (s.2 :: S.map Prod.snd)) +
        countTrue (condIdx _ _ (s.2 :: S.map Prod.snd)) +
        countTrue (condIdx _ _ (s.2 :: S.map Prod.snd)) = _
      rw [countTrue_condIdx_cons, countTrue_condIdx_cons, countTrue_condIdx_cons]
      simp only [bytesOf, laneBytes]
      simp only at this
      omega

theorem aPush_result {cap p : Nat} {S : List Slot} {s s' : St}
    (hl : s.heads.length = S.length) (h : aPush cap p S s = some s') :
    s'.stack.length = s.stack.length + bytesOf p s.heads S ∧
    s'.heads = List.zipWith (fun h s => laneOut p s.2 h / s.2 * 2 ^ p + laneOut p s.2 h % s.2 + s.1) s.heads S := by
  have hf : s.heads.length = (S.map Prod.snd).length := by rw [hl, List.length_map]
  have step : ∀ {sh : Nat} {fs : List Nat} {s s' : St}, s.heads.length = fs.length →
      aPushStep cap sh fs s = some s' → s'.heads = shr8 (condIdx sh s.heads fs) s.heads ∧
        s'.stack.length = s.stack.length + countTrue (condIdx sh s.heads fs) := by
    intro sh fs s s' hl h
    simp only [aPushStep] at h
    split at h
    · obtain rfl := Option.some.inj h
      refine ⟨rfl, ?_⟩
      rw [List.length_append, outs_length _ _ (condIdx_length hl)]; omega
    · cases h
  simp only [aPush] at h
  rcases h1 : aPushStep cap (48 - p) (S.map Prod.snd) s with _ | s1
  · simp [h1] at h
  rcases h2 : aPushStep cap (40 - p) (S.map Prod.snd) s1 with _ | s2
  · simp [h1, h2] at h
  rcases h3 : aPushStep cap (32 - p) (S.map Prod.snd) s2 with _ | s3
  · simp [h1, h2, h3] at h
  simp only [h1, h2, h3, Option.bind_some, Option.map_some, Option.some.injEq] at h
  subst h
  have l1 := aPushStep_len hf h1
  have l2 := aPushStep_len l1 h2
  have l3 := aPushStep_len l2 h3
  obtain ⟨a1, b1⟩ := step hf h1
  obtain ⟨a2, b2⟩ := step l1 h2
  obtain ⟨a3, b3⟩ := step l2 h3
  have hb := bytes_eq p s.heads S hl
  simp only at hb
  rw [← a1, ← a2] at hb
  refine ⟨by simp only; omega, ?_⟩
  show aPushHeads p s3.heads S = _
  rw [a3, a2, a1, shr8_condIdx _ _ _ (by rw [← a1, ← a2]; exact l2),
    shr8_condIdx _ _ _ (by rw [← a1]; exact l1), shr8_condIdx _ _ _ hf]
  simp only [aPushHeads]
  clear * - hl
  generalize s.heads = H at *
  induction H generalizing S with
  | nil => cases S <;> rfl
  | cons h H ih =>
    cases S with
    | nil => rfl
    | cons s S =>
      simp only [List.map_cons, List.zipWith_cons_cons]
      rw [ih (by simpa using hl)]
      rfl

theorem rate_comb {x k f C h q W Xs ks M Hp Qn : Nat} (h1 : x * k * f * C ≤ h * q * W)
    (h2 : Xs * ks * M ≤ Hp * Qn) :
    x * Xs * (k * ks) * (f * C * M) ≤ h * Hp * (Qn * (q * W)) := by
  refine le_trans (le_of_eq ?_) (le_trans (Nat.mul_le_mul h1 h2) (le_of_eq ?_)) <;> ring

/-- One push, all lanes: `∏ f · 2^24` times the new size is at most
`∏ 2^p (2^24 + 2^p)` times the old one. -/
theorem push_rate {cap p : Nat} (hp : p ≤ 24) {S : List Slot} {s s' : St}
    (hl : LanesOk p s.heads S) (h : aPush cap p S s = some s') :
    size s' * (S.map fun x => x.2 * 2 ^ 24).prod ≤ size s * (2 ^ p * (2 ^ 24 + 2 ^ p)) ^ S.length := by
  obtain ⟨e1, e2⟩ := aPush_result hl.heads.1 h
  simp only [size]
  rw [e1, e2, pow_add]
  clear h e1 e2 s'
  have key : (List.zipWith (fun h s => laneOut p s.2 h / s.2 * 2 ^ p + laneOut p s.2 h % s.2 + s.1) s.heads S).prod
      * 256 ^ bytesOf p s.heads S * (S.map fun x => x.2 * 2 ^ 24).prod ≤
      s.heads.prod * (2 ^ p * (2 ^ 24 + 2 ^ p)) ^ S.length := by
    generalize s.heads = H at *
    induction hl with
    | nil => simp [bytesOf]
    | @cons h t H S hd _ ih =>
      have hr := lane_rate hp hd.2 hd.1
      simp only [List.zipWith_cons_cons, List.prod_cons, List.map_cons, bytesOf, List.length_cons]
      rw [pow_add, pow_succ]
      exact rate_comb hr ih
  calc _ = (List.zipWith (fun h s => laneOut p s.2 h / s.2 * 2 ^ p + laneOut p s.2 h % s.2 + s.1) s.heads S).prod
      * 256 ^ bytesOf p s.heads S * (S.map fun x => x.2 * 2 ^ 24).prod * 256 ^ s.stack.length := by ring
    _ ≤ _ := Nat.mul_le_mul_right _ key
    _ = _ := by ring

theorem prod_pos_of {l : List Nat} (h : ∀ x ∈ l, 1 ≤ x) : 1 ≤ l.prod := by
  induction l with
  | nil => simp
  | cons a l ih =>
    rw [List.prod_cons]
    exact Nat.mul_pos (h a (by simp)) (ih (fun x hx => h x (by simp [hx])))

/-- Information content, in bits, of a vector of slots at precision `p`. -/
noncomputable def infoBits (p : Nat) (S : List Slot) : ℝ :=
  (S.map fun x => Real.logb 2 ((2 : ℝ) ^ p / x.2)).sum

theorem logb_prod_map (S : List Slot) (g : Slot → Nat) (h : ∀ x ∈ S, 1 ≤ g x) :
    Real.logb 2 (((S.map g).prod : Nat) : ℝ) = (S.map fun x => Real.logb 2 (g x : ℝ)).sum := by
  induction S with
  | nil => simp
  | cons a S ih =>
    have h1 : ((g a : Nat) : ℝ) ≠ 0 := by
      have := h a (by simp); positivity
    have h2 : (((S.map g).prod : Nat) : ℝ) ≠ 0 := by
      have : 1 ≤ (S.map g).prod := prod_pos_of (by
        intro x hx; obtain ⟨y, hy, rfl⟩ := List.mem_map.mp hx; exact h y (by simp [hy]))
      positivity
    rw [List.map_cons, List.prod_cons, List.map_cons, List.sum_cons, Nat.cast_mul,
      Real.logb_mul h1 h2, ih (fun x hx => h x (by simp [hx]))]

theorem size_pos {p : Nat} {s : St} {S : List Slot} (h : LanesOk p s.heads S) : 1 ≤ size s := by
  have : 1 ≤ s.heads.prod := prod_pos_of (fun x hx => by
    have := (h.heads.2 x hx).1; norm_num at this; omega)
  simp only [size]
  exact Nat.mul_pos this (by positivity)

theorem info_sum (p C : Nat) (hC : 1 ≤ C) : ∀ (S : List Slot), (∀ x ∈ S, 1 ≤ x.2) →
    infoBits p S + S.length * Real.logb 2 (1 + 2 ^ p / (C : ℝ)) =
      S.length * Real.logb 2 ((2 ^ p * (C + 2 ^ p) : Nat) : ℝ)
        - (S.map fun x => Real.logb 2 ((x.2 * C : Nat) : ℝ)).sum := by
  intro S
  have hC' : (0 : ℝ) < C := by exact_mod_cast hC
  induction S with
  | nil => intro _; simp [infoBits]
  | cons a S ih =>
    intro hs
    have := ih (fun x hx => hs x (by simp [hx]))
    have ha : (0 : ℝ) < a.2 := by exact_mod_cast hs a (by simp)
    simp only [infoBits, List.map_cons, List.sum_cons, List.length_cons] at this ⊢
    push_cast at this ⊢
    have e1 : Real.logb 2 ((2 : ℝ) ^ p / a.2) = Real.logb 2 ((2 : ℝ) ^ p) - Real.logb 2 a.2 :=
      Real.logb_div (by positivity) (by positivity)
    have e2 : Real.logb 2 ((a.2 : ℝ) * C) = Real.logb 2 a.2 + Real.logb 2 (C : ℝ) :=
      Real.logb_mul (by positivity) (by positivity)
    have e3 : Real.logb 2 ((2 : ℝ) ^ p * (C + 2 ^ p)) =
        Real.logb 2 ((2 : ℝ) ^ p) + (Real.logb 2 (C : ℝ) + Real.logb 2 (1 + (2 : ℝ) ^ p / C)) := by
      rw [← Real.logb_mul (by positivity) (by positivity), ← Real.logb_mul (by positivity) (by positivity)]
      congr 1
      field_simp
    rw [e3] at this ⊢
    rw [e1, e2]
    linarith

/-- In bits: a push adds at most the information content of its symbols and
`log2 (1 + 2^(p-24))` per lane. -/
theorem push_rate_bits {cap p : Nat} (hp : p ≤ 24) {S : List Slot} {s s' : St}
    (hl : LanesOk p s.heads S) (h : aPush cap p S s = some s') :
    Real.logb 2 (size s') ≤ Real.logb 2 (size s) + infoBits p S +
      S.length * Real.logb 2 (1 + 2 ^ p / 2 ^ 24) := by
  have hr := push_rate hp hl h
  obtain ⟨_, hin⟩ := aPop_aPush hp hl h
  have pos1 := size_pos hl
  have pos2 := size_pos hin.lanesOk
  have hcast : ((2 : ℝ) ^ 24) = ((2 ^ 24 : Nat) : ℝ) := by norm_num
  rw [hcast]
  have hC : 1 ≤ 2 ^ 24 := by norm_num
  generalize 2 ^ 24 = C at hr hC ⊢
  have hf : ∀ x ∈ S, 1 ≤ x.2 * C := fun x hx => Nat.mul_pos (hl.slots x hx).pos hC
  have pos3 : 1 ≤ (S.map fun x => x.2 * C).prod := prod_pos_of (by
    intro x hx; obtain ⟨y, hy, rfl⟩ := List.mem_map.mp hx; exact hf y hy)
  have hreal : (size s' : ℝ) * ((S.map fun x => x.2 * C).prod : Nat) ≤
      size s * ((2 ^ p * (C + 2 ^ p)) ^ S.length : Nat) := by exact_mod_cast hr
  have r1 : (0 : ℝ) < size s := by exact_mod_cast pos1
  have r2 : (0 : ℝ) < size s' := by exact_mod_cast pos2
  have r3 : (0 : ℝ) < ((S.map fun x => x.2 * C).prod : Nat) := by exact_mod_cast pos3
  have hlog := Real.logb_le_logb_of_le (b := 2) (by norm_num) (by positivity) hreal
  rw [Real.logb_mul (ne_of_gt r2) (ne_of_gt r3),
    Real.logb_mul (ne_of_gt r1) (by positivity), logb_prod_map S _ hf, Nat.cast_pow,
    Real.logb_pow] at hlog
  have hsum := info_sum p C hC S (fun x hx => (hl.slots x hx).pos)
  linarith

end Verif.Rans
