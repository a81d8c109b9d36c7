import Verif.Rans.Refine

/-
Byte serialisation of the coder state.
-/
namespace Verif.Rans

theorem or_low (a b k : Nat) (h : b < 2 ^ k) : a * 2 ^ k ||| b = a * 2 ^ k + b := by
  rw [← Nat.shiftLeft_eq, Nat.shiftLeft_add_eq_or_of_lt h]

theorem joinHead_eq {a b c d : Nat} (ha : a < 256) (hb : b < 256) (hc : c < 256) (hd : d < 256) :
    joinHead a b c d = a * 16777216 + b * 65536 + c * 256 + d := by
  have e1 : u32 (a * 2 ^ 24) = a * 2 ^ 24 := by rw [u32, Nat.mod_eq_of_lt]; norm_num; omega
  have e2 : u32 (b * 2 ^ 16) = b * 2 ^ 16 := by rw [u32, Nat.mod_eq_of_lt]; norm_num; omega
  have e3 : u32 (c * 2 ^ 8) = c * 2 ^ 8 := by rw [u32, Nat.mod_eq_of_lt]; norm_num; omega
  rw [joinHead, e1, e2, e3, or_low a _ 24 (by norm_num; omega),
    show a * 2 ^ 24 + b * 2 ^ 16 = (a * 256 + b) * 2 ^ 16 by ring,
    or_low _ _ 16 (by norm_num; omega),
    show (a * 256 + b) * 2 ^ 16 + c * 2 ^ 8 = ((a * 256 + b) * 256 + c) * 2 ^ 8 by ring,
    or_low _ _ 8 (by norm_num; omega)]
  norm_num; ring

theorem planes_join {h : Nat} (hh : h < 2 ^ 32) :
    joinHead (u8 (h / 2 ^ 24)) (u8 (h / 2 ^ 16)) (u8 (h / 2 ^ 8)) (u8 h) = h := by
  rw [joinHead_eq (by simp only [u8]; omega) (by simp only [u8]; omega) (by simp only [u8]; omega)
    (by simp only [u8]; omega)]
  simp only [u8]
  norm_num at hh ⊢
  omega

theorem join_planes {a b c d : Nat} (ha : a < 256) (hb : b < 256) (hc : c < 256) (hd : d < 256) :
    u8 (joinHead a b c d / 2 ^ 24) = a ∧ u8 (joinHead a b c d / 2 ^ 16) = b ∧
    u8 (joinHead a b c d / 2 ^ 8) = c ∧ u8 (joinHead a b c d) = d := by
  rw [joinHead_eq ha hb hc hd]
  simp only [u8]
  norm_num
  omega

/-- The four byte planes of the heads. -/
def planes (H : List Nat) : List Nat :=
  H.map (fun h => u8 (h / 2 ^ 24)) ++ H.map (fun h => u8 (h / 2 ^ 16)) ++
     H.map (fun h => u8 (h / 2 ^ 8)) ++ H.map u8

theorem planes_length (H : List Nat) : (planes H).length = H.length * 4 := by
  simp [planes]; omega

theorem toArray_eq (m : Msg) :
    toArray m = (planes m.head ++ m.data, (m.head.length : Int) * 4 + m.limit) := by
  simp [toArray, planes]

/-- Splitting an array of four planes and a tail. -/
theorem split4 {A B C D T : List Nat} {n : Nat} (hA : A.length = n) (hB : B.length = n)
    (hC : C.length = n) (hD : D.length = n) :
    (A ++ B ++ C ++ D ++ T).take n = A ∧ ((A ++ B ++ C ++ D ++ T).drop n).take n = B ∧
    ((A ++ B ++ C ++ D ++ T).drop (2 * n)).take n = C ∧
    ((A ++ B ++ C ++ D ++ T).drop (3 * n)).take n = D ∧
    (A ++ B ++ C ++ D ++ T).drop (4 * n) = T := by
  have r1 : A ++ B ++ C ++ D ++ T = A ++ (B ++ (C ++ (D ++ T))) := by simp
  have r2 : A ++ B ++ C ++ D ++ T = (A ++ B) ++ (C ++ (D ++ T)) := by simp
  have r3 : A ++ B ++ C ++ D ++ T = (A ++ B ++ C) ++ (D ++ T) := by simp
  refine ⟨?_, ?_, ?_, ?_, ?_⟩
  · rw [r1, ← hA, List.take_left]
  · rw [r1, List.drop_left' hA, ← hB, List.take_left]
  · rw [r2, List.drop_left' (by simp; omega), ← hC, List.take_left]
  · rw [r3, List.drop_left' (by simp; omega), ← hD, List.take_left]
  · rw [List.drop_left' (by simp; omega)]

theorem join_map : ∀ (H : List Nat), (∀ h ∈ H, h < 2 ^ 32) →
    List.zipWith (fun ab cd => joinHead ab.1 ab.2 cd.1 cd.2)
      ((H.map (fun h => u8 (h / 2 ^ 24))).zip (H.map (fun h => u8 (h / 2 ^ 16))))
      ((H.map (fun h => u8 (h / 2 ^ 8))).zip (H.map u8)) = H := by
  intro H
  induction H with
  | nil => intro _; rfl
  | cons h H ih =>
    intro hh
    simp only [List.map_cons, List.zip_cons_cons, List.zipWith_cons_cons,
      ih (fun x hx => hh x (by simp [hx])), planes_join (hh h (by simp))]

theorem ofArray_planes {H T : List Nat} (hH : ∀ h ∈ H, h < 2 ^ 32) {n : Nat} (hn : H.length = n)
    (lim : Int) : ofArray (planes H ++ T) n lim = ⟨H, lim, T⟩ := by
  obtain ⟨s1, s2, s3, s4, s5⟩ := split4 (A := H.map (fun h => u8 (h / 2 ^ 24)))
    (B := H.map (fun h => u8 (h / 2 ^ 16))) (C := H.map (fun h => u8 (h / 2 ^ 8)))
    (D := H.map u8) (T := T) (n := n) (by simp [hn]) (by simp [hn]) (by simp [hn]) (by simp [hn])
  simp only [ofArray, planes, s1, s2, s3, s4, s5, join_map H hH]

theorem map_join : ∀ (A B C D : List Nat), A.length = B.length → A.length = C.length →
    A.length = D.length → (∀ x ∈ A, x < 256) → (∀ x ∈ B, x < 256) → (∀ x ∈ C, x < 256) →
    (∀ x ∈ D, x < 256) →
    planes (List.zipWith (fun ab cd => joinHead ab.1 ab.2 cd.1 cd.2) (A.zip B) (C.zip D)) =
      A ++ B ++ C ++ D := by
  intro A B C D hB hC hD bA bB bC bD
  suffices h : ∀ (A B C D : List Nat), A.length = B.length → A.length = C.length →
      A.length = D.length → (∀ x ∈ A, x < 256) → (∀ x ∈ B, x < 256) → (∀ x ∈ C, x < 256) →
      (∀ x ∈ D, x < 256) →
      (List.zipWith (fun ab cd => joinHead ab.1 ab.2 cd.1 cd.2) (A.zip B) (C.zip D)).map
        (fun h => u8 (h / 2 ^ 24)) = A ∧
      (List.zipWith (fun ab cd => joinHead ab.1 ab.2 cd.1 cd.2) (A.zip B) (C.zip D)).map
        (fun h => u8 (h / 2 ^ 16)) = B ∧
      (List.zipWith (fun ab cd => joinHead ab.1 ab.2 cd.1 cd.2) (A.zip B) (C.zip D)).map
        (fun h => u8 (h / 2 ^ 8)) = C ∧
      (List.zipWith (fun ab cd => joinHead ab.1 ab.2 cd.1 cd.2) (A.zip B) (C.zip D)).map u8 = D by
    obtain ⟨h1, h2, h3, h4⟩ := h A B C D hB hC hD bA bB bC bD
    rw [planes, h1, h2, h3, h4]
  clear hB hC hD bA bB bC bD A B C D
  intro A
  induction A with
  | nil =>
    intro B C D hB hC hD _ _ _ _
    have : B = [] := by simpa using hB.symm
    have : C = [] := by simpa using hC.symm
    have : D = [] := by simpa using hD.symm
    subst_vars
    simp
  | cons a A ih =>
    intro B C D hB hC hD bA bB bC bD
    cases B with
    | nil => simp at hB
    | cons b B =>
    cases C with
    | nil => simp at hC
    | cons c C =>
    cases D with
    | nil => simp at hD
    | cons d D =>
      obtain ⟨h1, h2, h3, h4⟩ := ih B C D (by simpa using hB) (by simpa using hC) (by simpa using hD)
        (fun x hx => bA x (by simp [hx])) (fun x hx => bB x (by simp [hx]))
        (fun x hx => bC x (by simp [hx])) (fun x hx => bD x (by simp [hx]))
      obtain ⟨j1, j2, j3, j4⟩ := join_planes (bA a (by simp)) (bB b (by simp)) (bC c (by simp))
        (bD d (by simp))
      simp only [List.zip_cons_cons, List.zipWith_cons_cons, List.map_cons, h1, h2, h3, h4, j1, j2,
        j3, j4, and_self]

/-- Every byte array with room for `n` heads is the serialisation of some heads
and tail. -/
theorem array_split {arr : List Nat} {n : Nat} (hl : 4 * n ≤ arr.length)
    (hb : ∀ x ∈ arr, x < 256) (lim : Int) :
    (ofArray arr n lim).head.length = n ∧ arr = planes (ofArray arr n lim).head ++ arr.drop (4 * n) ∧
    (ofArray arr n lim).data = arr.drop (4 * n) ∧ (ofArray arr n lim).limit = lim := by
  have hlen : ∀ k, k ≤ 3 → ((arr.drop (k * n)).take n).length = n := by
    intro k hk
    rw [List.length_take, List.length_drop]
    have : k * n + n ≤ 4 * n := by
      have : k * n ≤ 3 * n := Nat.mul_le_mul_right n hk
      omega
    omega
  have l0 := hlen 0 (by omega)
  have l1 := hlen 1 (by omega)
  have l2 := hlen 2 (by omega)
  have l3 := hlen 3 (by omega)
  simp only [Nat.zero_mul, Nat.one_mul, List.drop_zero] at l0 l1
  refine ⟨?_, ?_, rfl, rfl⟩
  · simp only [ofArray, List.length_zipWith, List.length_zip, l0, l1, l2, l3, Nat.min_self]
  · simp only [ofArray]
    rw [map_join _ _ _ _ (by rw [l0, l1]) (by rw [l0, l2]) (by rw [l0, l3])
      (fun x hx => hb x (List.mem_of_mem_take hx))
      (fun x hx => hb x (List.mem_of_mem_drop (List.mem_of_mem_take hx)))
      (fun x hx => hb x (List.mem_of_mem_drop (List.mem_of_mem_take hx)))
      (fun x hx => hb x (List.mem_of_mem_drop (List.mem_of_mem_take hx)))]
    have e3 : (arr.drop (3 * n)).take n ++ arr.drop (4 * n) = arr.drop (3 * n) := by
      rw [show 4 * n = 3 * n + n by omega, ← List.drop_drop, List.take_append_drop]
    have e2 : (arr.drop (2 * n)).take n ++ arr.drop (3 * n) = arr.drop (2 * n) := by
      rw [show 3 * n = 2 * n + n by omega, ← List.drop_drop, List.take_append_drop]
    have e1 : (arr.drop n).take n ++ arr.drop (2 * n) = arr.drop n := by
      rw [show 2 * n = n + n by omega, ← List.drop_drop, List.take_append_drop]
    simp only [List.append_assoc]
    rw [e3, e2, e1, List.take_append_drop]

theorem insertZeros_spec {H T : List Nat} {n cap : Nat} (hn : H.length = n) (hc : T.length ≤ cap) :
    insertZeros (planes H ++ T) n cap =
      .ok (planes H ++ (List.replicate (cap - T.length) 0 ++ T), (cap : Int) - T.length + 1) := by
  have hp : (planes H).length = n * 4 := by rw [planes_length, hn]
  simp only [insertZeros]
  rw [List.drop_left' hp, List.take_left' hp, if_neg (by omega), List.append_assoc]

theorem trim_spec {H T : List Nat} {n : Nat} (hn : H.length = n) (k : Nat) :
    trim (planes H ++ T) n ((n : Int) * 4 + k + 1) = planes H ++ T.drop k := by
  have hp : (planes H).length = n * 4 := by rw [planes_length, hn]
  simp only [trim]
  rw [List.take_left' hp, show ((n : Int) * 4 + k + 1 - 1).toNat = (planes H).length + k by
    rw [hp]; omega, List.drop_append]
  simp

end Verif.Rans
