import Verif.Script.Respace
import Mathlib.Tactic.Positivity
import Mathlib.Tactic.FieldSimp
import Mathlib.Data.List.FinRange
import Mathlib.Tactic.IntervalCases

/-!
C88: choosing the diffusion steps.
-/

namespace Verif.Script.Respace

/-! ### Specification -/

/-- Where section `i` of `c` begins, if `total` steps are divided as evenly as possible, longer sections first. -/
def sectionStart (total c i : ℕ) : ℕ := i * (total / c) + min i (total % c)

/-- The length of section `i`. -/
def sectionSize (total c i : ℕ) : ℕ := sectionStart total c (i + 1) - sectionStart total c i

/-- The sections divide the range of all steps evenly. -/
theorem sections_even (total c : ℕ) (hc : 0 < c) : sectionStart total c 0 = 0 ∧ sectionStart total c c = total ∧
    ∀ i, sectionSize total c i = total / c + (if i < total % c then 1 else 0) ∧
      sectionStart total c (i + 1) = sectionStart total c i + sectionSize total c i := by
  have h1 := Nat.div_add_mod total c
  have h2 := Nat.mod_lt total hc
  refine ⟨by simp [sectionStart], ?_, fun i => ?_⟩
  · unfold sectionStart
    rw [min_eq_right h2.le]; exact h1
  · have e : sectionStart total c (i + 1) = sectionStart total c i + (total / c + (if i < total % c then 1 else 0)) := by
      unfold sectionStart
      rw [Nat.add_mul, one_mul]
      split_ifs with h <;> omega
    unfold sectionSize
    rw [e, Nat.add_sub_cancel_left]
    exact ⟨rfl, rfl⟩

/-! ### One section -/

variable {err : ℕ → ℝ} {start size count : ℕ}

theorem stride_mul (h2 : 2 ≤ count) : ((count : ℝ) - 1) * fracStride size count = (size : ℝ) - 1 := by
  unfold fracStride
  rw [if_neg (by omega)]
  have : ((count : ℝ) - 1) ≠ 0 := by
    have : (2 : ℝ) ≤ count := by exact_mod_cast h2
    linarith
  field_simp

/-- Position `j`, rounded. -/
noncomputable def pos (err : ℕ → ℝ) (size count j : ℕ) : ℤ := roundHalfEven (j * fracStride size count + err j)

theorem pos_zero (herr : ∀ j, |err j| < 1 / 2) : pos err size count 0 = 0 := by
  unfold pos
  refine roundHalfEven_of_near _ 0 ?_
  simpa using herr 0

theorem pos_lt (hfit : count ≤ size) {total : ℕ} (ht : size ≤ total) (herr : ∀ j, 2 * total * |err j| < 1) (j : ℕ)
    (hj : j + 1 < count) : pos err size count j < pos err size count (j + 1) := by
  have h2 : 2 ≤ count := by omega
  have hs := stride_mul (size := size) h2
  set s := fracStride size count with hsdef
  have hc : (2 : ℝ) ≤ count := by exact_mod_cast h2
  have hcs : (count : ℝ) ≤ size := by exact_mod_cast hfit
  have hst : (size : ℝ) ≤ total := by exact_mod_cast ht
  rcases eq_or_lt_of_le hfit with he | hlt
  · -- stride one
    have s1 : s = 1 := by
      rw [he] at hs
      have : (size : ℝ) - 1 ≠ 0 := by rw [← he]; linarith
      exact mul_left_cancel₀ this (by linarith)
    have e : ∀ k : ℕ, pos err size count k = k := by
      intro k
      unfold pos
      refine roundHalfEven_of_near _ _ ?_
      rw [← hsdef, s1]
      have h3 := herr k
      have h4 : (4 : ℝ) * |err k| ≤ 2 * total * |err k| := by
        have := abs_nonneg (err k)
        nlinarith
      have : |(k : ℝ) * 1 + err k - ((k : ℤ) : ℝ)| = |err k| := by congr 1; push_cast; ring
      rw [this]; linarith [abs_nonneg (err k)]
    rw [e, e]; push_cast; omega
  · have hlt' : (count : ℝ) + 1 ≤ size := by exact_mod_cast hlt
    have hs1 : 1 / ((count : ℝ) - 1) ≤ s - 1 := by
      rw [div_le_iff₀ (by linarith)]
      nlinarith
    have hb : ∀ k, |err k| * (2 * ((count : ℝ) - 1)) < 1 := by
      intro k
      have := herr k
      have := abs_nonneg (err k)
      nlinarith
    have hb' : ∀ k, |err k| < 1 / (2 * ((count : ℝ) - 1)) := by
      intro k
      rw [lt_div_iff₀ (by linarith)]
      exact hb k
    have hhalf : 1 / ((count : ℝ) - 1) = 1 / (2 * ((count : ℝ) - 1)) + 1 / (2 * ((count : ℝ) - 1)) := by
      have : ((count : ℝ) - 1) ≠ 0 := by linarith
      field_simp; norm_num
    have a1 := roundHalfEven_near (j * s + err j)
    have a2 := roundHalfEven_near (((j + 1 : ℕ) : ℝ) * s + err (j + 1))
    rw [abs_le] at a1 a2
    have b1 := hb' j
    have b2 := hb' (j + 1)
    rw [abs_lt] at b1 b2
    have : ((pos err size count j : ℤ) : ℝ) < pos err size count (j + 1) := by
      unfold pos
      rw [← hsdef]
      push_cast at a2 ⊢
      nlinarith
    exact_mod_cast this

theorem pos_last (hfit : count ≤ size) (h2 : 2 ≤ count) (herr : ∀ j, |err j| < 1 / 2) :
    pos err size count (count - 1) = (size : ℤ) - 1 := by
  unfold pos
  refine roundHalfEven_of_near _ _ ?_
  rw [Nat.cast_sub (by omega), Nat.cast_one, stride_mul h2]
  push_cast
  have : (size : ℝ) - 1 + err (count - 1) - (size - 1) = err (count - 1) := by ring
  rw [this]
  exact herr _

theorem pos_mono (hfit : count ≤ size) {total : ℕ} (ht : size ≤ total) (herr : ∀ j, 2 * total * |err j| < 1) (i j : ℕ)
    (hij : i < j) (hj : j < count) : pos err size count i < pos err size count j := by
  induction j with
  | zero => omega
  | succ j ih =>
    have h := pos_lt hfit ht herr j hj
    rcases Nat.lt_succ_iff_lt_or_eq.1 hij with h' | h'
    · exact (ih h' (by omega)).trans h
    · rw [h']; exact h

theorem err_half {total : ℕ} (h : 0 < total) (herr : ∀ j, 2 * total * |err j| < 1) (j : ℕ) : |err j| < 1 / 2 := by
  have h1 := herr j
  have h2 : (1 : ℝ) ≤ total := by exact_mod_cast h
  have := abs_nonneg (err j)
  nlinarith

theorem pos_range (hfit : count ≤ size) {total : ℕ} (ht : size ≤ total) (herr : ∀ j, 2 * total * |err j| < 1) (j : ℕ)
    (hj : j < count) : 0 ≤ pos err size count j ∧ pos err size count j < size := by
  have hh := err_half (by omega : 0 < total) herr
  constructor
  · rcases Nat.eq_zero_or_pos j with h | h
    · rw [h, pos_zero hh]
    · have := pos_mono hfit ht herr 0 j h hj
      rw [pos_zero hh] at this
      exact this.le
  · rcases Nat.lt_or_ge count 2 with h | h
    · have : j = 0 := by omega
      rw [this, pos_zero hh]; omega
    · have hl := pos_last hfit h hh
      rcases Nat.lt_or_ge j (count - 1) with h' | h'
      · have := pos_mono hfit ht herr j (count - 1) h' (by omega)
        omega
      · have : j = count - 1 := by omega
        rw [this]; omega

theorem takenSteps_eq : takenSteps err start size count =
    (List.range count).map fun j => start + (pos err size count j).toNat := rfl

theorem taken_sorted (hfit : count ≤ size) {total : ℕ} (ht : size ≤ total) (herr : ∀ j, 2 * total * |err j| < 1) :
    (takenSteps err start size count).Pairwise (· < ·) := by
  rw [takenSteps_eq, List.pairwise_map]
  have h : (List.range count).Pairwise fun a b => a < b ∧ b < count := by
    rw [List.pairwise_iff_getElem]
    intro i j hi hj hij
    simp only [List.getElem_range]
    rw [List.length_range] at hj
    exact ⟨hij, hj⟩
  refine h.imp ?_
  rintro a b ⟨hab, hb⟩
  have h1 := pos_mono hfit ht herr a b hab hb
  have h2 := (pos_range hfit ht herr a (by omega)).1
  omega

theorem taken_mem (hfit : count ≤ size) {total : ℕ} (ht : size ≤ total) (herr : ∀ j, 2 * total * |err j| < 1) (x : ℕ)
    (hx : x ∈ takenSteps err start size count) : start ≤ x ∧ x < start + size := by
  rw [takenSteps_eq, List.mem_map] at hx
  obtain ⟨j, hj, rfl⟩ := hx
  rw [List.mem_range] at hj
  have := pos_range hfit ht herr j hj
  omega

theorem taken_length : (takenSteps err start size count).length = count := by simp [takenSteps]

theorem taken_first (h : 0 < count) (herr : ∀ j, |err j| < 1 / 2) : start ∈ takenSteps err start size count := by
  rw [takenSteps_eq, List.mem_map]
  exact ⟨0, List.mem_range.2 h, by rw [pos_zero herr]; simp⟩

theorem taken_last (hfit : count ≤ size) (h2 : 2 ≤ count) (herr : ∀ j, |err j| < 1 / 2) :
    start + size - 1 ∈ takenSteps err start size count := by
  rw [takenSteps_eq, List.mem_map]
  exact ⟨count - 1, List.mem_range.2 (by omega), by rw [pos_last hfit h2 herr]; omega⟩

/-! ### All sections -/

theorem sectionLoop_ok (err : ℕ → ℕ → ℝ) (total c : ℕ) (hc : 0 < c) : ∀ (counts : List ℕ) (i : ℕ) (all : List ℕ),
    (∀ k (h : k < counts.length), counts[k] ≤ sectionSize total c (i + k)) →
    sectionLoop err (total / c) (total % c) i (sectionStart total c i) counts all =
      .ok (all ++ (List.range counts.length).flatMap fun k =>
        takenSteps (err (i + k)) (sectionStart total c (i + k)) (sectionSize total c (i + k)) (counts.getD k 0)) := by
  intro counts
  induction counts with
  | nil => intro i all _; simp [sectionLoop]
  | cons a l ih =>
    intro i all h
    have hs := (sections_even total c hc).2.2 i
    have h0 := h 0 (by simp)
    simp only [List.getElem_cons_zero, Nat.add_zero] at h0
    have e : sectionLoop err (total / c) (total % c) i (sectionStart total c i) (a :: l) all =
        (if total / c + (if i < total % c then 1 else 0) < a then .error .value
        else sectionLoop err (total / c) (total % c) (i + 1)
          (sectionStart total c i + (total / c + (if i < total % c then 1 else 0))) l
          (all ++ takenSteps (err i) (sectionStart total c i) (total / c + (if i < total % c then 1 else 0)) a)) := rfl
    rw [e, ← hs.1, if_neg (by omega), ← hs.2, ih (i + 1) _ (fun k hk => by
      have := h (k + 1) (by simp; omega)
      simp only [List.getElem_cons_succ] at this
      rw [Nat.add_assoc, Nat.add_comm 1 k]; exact this)]
    rw [List.append_assoc, List.length_cons, List.range_succ_eq_map, List.flatMap_cons, List.flatMap_map]
    simp only [Nat.add_zero, List.getD_cons_zero, List.getD_cons_succ, Nat.succ_eq_add_one]
    have : ∀ k, i + 1 + k = i + (k + 1) := fun k => by omega
    simp only [this]

theorem sectionLoop_error (err : ℕ → ℕ → ℝ) (total c : ℕ) (hc : 0 < c) : ∀ (counts : List ℕ) (i : ℕ) (all : List ℕ),
    (∃ k, ∃ h : k < counts.length, sectionSize total c (i + k) < counts[k]) →
    sectionLoop err (total / c) (total % c) i (sectionStart total c i) counts all = .error .value := by
  intro counts
  induction counts with
  | nil => rintro i all ⟨k, h, _⟩; simp at h
  | cons a l ih =>
    rintro i all ⟨k, h, hk⟩
    have hs := (sections_even total c hc).2.2 i
    have e : sectionLoop err (total / c) (total % c) i (sectionStart total c i) (a :: l) all =
        (if total / c + (if i < total % c then 1 else 0) < a then .error .value
        else sectionLoop err (total / c) (total % c) (i + 1)
          (sectionStart total c i + (total / c + (if i < total % c then 1 else 0))) l
          (all ++ takenSteps (err i) (sectionStart total c i) (total / c + (if i < total % c then 1 else 0)) a)) := rfl
    rw [e, ← hs.1, ← hs.2]
    split_ifs with h'
    · rfl
    · cases k with
      | zero => simp at hk; omega
      | succ k =>
        refine ih (i + 1) _ ⟨k, by simpa using h, ?_⟩
        simp only [List.getElem_cons_succ] at hk
        rwa [Nat.add_assoc, Nat.add_comm 1 k]

theorem start_mono (total c : ℕ) {i j : ℕ} (h : i ≤ j) : sectionStart total c i ≤ sectionStart total c j := by
  unfold sectionStart
  exact add_le_add (Nat.mul_le_mul_right _ h) (min_le_min_right _ h)

theorem list_aux (err : ℕ → ℕ → ℝ) (total : ℕ) (herr : ∀ i j, 2 * total * |err i j| < 1) (counts : List ℕ)
    (c : ℕ) (hcdef : counts.length = c) (hc : 0 < c) (hfit : ∀ i (h : i < counts.length), counts[i] ≤ sectionSize total c i) :
    ∃ steps, spaceTimesteps err total (.list counts) = .ok steps ∧ steps.card = counts.sum ∧
      (∀ x ∈ steps, x < total) ∧
      ∀ i (h : i < counts.length), ∃ f : ℕ → ℕ,
        (∀ x, (x ∈ steps ∧ sectionStart total c i ≤ x ∧ x < sectionStart total c (i + 1)) ↔
          ∃ j < counts[i], x = f j) ∧
        (∀ j k, j < k → k < counts[i] → f j < f k) ∧
        (0 < counts[i] → f 0 = sectionStart total c i) ∧
        (2 ≤ counts[i] → f (counts[i] - 1) + 1 = sectionStart total c (i + 1)) ∧
        ∀ j < counts[i], |(f j : ℝ) - (sectionStart total c i +
          j * (if counts[i] = 1 then 1 else ((sectionSize total c i : ℝ) - 1) / ((counts[i] : ℝ) - 1)))| < 1 := by
  obtain ⟨s0, sc, ss⟩ := sections_even total c hc
  have hsz : ∀ i, i < c → sectionSize total c i ≤ total := by
    intro i hi
    have := (ss i).2
    have := start_mono total c (Nat.succ_le_of_lt hi)
    rw [Nat.succ_eq_add_one] at this
    omega
  have hloop := sectionLoop_ok err total c hc counts 0 [] (fun k h => by simpa using hfit k h)
  simp only [Nat.zero_add, List.nil_append, s0, hcdef] at hloop
  set blk : ℕ → List ℕ := fun k => takenSteps (err k) (sectionStart total c k) (sectionSize total c k) (counts.getD k 0)
    with hblk
  have hget : ∀ i (h : i < counts.length), counts.getD i 0 = counts[i] := fun i h => by simp [List.getD, h]
  have hbm : ∀ i, i < c → ∀ x ∈ blk i, sectionStart total c i ≤ x ∧ x < sectionStart total c (i + 1) := by
    intro i hi x hx
    have := taken_mem (by rw [hget i (hcdef ▸ hi)]; exact hfit i (hcdef ▸ hi)) (hsz i hi) (herr i) x hx
    rw [(ss i).2]; exact this
  have hsorted : ((List.range c).flatMap blk).Pairwise (· < ·) := by
    rw [List.pairwise_flatMap]
    constructor
    · intro i hi
      rw [List.mem_range] at hi
      exact taken_sorted (by rw [hget i (hcdef ▸ hi)]; exact hfit i (hcdef ▸ hi)) (hsz i hi) (herr i)
    · rw [List.pairwise_iff_getElem]
      intro i j hi hj hij
      simp only [List.getElem_range]
      rw [List.length_range] at hi hj
      intro x hx y hy
      have h1 := (hbm i hi x hx).2
      have h2 := (hbm j hj y hy).1
      have h3 := start_mono total c (Nat.succ_le_of_lt hij)
      rw [Nat.succ_eq_add_one] at h3
      omega
  refine ⟨((List.range c).flatMap blk).toFinset, ?_, ?_, ?_, ?_⟩
  · simp only [spaceTimesteps, sections]
    rw [hcdef, if_neg (by omega), hloop]
    rfl
  · rw [List.toFinset_card_of_nodup (hsorted.imp (fun h => h.ne)), List.length_flatMap]
    have : (List.range c).map (fun i => (blk i).length) = counts := by
      apply List.ext_getElem
      · simp [hcdef]
      · intro i h1 h2
        simp [hblk, taken_length, h2]
    rw [this]
  · intro x hx
    rw [List.mem_toFinset, List.mem_flatMap] at hx
    obtain ⟨i, hi, hx⟩ := hx
    rw [List.mem_range] at hi
    have h1 := (hbm i hi x hx).2
    have h2 := start_mono total c (Nat.succ_le_of_lt hi)
    rw [Nat.succ_eq_add_one] at h2
    omega
  · intro i hi'
    have hi : i < c := hcdef ▸ hi'
    have hfi := hfit i hi'
    have hszi := hsz i hi
    have ht : 0 < total ∨ counts[i] = 0 := by omega
    have hr := fun j => pos_range hfi hszi (herr i) j
    refine ⟨fun j => sectionStart total c i + (pos (err i) (sectionSize total c i) counts[i] j).toNat, ?_, ?_, ?_, ?_, ?_⟩
    · intro x
      have hmem : (x ∈ blk i) ↔ ∃ j < counts[i], x =
          sectionStart total c i + (pos (err i) (sectionSize total c i) counts[i] j).toNat := by
        simp only [hblk, takenSteps_eq, List.mem_map, List.mem_range, hget i hi']
        constructor
        · rintro ⟨j, a, b⟩; exact ⟨j, a, b.symm⟩
        · rintro ⟨j, a, b⟩; exact ⟨j, a, b.symm⟩
      rw [← hmem]
      constructor
      · rintro ⟨h1, h2, h3⟩
        rw [List.mem_toFinset, List.mem_flatMap] at h1
        obtain ⟨k, hk, h1⟩ := h1
        rw [List.mem_range] at hk
        have h4 := hbm k hk x h1
        have : k = i := by
          rcases Nat.lt_trichotomy k i with h | h | h
          · have := start_mono total c (Nat.succ_le_of_lt h)
            rw [Nat.succ_eq_add_one] at this; omega
          · exact h
          · have := start_mono total c (Nat.succ_le_of_lt h)
            rw [Nat.succ_eq_add_one] at this; omega
        rwa [this] at h1
      · intro h
        refine ⟨?_, hbm i hi x h⟩
        rw [List.mem_toFinset, List.mem_flatMap]
        exact ⟨i, List.mem_range.2 hi, h⟩
    · intro j k hjk hk
      have h1 := pos_mono hfi hszi (herr i) j k hjk hk
      have h2 := (hr j (by omega)).1
      dsimp only
      omega
    · intro h
      dsimp only
      rw [pos_zero (err_half (by omega) (herr i))]; simp
    · intro h
      dsimp only
      rw [pos_last hfi h (err_half (by omega) (herr i)), (ss i).2]
      omega
    · intro j hj
      have h1 := (hr j hj).1
      have h2 := roundHalfEven_near (j * fracStride (sectionSize total c i) counts[i] + err i j)
      have h3 := err_half (by omega) (herr i) j
      have h4 : ((pos (err i) (sectionSize total c i) counts[i] j).toNat : ℝ) =
          (pos (err i) (sectionSize total c i) counts[i] j : ℝ) := by exact_mod_cast Int.toNat_of_nonneg h1
      have h5 : fracStride (sectionSize total c i) counts[i] =
          (if counts[i] = 1 then 1 else ((sectionSize total c i : ℝ) - 1) / ((counts[i] : ℝ) - 1)) := by
        unfold fracStride
        by_cases h : counts[i] = 1
        · rw [if_pos (by omega), if_pos h]
        · rw [if_neg (by omega), if_neg h]
      push_cast
      rw [h4, ← h5]
      unfold pos
      rw [abs_le] at h2
      rw [abs_lt] at h3 ⊢
      constructor <;> linarith

/-- **C88**: with a list of counts, every section gets exactly its number of steps, evenly spaced from its first to its
last step; the steps are distinct and in range.  A count greater than its section, and an empty list, are rejected. -/
theorem C88_list (err : ℕ → ℕ → ℝ) (total : ℕ) (herr : ∀ i j, 2 * total * |err i j| < 1) (counts : List ℕ)
    (hne : counts ≠ []) (hfit : ∀ i (h : i < counts.length), counts[i] ≤ sectionSize total counts.length i) :
    ∃ steps, spaceTimesteps err total (.list counts) = .ok steps ∧ steps.card = counts.sum ∧
      (∀ x ∈ steps, x < total) ∧
      ∀ i (h : i < counts.length), ∃ f : ℕ → ℕ,
        (∀ x, (x ∈ steps ∧ sectionStart total counts.length i ≤ x ∧ x < sectionStart total counts.length (i + 1)) ↔
          ∃ j < counts[i], x = f j) ∧
        (∀ j k, j < k → k < counts[i] → f j < f k) ∧
        (0 < counts[i] → f 0 = sectionStart total counts.length i) ∧
        (2 ≤ counts[i] → f (counts[i] - 1) + 1 = sectionStart total counts.length (i + 1)) ∧
        ∀ j < counts[i], |(f j : ℝ) - (sectionStart total counts.length i +
          j * (if counts[i] = 1 then 1 else ((sectionSize total counts.length i : ℝ) - 1) / ((counts[i] : ℝ) - 1)))| < 1 :=
  list_aux err total herr counts _ rfl (List.length_pos_iff.2 hne) hfit

/-- **C88**: what a list is rejected for. -/
theorem C88_list_rejects (err : ℕ → ℕ → ℝ) (total : ℕ) (counts : List ℕ) :
    (counts = [] → spaceTimesteps err total (.list counts) = .error .zeroDivision) ∧
    ((∃ i, ∃ h : i < counts.length, sectionSize total counts.length i < counts[i]) →
      spaceTimesteps err total (.list counts) = .error .value) := by
  constructor
  · rintro rfl; rfl
  · rintro ⟨i, h, hi⟩
    have := sectionLoop_error err total counts.length (by omega) counts 0 [] ⟨i, h, by simpa using hi⟩
    rw [(sections_even total counts.length (by omega)).1] at this
    simp only [spaceTimesteps, sections]
    rw [if_neg (by omega), this]
    rfl

/-- The example of the documentation: 300 steps and the counts 10, 15, 20. -/
example : ∃ steps, spaceTimesteps (fun _ _ => 0) 300 (.list [10, 15, 20]) = .ok steps ∧ steps.card = 45 := by
  obtain ⟨s, h1, h2, _⟩ := C88_list (fun _ _ => 0) 300 (by simp) [10, 15, 20] (by simp) (by
    intro i h
    simp only [List.length_cons, List.length_nil] at h
    rcases i with _ | _ | _ | i
    · exact (by decide : 10 ≤ sectionSize 300 3 0)
    · exact (by decide : 15 ≤ sectionSize 300 3 1)
    · exact (by decide : 20 ≤ sectionSize 300 3 2)
    · omega)
  exact ⟨s, h1, h2⟩

/-! ### Dense initial steps -/

/-- **C88**: `"vlbN"` gives exactly `N` steps, among them the first `total / N` and the last. -/
theorem C88_vlb (err : ℕ → ℕ → ℝ) (total n : ℕ) (herr : ∀ i j, 2 * total * |err i j| < 1) (h1 : n ≤ total)
    (h2 : total / n < n) :
    ∃ steps, spaceTimesteps err total (.vlb n) = .ok steps ∧ steps.card = n ∧ (∀ x ∈ steps, x < total) ∧
      (∀ x < total / n, x ∈ steps) ∧ total - 1 ∈ steps := by
  have hn : 0 < n := Nat.pos_of_ne_zero fun h => by simp [h] at h2
  have hq : 1 ≤ total / n := (Nat.one_le_div_iff hn).2 h1
  set q := total / n with hqdef
  have hqn : q * n ≤ total := Nat.div_mul_le_self total n
  have hlt : total < (q + 1) * n := by
    have h3 := Nat.div_add_mod total n
    have h4 := Nat.mod_lt total hn
    rw [← hqdef] at h3
    nlinarith
  have hfit : n - q + 1 ≤ total := by omega
  have hc2 : 2 ≤ n - q + 1 := by omega
  have hloop : sectionLoop err (total / 1) (total % 1) 0 0 [n - q + 1] (List.range q) =
      .ok (List.range q ++ takenSteps (err 0) 0 total (n - q + 1)) := by
    simp only [sectionLoop, Nat.div_one, Nat.mod_one, Nat.lt_irrefl, if_false, Nat.add_zero]
    rw [if_neg (by omega)]
  have hh := err_half (by omega : 0 < total) (herr 0)
  have hmem := taken_mem (start := 0) hfit le_rfl (herr 0)
  have hfirst := taken_first (start := 0) (size := total) (by omega : 0 < n - q + 1) hh
  have hlast := taken_last (start := 0) hfit hc2 hh
  rw [Nat.zero_add] at hlast
  -- the steps after the first are at least `q`
  have hge : ∀ j, 1 ≤ j → j < n - q + 1 → (q : ℤ) ≤ pos (err 0) total (n - q + 1) j := by
    intro j hj hjc
    have hs := stride_mul (size := total) hc2
    have hq' : (q : ℝ) ≤ fracStride total (n - q + 1) := by
      have e : (((n - q + 1 : ℕ) : ℝ) - 1) = (n : ℝ) - q := by
        push_cast [Nat.cast_sub (by omega : q ≤ n)]; ring
      rw [e] at hs
      have hqn' : (q : ℝ) * n ≤ total := by exact_mod_cast hqn
      have hqR : (1 : ℝ) ≤ q := by exact_mod_cast hq
      have hpos : (0 : ℝ) < n - q := by
        have : (q : ℝ) < n := by exact_mod_cast h2
        linarith
      by_contra hcon
      push Not at hcon
      have : ((n : ℝ) - q) * fracStride total (n - q + 1) < ((n : ℝ) - q) * q := mul_lt_mul_of_pos_left hcon hpos
      nlinarith
    have a := roundHalfEven_near (j * fracStride total (n - q + 1) + err 0 j)
    rw [abs_le] at a
    have b := hh j
    rw [abs_lt] at b
    have hjR : (1 : ℝ) ≤ j := by exact_mod_cast hj
    have hq0 : (0 : ℝ) ≤ q := by positivity
    have : ((q : ℤ) : ℝ) - 1 < pos (err 0) total (n - q + 1) j := by
      unfold pos
      push_cast
      nlinarith
    have : (q : ℤ) - 1 < pos (err 0) total (n - q + 1) j := by exact_mod_cast this
    omega
  refine ⟨(List.range q ++ takenSteps (err 0) 0 total (n - q + 1)).toFinset, ?_, ?_, ?_, ?_, ?_⟩
  · simp only [spaceTimesteps]
    rw [if_neg (by omega), if_pos h2]
    simp only [sections, List.length_singleton]
    rw [if_neg (by omega), hloop]
    rfl
  · have hlist : takenSteps (err 0) 0 total (n - q + 1) =
        0 :: (List.range (n - q)).map fun j => (pos (err 0) total (n - q + 1) (j + 1)).toNat := by
      rw [takenSteps_eq, List.range_succ_eq_map, List.map_cons, List.map_map, pos_zero hh]
      simp [Function.comp_def]
    have hset : (List.range q ++ takenSteps (err 0) 0 total (n - q + 1)).toFinset =
        (List.range q ++ (List.range (n - q)).map fun j => (pos (err 0) total (n - q + 1) (j + 1)).toNat).toFinset := by
      ext x
      rw [List.mem_toFinset, List.mem_toFinset, hlist, List.mem_append, List.mem_append, List.mem_cons]
      constructor
      · rintro (h | h | h)
        · exact .inl h
        · exact .inl (List.mem_range.2 (by omega))
        · exact .inr h
      · rintro (h | h)
        · exact .inl h
        · exact .inr (.inr h)
    have hs := taken_sorted (start := 0) hfit le_rfl (herr 0)
    rw [hlist, List.pairwise_cons] at hs
    rw [hset, List.toFinset_card_of_nodup, List.length_append, List.length_range, List.length_map, List.length_range]
    · omega
    · rw [List.nodup_append]
      refine ⟨List.nodup_range, hs.2.imp (fun h => h.ne), ?_⟩
      intro a ha b hb
      rw [List.mem_range] at ha
      rw [List.mem_map] at hb
      obtain ⟨j, hj, rfl⟩ := hb
      rw [List.mem_range] at hj
      have := hge (j + 1) (by omega) (by omega)
      omega
  · intro x hx
    rw [List.mem_toFinset, List.mem_append, List.mem_range] at hx
    rcases hx with h | h
    · omega
    · have := (hmem x h).2
      omega
  · intro x hx
    rw [List.mem_toFinset, List.mem_append, List.mem_range]
    exact .inl hx
  · rw [List.mem_toFinset, List.mem_append]
    exact .inr hlast

/-- **C88**: which `"vlbN"` are rejected. -/
theorem C88_vlb_rejects (err : ℕ → ℕ → ℝ) (total n : ℕ) :
    (n = 0 → spaceTimesteps err total (.vlb n) = .error .zeroDivision) ∧
    (0 < n → n ≤ total / n ∨ total < n → spaceTimesteps err total (.vlb n) = .error .value) := by
  constructor
  · rintro rfl; rfl
  · intro hn h
    simp only [spaceTimesteps]
    rw [if_neg (by omega)]
    split_ifs with h2
    · have h3 : total < n := by omega
      have h4 : total / n = 0 := Nat.div_eq_of_lt h3
      rw [h4]
      simp only [sections, List.length_singleton]
      rw [if_neg (by omega)]
      simp only [sectionLoop, Nat.div_one, Nat.mod_one, Nat.lt_irrefl, if_false, Nat.add_zero]
      rw [if_pos (by omega)]
      rfl
    · rfl

/-- The configuration of the project: 4000 steps, `"vlb100"`. -/
example : ∃ steps, spaceTimesteps (fun _ _ => 0) 4000 (.vlb 100) = .ok steps ∧ steps.card = 100 ∧ 3999 ∈ steps := by
  obtain ⟨s, h1, h2, _, _, h3⟩ := C88_vlb (fun _ _ => 0) 4000 100 (by simp) (by norm_num) (by norm_num)
  exact ⟨s, h1, h2, h3⟩

/-! ### Constant stride -/

theorem rangeLen_spec (total i k : ℕ) (hi : 0 < i) : k < rangeLen total i ↔ k * i < total := by
  unfold rangeLen
  rw [Nat.lt_iff_add_one_le, Nat.le_div_iff_mul_le hi, Nat.add_mul]
  omega

theorem rangeSet_mem (total i x : ℕ) (hi : 0 < i) : x ∈ rangeSet total i ↔ x < total ∧ i ∣ x := by
  unfold rangeSet
  rw [Finset.mem_image]
  constructor
  · rintro ⟨k, hk, rfl⟩
    rw [Finset.mem_range, rangeLen_spec _ _ _ hi] at hk
    exact ⟨hk, Dvd.intro_left k rfl⟩
  · rintro ⟨h, k, rfl⟩
    exact ⟨k, by rw [Finset.mem_range, rangeLen_spec _ _ _ hi, Nat.mul_comm]; exact h, Nat.mul_comm _ _⟩

theorem rangeSet_card (total i : ℕ) (hi : 0 < i) : (rangeSet total i).card = rangeLen total i := by
  unfold rangeSet
  rw [Finset.card_image_of_injective _ (fun a b h => Nat.eq_of_mul_eq_mul_right hi h), Finset.card_range]

theorem ddimSearch_spec (total n : ℕ) : ∀ l : List ℕ, (∀ i ∈ l, 0 < i) →
    (∃ i ∈ l, rangeLen total i = n ∧ ddimSearch total n l = .ok (rangeSet total i)) ∨
    ((∀ i ∈ l, rangeLen total i ≠ n) ∧ ddimSearch total n l = .error .value) := by
  intro l
  induction l with
  | nil => intro _; exact .inr ⟨by simp, rfl⟩
  | cons a l ih =>
    intro h
    by_cases ha : rangeLen total a = n
    · exact .inl ⟨a, by simp, ha, by simp [ddimSearch, ha]⟩
    · rcases ih (fun i hi => h i (by simp [hi])) with ⟨i, h1, h2, h3⟩ | ⟨h1, h2⟩
      · exact .inl ⟨i, by simp [h1], h2, by simp [ddimSearch, ha, h3]⟩
      · refine .inr ⟨?_, by simp [ddimSearch, ha, h2]⟩
        intro i hi
        rcases List.mem_cons.1 hi with h' | h'
        · rw [h']; exact ha
        · exact h1 i h'

/-- **C88**: `"ddimN"` gives exactly `N` steps, the multiples of some stride below the number of all steps; it is rejected
if no stride smaller than that number gives `N` steps. -/
theorem C88_ddim (err : ℕ → ℕ → ℝ) (total n : ℕ) :
    (∃ stride steps, 0 < stride ∧ spaceTimesteps err total (.ddim n) = .ok steps ∧ steps.card = n ∧
      ∀ x, x ∈ steps ↔ x < total ∧ stride ∣ x) ∨
    (spaceTimesteps err total (.ddim n) = .error .value ∧
      ∀ stride, 0 < stride → stride < total → ((Finset.range total).filter (stride ∣ ·)).card ≠ n) := by
  have hl : ∀ i, i ∈ (List.range (total - 1)).map (· + 1) ↔ 0 < i ∧ i < total := by
    intro i
    rw [List.mem_map]
    constructor
    · rintro ⟨k, hk, rfl⟩
      rw [List.mem_range] at hk; omega
    · rintro ⟨h1, h2⟩
      exact ⟨i - 1, List.mem_range.2 (by omega), by omega⟩
  rcases ddimSearch_spec total n ((List.range (total - 1)).map (· + 1)) (fun i hi => ((hl i).1 hi).1) with
    ⟨i, h1, h2, h3⟩ | ⟨h1, h2⟩
  · have hi := ((hl i).1 h1).1
    exact .inl ⟨i, _, hi, h3, by rw [rangeSet_card _ _ hi, h2], fun x => rangeSet_mem total i x hi⟩
  · refine .inr ⟨h2, fun i hi hit => ?_⟩
    have e : (Finset.range total).filter (i ∣ ·) = rangeSet total i := by
      ext x
      rw [Finset.mem_filter, Finset.mem_range, rangeSet_mem _ _ _ hi]
    rw [e, rangeSet_card _ _ hi]
    exact h1 i ((hl i).2 ⟨hi, hit⟩)

/-- **C88**: one step cannot be asked for by `"ddim1"`, although `[1]` gives one. -/
theorem C88_ddim_one (err : ℕ → ℕ → ℝ) (total : ℕ) : spaceTimesteps err total (.ddim 1) = .error .value := by
  rcases C88_ddim err total 1 with ⟨i, s, hi, h1, h2, h3⟩ | ⟨h, _⟩
  · exfalso
    simp only [spaceTimesteps] at h1
    rcases ddimSearch_spec total 1 ((List.range (total - 1)).map (· + 1)) (by simp) with
      ⟨j, g1, g2, g3⟩ | ⟨g1, g2⟩
    · rw [List.mem_map] at g1
      obtain ⟨k, hk, rfl⟩ := g1
      rw [List.mem_range] at hk
      have := (rangeLen_spec total (k + 1) 1 (by omega)).2 (by omega)
      omega
    · rw [g2] at h1; cases h1
  · exact h

example : ∃ stride steps, 0 < stride ∧ spaceTimesteps (fun _ _ => 0) 1000 (.ddim 50) = .ok steps ∧ steps.card = 50 ∧
    ∀ x, x ∈ steps ↔ x < 1000 ∧ stride ∣ x := by
  rcases C88_ddim (fun _ _ => 0) 1000 50 with h | ⟨_, h⟩
  · exact h
  · exact absurd (by decide +kernel) (h 20 (by norm_num) (by norm_num))

end Verif.Script.Respace
