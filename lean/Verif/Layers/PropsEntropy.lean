import Verif.Layers.Entropy
import Mathlib.Tactic.Linarith
import Mathlib.Tactic.NormNum

/-!
C50, C69, C70 and C74: the entropy layer.
-/

namespace Verif.Layers.Entropy

/-! ### C50 -/

/-- The combinations of arguments that the documentation allows: a prior, or both its shape and its type; for a
compressible layer all or none of the three tables, exactly one of prior, tables and maximum size, and a maximum
size only if not stateless; for other layers neither tables nor a maximum size. -/
def Documented (a : Args) : Prop :=
  (a.prior.isSome ∨ (a.priorShape.isSome ∧ a.priorDtype = true)) ∧
    (a.compressible = true →
      ((a.cdfs.isSome ∧ a.cdfSizes.isSome ∧ a.cdfOffsets.isSome) ∨
        (a.cdfs.isNone ∧ a.cdfSizes.isNone ∧ a.cdfOffsets.isNone)) ∧
      ((a.prior.isSome ∧ a.cdfs.isNone ∧ a.maximumCdfSize.isNone) ∨
        (a.prior.isNone ∧ a.cdfs.isSome ∧ a.maximumCdfSize.isNone) ∨
        (a.prior.isNone ∧ a.cdfs.isNone ∧ a.maximumCdfSize.isSome)) ∧
      (a.maximumCdfSize.isSome → a.stateless = false)) ∧
    (a.compressible = false →
      a.cdfs.isNone ∧ a.cdfSizes.isNone ∧ a.cdfOffsets.isNone ∧ a.maximumCdfSize.isNone)

theorem update_not_value (q : List ℝ → List ℤ) (p : Prior) : update q p ≠ .error .value := by
  unfold update
  cases p.batch with
  | none => simp
  | some n => dsimp only; split_ifs <;> simp

/-- **C50, rejection.** The constructor raises `ValueError` exactly for the combinations that the documentation
does not allow. -/
theorem C50_rejects_partial (q : List ℝ → List ℤ) (a : Args) : init q a = .error .value ↔ ¬ Documented a := by
  obtain ⟨compressible, stateless, prior, priorShape, priorDtype, cdfs, cdfSizes, cdfOffsets, maximum⟩ := a
  cases prior with
  | some p =>
    have hu := update_not_value q p
    cases compressible <;> cases cdfs <;> cases cdfSizes <;> cases cdfOffsets <;> cases maximum <;>
      simp [init, contextShape, isNone, Documented] <;>
      (cases h : update q p <;> simp_all [Except.map])
  | none =>
    cases priorShape with
    | none =>
      simp [init, contextShape, Documented]
    | some shape =>
      cases priorDtype with
      | false => simp [init, contextShape, Documented]
      | true =>
        cases compressible <;> cases cdfs <;> cases cdfSizes <;> cases cdfOffsets <;> cases maximum <;>
          cases stateless <;> simp [init, contextShape, isNone, Documented, emptyTables] <;> split_ifs <;> simp

/-- **C50, acceptance.** A documented combination whose tables need not be computed from a prior, and which has a
shape of rank at least one if the tables are to be restored, is accepted; the layer has the tables it was given, or
tables of zeros: one of functions with as many rows as the shape has axes and the given number of columns, and sizes and
offsets of the given number of elements. -/
theorem C50_accepts_partial (q : List ℝ → List ℤ) (a : Args) (h : Documented a)
    (h1 : a.compressible = true → a.prior = none) (h2 : a.maximumCdfSize.isSome → a.priorShape ≠ some []) :
    ∃ l, init q a = .ok l ∧ l.compressible = a.compressible ∧ l.stateless = a.stateless ∧
      (a.maximumCdfSize = none → l.cdfs = a.cdfs ∧ l.cdfSizes = a.cdfSizes ∧ l.cdfOffsets = a.cdfOffsets) ∧
      (a.compressible = true → ∀ m shape, a.maximumCdfSize = some m → a.priorShape = some shape →
        l.cdfs = some ⟨[shape.length, m], List.replicate (shape.length * m) 0⟩ ∧
          l.cdfSizes = some ⟨[m], List.replicate m 0⟩ ∧ l.cdfOffsets = some ⟨[m], List.replicate m 0⟩) := by
  obtain ⟨compressible, stateless, prior, priorShape, priorDtype, cdfs, cdfSizes, cdfOffsets, maximum⟩ := a
  cases prior with
  | some p =>
    cases compressible with
    | true => simp at h1
    | false =>
      cases cdfs <;> cases cdfSizes <;> cases cdfOffsets <;> cases maximum <;>
        simp_all [init, contextShape, isNone, Documented]
  | none =>
    cases priorShape with
    | none => simp [Documented] at h
    | some shape =>
      cases priorDtype with
      | false => simp [Documented] at h
      | true =>
        cases compressible <;> cases cdfs <;> cases cdfSizes <;> cases cdfOffsets <;> cases maximum <;>
          cases stateless <;> simp_all [init, contextShape, isNone, Documented, emptyTables, zeros]

/-- C50 is not vacuous: a layer to be restored, and one without tables. -/
example : Documented { compressible := true, priorShape := some [32], priorDtype := true, maximumCdfSize := some 16 } ∧
    Documented { priorShape := some [32], priorDtype := true } ∧
    ¬ Documented { compressible := true, priorShape := some [32], priorDtype := true } := by
  refine ⟨?_, ?_, ?_⟩ <;> simp [Documented]

/-- **C50, access.** The tables of a layer can be read exactly if it was made compressible; then they are the ones it
holds, and otherwise reading them raises `RuntimeError`. -/
theorem C50_access (q : List ℝ → List ℤ) (a : Args) (l : Layer) (h : init q a = .ok l) :
    (a.compressible = true → l.getCdfs = .ok l.cdfs ∧ l.cdfs ≠ none) ∧
      (a.compressible = false → l.getCdfs = .error .runtime ∧ l.cdfs = none) := by
  obtain ⟨compressible, stateless, prior, priorShape, priorDtype, cdfs, cdfSizes, cdfOffsets, maximum⟩ := a
  cases prior with
  | some p =>
    cases hu : update q p <;>
      cases compressible <;> cases cdfs <;> cases cdfSizes <;> cases cdfOffsets <;> cases maximum <;>
      simp [init, contextShape, isNone, hu, Except.map] at h <;> subst h <;> simp [Layer.getCdfs]
  | none =>
    cases priorShape with
    | none => simp [init, contextShape] at h
    | some shape =>
      cases priorDtype with
      | false => simp [init, contextShape] at h
      | true =>
        cases compressible <;> cases cdfs <;> cases cdfSizes <;> cases cdfOffsets <;> cases maximum <;>
          simp [init, contextShape, isNone, emptyTables] at h <;>
          first
          | (subst h; simp [Layer.getCdfs])
          | (split_ifs at h; simp at h; subst h; simp [Layer.getCdfs])
          | skip

/-- **C50 is violated**: documented combinations raise. A scalar prior shape with a maximum size raises
`IndexError`; a compressible layer for any distribution with uniform noise (the use the layer is made for), for any
scalar prior and for any batch of one raises as well. -/
theorem C50_violated (q : List ℝ → List ℤ) :
    (∀ m, Documented { compressible := true, priorShape := some [], priorDtype := true, maximumCdfSize := some m } ∧
      init q { compressible := true, priorShape := some [], priorDtype := true, maximumCdfSize := some m } =
        .error .index) ∧
    ∀ p : Prior, (p.noisy = true ∨ p.batch = none ∨ p.batch = some 1) →
      Documented { compressible := true, prior := some p } ∧
        ∃ e, init q { compressible := true, prior := some p } = .error e := by
  refine ⟨fun m => ⟨by simp [Documented], by simp [init, contextShape, isNone, emptyTables]⟩, ?_⟩
  intro p hp
  refine ⟨by simp [Documented], ?_⟩
  have : ∃ e, update q p = .error e := by
    unfold update
    rcases hp with h | h | h
    · cases p.batch with
      | none => exact ⟨_, rfl⟩
      | some n =>
        dsimp only
        by_cases hn : n = 0
        · exact ⟨_, if_pos hn⟩
        · rw [if_neg hn, if_pos h]; exact ⟨_, rfl⟩
    · rw [h]; exact ⟨_, rfl⟩
    · rw [h]
      dsimp only
      rw [if_neg one_ne_zero]
      split_ifs
      · exact ⟨_, rfl⟩
      · exact ⟨_, rfl⟩
      · exact absurd rfl ‹_›
  obtain ⟨e, he⟩ := this
  exact ⟨e, by simp [init, contextShape, isNone, he, Except.map]⟩

/-! ### C69 -/

theorem foldr_max_ge (l : List ℕ) (x : ℕ) (h : x ∈ l) : x ≤ l.foldr max 0 := by
  induction l with
  | nil => simp at h
  | cons a l ih =>
    rcases List.mem_cons.1 h with rfl | h
    · exact le_max_left _ _
    · exact (ih h).trans (le_max_right _ _)

theorem size_le_maxSize (p : Prior) {n k : ℕ} (h : k < n) : p.size k ≤ p.maxSize n :=
  foldr_max_ge _ _ (List.mem_map.2 ⟨k, List.mem_range.2 h, rfl⟩)

theorem update_ok (q : List ℝ → List ℤ) (p : Prior) (t : Tables) (h : update q p = .ok t) :
    ∃ n, p.batch = some n ∧ 2 ≤ n ∧ p.noisy = false ∧
      t = { cdfs := ⟨[n, p.maxSize n + 2], (rows q p n).flatten⟩
            sizes := ⟨[n], (List.range n).map fun k => (p.size k : ℤ) + 2⟩
            offsets := ⟨[n], (List.range n).map p.minimum⟩ } := by
  unfold update at h
  cases hb : p.batch with
  | none => rw [hb] at h; simp at h
  | some n =>
    rw [hb] at h
    dsimp only at h
    split_ifs at h with h1 h2 h3
    cases h
    exact ⟨n, rfl, by omega, by simpa using h2, rfl⟩

/-- **C69, range.** For every integer between the offset-corrected tails that is not negative, the tables of the
distribution have a place: it lies between the table's offset and offset plus number of symbols. The sizes count
the symbols, the overflow symbol and the final entry. -/
theorem C69_range_partial (q : List ℝ → List ℤ) (p : Prior) (t : Tables) (h : update q p = .ok t) :
    ∃ n, p.batch = some n ∧ t.sizes.shape = [n] ∧ t.offsets.shape = [n] ∧ t.cdfs.shape = [n, p.maxSize n + 2] ∧
      ∀ k < n, ∃ offset size : ℤ, t.offsets.data[k]? = some offset ∧ t.sizes.data[k]? = some (size + 2) ∧
        size ≤ p.maxSize n ∧
        ∀ v : ℤ, 0 ≤ v → p.lower k ≤ v + p.offset k → v + p.offset k ≤ p.upper k →
          offset ≤ v ∧ v < offset + size := by
  obtain ⟨n, hb, hn, -, rfl⟩ := update_ok q p t h
  refine ⟨n, hb, rfl, rfl, rfl, ?_⟩
  intro k hk
  refine ⟨p.minimum k, p.size k, by simp [hk], by simp [hk], by exact_mod_cast size_le_maxSize p hk, ?_⟩
  intro v hv hlo hhi
  have h1 : ⌊p.lower k - p.offset k⌋ ≤ v := by
    have : (⌊p.lower k - p.offset k⌋ : ℝ) ≤ v := (Int.floor_le _).trans (by linarith)
    exact_mod_cast this
  have h2 : v ≤ ⌈p.upper k - p.offset k⌉ := by
    have : (v : ℝ) ≤ ⌈p.upper k - p.offset k⌉ := le_trans (by linarith) (Int.le_ceil _)
    exact_mod_cast this
  unfold Prior.size Prior.minimum Prior.maximum
  omega

/-- **C69, no room wasted.** Besides zero, the symbols of a distribution are less than one away from the range between its
offset-corrected tails. -/
theorem C69_tight_partial (q : List ℝ → List ℤ) (p : Prior) (t : Tables) (h : update q p = .ok t) :
    ∃ n, p.batch = some n ∧
      ∀ k < n, p.lower k ≤ p.upper k → ∃ offset size : ℤ, t.offsets.data[k]? = some offset ∧
        t.sizes.data[k]? = some (size + 2) ∧
        ∀ v : ℤ, offset ≤ v → v < offset + size →
          0 ≤ v ∧ (v = 0 ∨ p.lower k < v + p.offset k + 1 ∧ v + p.offset k < p.upper k + 1) := by
  obtain ⟨n, hb, hn, -, rfl⟩ := update_ok q p t h
  refine ⟨n, hb, ?_⟩
  intro k hk hlu
  refine ⟨p.minimum k, p.size k, by simp [hk], by simp [hk], ?_⟩
  intro v h1 h2
  have hfc : ⌊p.lower k - p.offset k⌋ ≤ ⌈p.upper k - p.offset k⌉ :=
    (Int.floor_mono (by linarith)).trans (Int.floor_le_ceil _)
  unfold Prior.size Prior.minimum Prior.maximum at h2
  unfold Prior.minimum at h1
  refine ⟨by omega, ?_⟩
  by_cases h0 : v = 0
  · exact Or.inl h0
  · right
    have a1 : ⌊p.lower k - p.offset k⌋ ≤ v := by omega
    have a2 : v ≤ ⌈p.upper k - p.offset k⌉ := by omega
    have b1 : p.lower k - p.offset k < (v : ℝ) + 1 := by
      have := Int.lt_floor_add_one (p.lower k - p.offset k)
      have : ((⌊p.lower k - p.offset k⌋ : ℤ) : ℝ) ≤ v := by exact_mod_cast a1
      linarith
    have b2 : (v : ℝ) < p.upper k - p.offset k + 1 := by
      have := Int.ceil_lt_add_one (p.upper k - p.offset k)
      have : (v : ℝ) ≤ ((⌈p.upper k - p.offset k⌉ : ℤ) : ℝ) := by exact_mod_cast a2
      linarith
    exact ⟨by linarith, by linarith⟩

/-- What row `k` of the tables should be: the masses of the `k`-th distribution on its symbols, the overflow mass,
quantised; then zeros. -/
noncomputable def expectedRow (q : List ℝ → List ℤ) (p : Prior) (n k : ℕ) : List ℤ :=
  let pmf := (List.range (p.size k)).map fun s : ℕ => p.mass k (s + p.start k)
  let row := q (pmf ++ [max (1 - pmf.sum) 0])
  row ++ List.replicate (p.maxSize n + 2 - row.length) 0

/-- An integer is a number rounded towards zero. -/
def TowardsZero (x : ℝ) (t : ℤ) : Prop := |(t : ℝ)| ≤ |x| ∧ |x - t| < 1 ∧ 0 ≤ x * t

/-- **C69, first symbol.** The first symbol of the `k`-th distribution at which its mass is taken is its smallest symbol plus
its offset, rounded towards zero; the smallest symbol is the offset-corrected lower tail rounded down, or zero. -/
theorem C69_start_partial (p : Prior) (k : ℕ) :
    TowardsZero ((max ⌊p.lower k - p.offset k⌋ 0 : ℤ) + p.offset k) (p.start k) := by
  have e : p.start k = truncate ((max ⌊p.lower k - p.offset k⌋ 0 : ℤ) + p.offset k) := rfl
  rw [e]
  generalize ((max ⌊p.lower k - p.offset k⌋ 0 : ℤ) : ℝ) + p.offset k = x
  unfold TowardsZero truncate
  split_ifs with h
  · have h1 := Int.floor_le x
    have h2 := Int.lt_floor_add_one x
    have h3 : (0 : ℝ) ≤ (⌊x⌋ : ℤ) := by exact_mod_cast Int.floor_nonneg.2 h
    refine ⟨by rw [abs_of_nonneg h3, abs_of_nonneg h]; exact h1, ?_, mul_nonneg h h3⟩
    rw [abs_of_nonneg (by linarith)]
    linarith
  · have h1 := Int.le_ceil x
    have h2 := Int.ceil_lt_add_one x
    have h0 : x ≤ 0 := by linarith
    have h3 : ((⌈x⌉ : ℤ) : ℝ) ≤ 0 := by
      have : ⌈x⌉ ≤ 0 := Int.ceil_le.2 (by simpa using h0)
      exact_mod_cast this
    refine ⟨by rw [abs_of_nonpos h3, abs_of_nonpos h0]; linarith, ?_, mul_nonneg_of_nonpos_of_nonpos h0 h3⟩
    rw [abs_of_nonpos (by linarith)]
    linarith

/-- C69_start_partial says what it should: 2.7 and -2.7 are rounded to 2 and -2. -/
example : TowardsZero 2.7 2 ∧ TowardsZero (-2.7) (-2) ∧ ¬ TowardsZero 2.7 3 ∧ ¬ TowardsZero (-2.7) (-3) := by
  unfold TowardsZero
  norm_num [abs_le, abs_lt, abs_of_pos, abs_of_neg]

/-- **C69, rows.** What the rows contain instead: row `r` is computed from the masses of the `r`-th symbol under the
distributions `0, 1, ...`, and rows beyond the largest number of symbols are zero. -/
theorem C69_rows_partial (q : List ℝ → List ℤ) (p : Prior) (n r : ℕ) (hr : r < n) :
    (rows q p n)[r]? = some (
      if r < p.maxSize n then
        let pmf := ((List.range n).map fun k => p.mass k (r + p.start k)).take (p.size r)
        let row := q (pmf ++ [max (1 - pmf.sum) 0])
        row ++ List.replicate (p.maxSize n + 2 - row.length) 0
      else List.replicate (p.maxSize n + 2) 0) := by
  unfold rows
  rw [List.getElem?_map, List.getElem?_range hr]
  rfl

/-- **C69 is violated.** (1) For every batch with more distributions than symbols, the rows of the last
distributions are all zero, although the quantised functions end in a positive number. (2) The symbols start at
zero, so for every prior whose offset-corrected lower tail is negative some symbols above the tail have no place.
(3) Already for two distributions that are both concentrated on the first of two symbols, the first row
is not the one of the distribution, for every quantisation that tells different functions apart. -/
theorem C69_violated :
    (∀ (q : List ℝ → List ℤ) (p : Prior) (n : ℕ), (∀ pmf, ∃ c ∈ q pmf, 0 < c) →
      ∀ r, p.maxSize n ≤ r → r < n →
        (rows q p n)[r]? = some (List.replicate (p.maxSize n + 2) 0) ∧
          (rows q p n)[r]? ≠ some (expectedRow q p n r)) ∧
    (∀ (q : List ℝ → List ℤ) (p : Prior) (t : Tables), update q p = .ok t →
      ∀ o ∈ t.offsets.data, 0 ≤ o) ∧
    ∃ p : Prior, p.batch = some 2 ∧ (∀ k, p.offset k = 0 ∧ p.lower k = 0 ∧ p.upper k = 1) ∧
      (∀ k x, p.mass k x = if x = 0 then 1 else 0) ∧
      ∀ q : List ℝ → List ℤ, Function.Injective q →
        (∀ a, (q a).length = a.length + 1) → (rows q p 2)[0]? ≠ some (expectedRow q p 2 0) := by
  refine ⟨?_, ?_, ?_⟩
  · intro q p n hq r hr hn
    have e : (rows q p n)[r]? = some (List.replicate (p.maxSize n + 2) 0) := by
      rw [C69_rows_partial q p n r hn, if_neg (by omega)]
    refine ⟨e, ?_⟩
    rw [e]
    intro hcon
    injection hcon with hcon
    obtain ⟨c, hc, hpos⟩ := hq ((List.range (p.size r)).map (fun s : ℕ => p.mass r (s + p.start r)) ++
      [max (1 - ((List.range (p.size r)).map fun s : ℕ => p.mass r (s + p.start r)).sum) 0])
    have hmem : c ∈ expectedRow q p n r := List.mem_append_left _ hc
    rw [← hcon] at hmem
    rw [List.eq_of_mem_replicate hmem] at hpos
    exact absurd hpos (lt_irrefl _)
  · intro q p t h o ho
    obtain ⟨n, -, -, -, rfl⟩ := update_ok q p t h
    obtain ⟨k, -, rfl⟩ := List.mem_map.1 ho
    exact le_max_right _ _
  · refine ⟨⟨false, some 2, fun _ => 0, fun _ => 0, fun _ => 1, fun _ x => if x = 0 then 1 else 0⟩, rfl,
      fun k => ⟨rfl, rfl, rfl⟩, fun k x => rfl, ?_⟩
    intro q hinj hlen
    set p : Prior := ⟨false, some 2, fun _ => 0, fun _ => 0, fun _ => 1, fun _ x => if x = 0 then 1 else 0⟩ with hp
    have hmin : ∀ k, p.minimum k = 0 := fun k => by simp [Prior.minimum, hp]
    have hmax : ∀ k, p.maximum k = 1 := fun k => by simp [Prior.maximum, hp]
    have hsize : ∀ k, p.size k = 2 := fun k => by simp [Prior.size, hmin, hmax]
    have hoff : ∀ k, p.offset k = 0 := fun _ => rfl
    have hmass : ∀ k x, p.mass k x = if x = 0 then 1 else 0 := fun _ _ => rfl
    have hstart : ∀ k, p.start k = 0 := fun k => by simp [Prior.start, hmin, hoff, truncate]
    have hm : p.maxSize 2 = 2 := by
      unfold Prior.maxSize
      simp [hsize, List.range_succ]
    have e1 : (rows q p 2)[0]? = some (q [1, 1, 0] ++ List.replicate (4 - (q [1, 1, 0]).length) 0) := by
      rw [C69_rows_partial q p 2 0 (by norm_num), hm, if_pos (by norm_num), hsize]
      simp [hstart, hmass, List.range_succ]
    have e2 : expectedRow q p 2 0 = q [1, 0, 0] ++ List.replicate (4 - (q [1, 0, 0]).length) 0 := by
      unfold expectedRow
      rw [hm, hsize]
      simp [hstart, hmass, List.range_succ]
    rw [e1, e2]
    intro hcon
    injection hcon with hcon
    have l1 := hlen [1, 1, 0]
    have l2 := hlen [1, 0, 0]
    have := List.append_inj_left hcon (by rw [l1, l2]; rfl)
    have := hinj this
    simp at this

/-- C69 is not vacuous: sixteen standard normal distributions have four symbols (quantiles at 2.886 on both sides,
the situation of the repository's own test), so rows 4 to 15 are zero. -/
example : ∃ p : Prior, p.batch = some 16 ∧ p.maxSize 16 = 4 := by
  refine ⟨⟨false, some 16, fun _ => 0, fun _ => -2.886, fun _ => 2.886, fun _ _ => 0⟩, rfl, ?_⟩
  have : ∀ k, Prior.size ⟨false, some 16, fun _ => 0, fun _ => -2.886, fun _ => 2.886, fun _ _ => 0⟩ k = 4 := by
    intro k
    have h1 : ⌊(-2.886 : ℝ)⌋ = -3 := by rw [Int.floor_eq_iff]; norm_num
    have h2 : ⌈(2.886 : ℝ)⌉ = 3 := by rw [Int.ceil_eq_iff]; norm_num
    simp [Prior.size, Prior.minimum, Prior.maximum, h1, h2]
  unfold Prior.maxSize
  simp [this, List.range_succ]

/-! ### C70 -/

/-- The arguments for a layer whose tables are to be restored. -/
def restoring (shape : List ℕ) (m : ℕ) : Args :=
  { compressible := true, priorShape := some shape, priorDtype := true, maximumCdfSize := some m }

/-- The arguments for a layer whose tables are computed from a prior. -/
def fromPrior (p : Prior) : Args := { compressible := true, prior := some p }

/-- **C70, when restoring works.** Tables of `n` rows and `c` columns, with `n` sizes and offsets, can be loaded into
a layer made with `maximum_cdf_size = m` for a prior shape of rank `d` exactly if `n = d`, `c = m` and `n = m`. -/
theorem C70_restore_partial (q : List ℝ → List ℤ) (shape : List ℕ) (m n c : ℕ) (hd : shape ≠ []) (saved : Layer)
    (h1 : ∃ t, saved.cdfs = some t ∧ t.shape = [n, c]) (h2 : ∃ t, saved.cdfSizes = some t ∧ t.shape = [n])
    (h3 : ∃ t, saved.cdfOffsets = some t ∧ t.shape = [n]) :
    ∃ l, init q (restoring shape m) = .ok l ∧
      ((∃ l', load l saved = .ok l') ↔ n = shape.length ∧ c = m ∧ n = m) ∧
      ∀ l', load l saved = .ok l' →
        l'.cdfs = saved.cdfs ∧ l'.cdfSizes = saved.cdfSizes ∧ l'.cdfOffsets = saved.cdfOffsets := by
  obtain ⟨t1, e1, s1⟩ := h1
  obtain ⟨t2, e2, s2⟩ := h2
  obtain ⟨t3, e3, s3⟩ := h3
  have hne : shape.length ≠ 0 := by simpa using hd
  refine ⟨⟨true, false, shape, some (zeros [shape.length, m]), some (zeros [m]), some (zeros [m])⟩, ?_, ?_, ?_⟩
  · simp [init, restoring, fromPrior, contextShape, isNone, emptyTables, hd]
  · constructor
    · rintro ⟨l', hl⟩
      unfold load loadBuffer at hl
      rw [e1, e2, e3] at hl
      dsimp only [zeros] at hl
      rw [s1, s2, s3] at hl
      by_cases a : [shape.length, m] = [n, c]
      · by_cases b : [m] = [n]
        · simp at a b
          exact ⟨a.1.symm, a.2.symm, b.symm⟩
        · simp [a, b, bind, Except.bind] at hl
      · simp [a, bind, Except.bind] at hl
    · rintro ⟨a, b, d⟩
      unfold load loadBuffer
      rw [e1, e2, e3]
      dsimp only [zeros]
      rw [s1, s2, s3, ← a, ← b]
      have hn : [c] = [n] := by rw [b, d]
      simp only [if_pos hn, if_true]
      exact ⟨_, rfl⟩
  · intro l' hl
    unfold load loadBuffer at hl
    rw [e1, e2, e3] at hl
    dsimp only at hl
    by_cases a : (zeros [shape.length, m]).shape = t1.shape
    · by_cases b : (zeros [m]).shape = t2.shape
      · by_cases d : (zeros [m]).shape = t3.shape
        · rw [if_pos a, if_pos b, if_pos d] at hl
          cases hl
          exact ⟨e1.symm, e2.symm, e3.symm⟩
        · rw [if_pos a, if_pos b, if_neg d] at hl
          cases hl
      · rw [if_pos a, if_neg b] at hl
        cases hl
    · rw [if_neg a] at hl
      cases hl

/-- C70_restore_partial has instances in which the tables can be loaded. -/
example : 3 = [3, 1, 1].length ∧ 3 = 3 ∧ 3 = 3 := ⟨rfl, rfl, rfl⟩

/-- **C70 is violated** for every layer built from a prior: no layer made with `maximum_cdf_size` for the same prior
shape can load its state, however large the maximum is. -/
theorem C70_violated (q : List ℝ → List ℤ) (p : Prior) (saved : Layer)
    (hs : init q (fromPrior p) = .ok saved) (m : ℕ) :
    ∃ l, init q (restoring p.batchShape m) = .ok l ∧ load l saved = .error .runtime := by
  cases hu : update q p with
  | error e => simp [init, restoring, fromPrior, contextShape, isNone, hu, Except.map] at hs
  | ok t =>
    obtain ⟨n, hb, hn, hnoisy, rfl⟩ := update_ok q p t hu
    have hshape : p.batchShape = [n] := by simp [Prior.batchShape, hb, hnoisy]
    simp only [init, fromPrior, contextShape, isNone, hu, Except.map] at hs
    simp at hs
    subst hs
    refine ⟨⟨true, false, [n], some (zeros [1, m]), some (zeros [m]), some (zeros [m])⟩, ?_, ?_⟩
    · simp [init, restoring, fromPrior, contextShape, isNone, emptyTables, hshape]
    · unfold load loadBuffer
      dsimp only [zeros]
      rw [if_neg (by simp; omega)]
      rfl

/-- C70_violated is not vacuous: there are layers built from a prior. -/
example (q : List ℝ → List ℤ) : ∃ saved, init q (fromPrior
    ⟨false, some 2, fun _ => 0, fun _ => 0, fun _ => 1, fun _ _ => 0⟩) = .ok saved := by
  simp [init, restoring, fromPrior, contextShape, isNone, update, Except.map]

/-! ### C74 -/

/-- **C74, integers.** For tensors and offsets of type `int32`, `quantize` returns the rounded difference; this is
the only case in which it returns at all. -/
theorem C74_partial (round : ℝ → ℤ) (x o : ℝ) :
    quantize round .int32 x none = .ok (round x) ∧
      quantize round .int32 x (some (.int32, o)) = .ok (round (x - o)) ∧
      ∀ elt offset v, quantize round elt x offset = .ok v →
        elt = .int32 ∧ ∀ eo o, offset = some (eo, o) → eo = .int32 := by
  refine ⟨rfl, rfl, ?_⟩
  intro elt offset v h
  rcases offset with _ | ⟨eo, o⟩
  · cases elt <;> first | exact ⟨rfl, nofun⟩ | cases h
  · cases elt <;> cases eo <;> first | exact ⟨rfl, by rintro _ _ ⟨⟩; rfl⟩ | cases h

/-- **C74 is violated**: for every floating point bottleneck, with or without offsets, and for every floating point
offset, `quantize` raises `TypeError`. -/
theorem C74_violated (round : ℝ → ℤ) (x : ℝ) :
    (∀ elt, elt = .float32 ∨ elt = .float64 → ∀ offset, quantize round elt x offset = .error .type) ∧
      ∀ elt eo o, eo = .float32 ∨ eo = .float64 → quantize round elt x (some (eo, o)) = .error .type := by
  constructor
  · rintro elt (rfl | rfl) offset
    · cases offset with
      | none => rfl
      | some p => obtain ⟨e, o⟩ := p; cases e <;> rfl
    · cases offset with
      | none => rfl
      | some p => obtain ⟨e, o⟩ := p; cases e <;> rfl
  · rintro elt eo o (rfl | rfl) <;> cases elt <;> rfl

end Verif.Layers.Entropy
