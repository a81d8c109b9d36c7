import Verif.Train.Patches
import Mathlib.Tactic.Ring
import Mathlib.Tactic.Linarith
import Mathlib.Tactic.NormNum

/-!
C58: patch FID.
-/

namespace Verif.Train.Patches

variable {α β : Type}

theorem sub_div_add_one {h p : ℕ} (hp : 0 < p) (hh : p ≤ h) : (h - p) / p + 1 = h / p := by
  conv_rhs => rw [← Nat.sub_add_cancel hh, Nat.add_div_right _ hp]

/-- Position arithmetic of the flattened blocks. -/
theorem index_split {p L n c i j : ℕ} (hp : 0 < p) (hc : c < 3) (hi : i < p) (hj : j < p) :
    let k := ((n * 3 + c) * p + i) * p + j
    k / (L * (3 * p * p)) = n / L ∧ k / (3 * p * p) = n ∧ k % (3 * p * p) = c * (p * p) + i * p + j ∧
      (c * (p * p) + i * p + j) / (p * p) = c ∧ (c * (p * p) + i * p + j) / p % p = i ∧
      (c * (p * p) + i * p + j) % p = j := by
  intro k
  have hpp : 0 < p * p := Nat.mul_pos hp hp
  have hij : i * p + j < p * p := by
    calc i * p + j < i * p + p := by omega
      _ = (i + 1) * p := by ring
      _ ≤ p * p := Nat.mul_le_mul_right p hi
  have hr : c * (p * p) + i * p + j < 3 * p * p := by
    calc c * (p * p) + i * p + j < c * (p * p) + p * p := by omega
      _ = (c + 1) * (p * p) := by ring
      _ ≤ 3 * (p * p) := Nat.mul_le_mul_right _ hc
      _ = 3 * p * p := by ring
  have hk : k = 3 * p * p * n + (c * (p * p) + i * p + j) := by
    show ((n * 3 + c) * p + i) * p + j = _
    ring
  have hR : 0 < 3 * p * p := by positivity
  have h1 : k / (3 * p * p) = n := by
    rw [hk, Nat.mul_add_div hR, Nat.div_eq_of_lt hr, Nat.add_zero]
  refine ⟨?_, h1, ?_, ?_, ?_, ?_⟩
  · rw [mul_comm L, ← Nat.div_div_eq_div_mul, h1]
  · rw [hk, Nat.mul_add_mod, Nat.mod_eq_of_lt hr]
  · rw [add_assoc, mul_comm c, Nat.mul_add_div hpp, Nat.div_eq_of_lt hij, Nat.add_zero]
  · have : c * (p * p) + i * p + j = p * (p * c + i) + j := by ring
    rw [this, Nat.mul_add_div hp, Nat.div_eq_of_lt hj, Nat.add_zero, Nat.mul_add_mod, Nat.mod_eq_of_lt hi]
  · have : c * (p * p) + i * p + j = p * (p * c + i) + j := by ring
    rw [this, Nat.mul_add_mod, Nat.mod_eq_of_lt hj]

/-- **C58, the patches.** For RGB images of at least the patch size, the patches are exactly the complete blocks of the
grid, image by image and row by row, each with its pixels in place. -/
theorem C58_patches (q : α → β) (p : ℕ) (x : Images α) (hp : 0 < p) (hc : x.chan = 3) (hh : p ≤ x.height)
    (hw : p ≤ x.width) :
    ∃ r, patches q p x = .ok r ∧ r.batch = x.batch * ((x.height / p) * (x.width / p)) ∧ r.chan = 3 ∧ r.height = p ∧
      r.width = p ∧
      ∀ b gy gx c i j, gy < x.height / p → gx < x.width / p → c < 3 → i < p → j < p →
        r.el (b * ((x.height / p) * (x.width / p)) + (gy * (x.width / p) + gx)) c i j =
          q (x.el b c (gy * p + i) (gx * p + j)) := by
  have hu : unfold p x = .ok ⟨x.batch, x.chan * p * p, (x.height / p) * (x.width / p), fun b r l =>
      x.el b (r / (p * p)) (l / (x.width / p) * p + r / p % p) (l % (x.width / p) * p + r % p)⟩ := by
    unfold unfold
    rw [if_neg (by omega), sub_div_add_one hp hh, sub_div_add_one hp hw]
  set L := (x.height / p) * (x.width / p) with hL
  have hpos : 0 < 3 * p * p := by positivity
  have hr : reshape p (permute ⟨x.batch, x.chan * p * p, L, fun b r l =>
      x.el b (r / (p * p)) (l / (x.width / p) * p + r / p % p) (l % (x.width / p) * p + r % p)⟩) =
      .ok ⟨x.batch * L, 3, p, p, fun n c i j =>
        let k := ((n * 3 + c) * p + i) * p + j
        (permute ⟨x.batch, x.chan * p * p, L, fun b r l =>
      x.el b (r / (p * p)) (l / (x.width / p) * p + r / p % p) (l % (x.width / p) * p + r % p)⟩).el
          (k / (L * (3 * p * p))) (k / (3 * p * p) % L) (k % (3 * p * p))⟩ := by
    unfold reshape permute
    dsimp only
    rw [hc, if_neg]
    · rw [Nat.mul_div_cancel _ hpos]
    · rw [Nat.mul_mod_left]
      omega
  refine ⟨_, by unfold patches; rw [hu]; dsimp only [bind, Except.bind]; rw [hr]; rfl, rfl, rfl, rfl, rfl, ?_⟩
  intro b gy gx c i j hgy hgx hc' hi hj
  have hl : gy * (x.width / p) + gx < L := by
    calc gy * (x.width / p) + gx < gy * (x.width / p) + x.width / p := by omega
      _ = (gy + 1) * (x.width / p) := by ring
      _ ≤ L := Nat.mul_le_mul_right _ hgy
  obtain ⟨e1, e2, e3, e4, e5, e6⟩ := index_split (L := L) (n := b * L + (gy * (x.width / p) + gx)) hp hc' hi hj
  show q ((permute _).el _ _ _) = _
  rw [e1, e2, e3]
  unfold permute
  dsimp only
  rw [e4, e5, e6]
  have hL0 : 0 < L := by omega
  have hw0 : 0 < x.width / p := by omega
  have d1 : (b * L + (gy * (x.width / p) + gx)) / L = b := by
    rw [mul_comm b, Nat.mul_add_div hL0, Nat.div_eq_of_lt hl, Nat.add_zero]
  have d2 : (b * L + (gy * (x.width / p) + gx)) % L = gy * (x.width / p) + gx := by
    rw [mul_comm b, Nat.mul_add_mod, Nat.mod_eq_of_lt hl]
  have d3 : (gy * (x.width / p) + gx) / (x.width / p) = gy := by
    rw [mul_comm gy, Nat.mul_add_div hw0, Nat.div_eq_of_lt hgx, Nat.add_zero]
  have d4 : (gy * (x.width / p) + gx) % (x.width / p) = gx := by
    rw [mul_comm gy, Nat.mul_add_mod, Nat.mod_eq_of_lt hgx]
  rw [d1, d2, d3, d4]

/-- Specification: the number of complete blocks in an image, and in the image without the first half block. -/
def gridCount (p h w : ℕ) : ℕ := (h / p) * (w / p)

/-- The number of patches that the documentation describes. -/
def totalCount (p B h w : ℕ) : ℕ :=
  B * gridCount p h w + if 3 * p ≤ 2 * h ∧ 3 * p ≤ 2 * w then B * gridCount p (h - p / 2) (w - p / 2) else 0

/-- The number of patches of a kind that a metric has seen. -/
def seen (us : Metric β) (real : Bool) : ℕ := ((us.filter fun u => u.2 = real).map fun u => u.1.batch).sum

/-- What a metric was fed: with the patches of `input` as real and those of `pred` as fake. -/
theorem updateMetric_seen (real fake : Images β) (m : Option (Metric β)) (us : Metric β) (h : m = some us) :
    ∃ us', updateMetric real fake m = some us' ∧ seen us' true = seen us true + real.batch ∧
      seen us' false = seen us false + fake.batch := by
  subst h
  refine ⟨_, rfl, ?_, ?_⟩ <;> simp [seen]

theorem seen_append (us : Metric β) (real fake : Images β) :
    seen (us ++ [(real, true), (fake, false)]) true = seen us true + real.batch ∧
      seen (us ++ [(real, true), (fake, false)]) false = seen us false + fake.batch := by
  constructor <;> simp [seen]

/-- **C58 (RGB images of equal shape).** The function succeeds; it returns the number of complete blocks of all images
plus, if the images are at least one and a half patches in both directions, the blocks of the grid shifted by half a
patch; every metric that was passed got this number of real patches and this number of fake patches in addition to what it
had seen, and metrics that were not passed stay absent. -/
theorem C58_partial (q : α → β) (p : ℕ) (input pred : Images α) (m : Metrics β) (hp : 0 < p) (hc : input.chan = 3)
    (hh : p ≤ input.height) (hw : p ≤ input.width) (hpc : pred.chan = 3) (hpb : pred.batch = input.batch)
    (hph : pred.height = input.height) (hpw : pred.width = input.width)
    (hm : ¬ (m.fid = none ∧ m.fidSwav = none ∧ m.kid = none)) :
    ∃ m', updatePatchFid q p input pred m = .ok (totalCount p input.batch input.height input.width, m') ∧
      ∀ sel ∈ [Metrics.fid, Metrics.fidSwav, Metrics.kid],
        (sel m = none → sel m' = none) ∧
        ∀ us, sel m = some us → ∃ us', sel m' = some us' ∧ us <+: us' ∧
          ∀ real, seen us' real = seen us real + totalCount p input.batch input.height input.width := by
  obtain ⟨r1, e1, n1, -⟩ := C58_patches q p input hp hc hh hw
  obtain ⟨r2, e2, n2, -⟩ := C58_patches q p pred hp hpc (by omega) (by omega)
  rw [hpb, hph, hpw] at n2
  have hm' : ¬ (m.fid.isNone ∧ m.kid.isNone ∧ m.fidSwav.isNone) := by
    rintro ⟨h1, h2, h3⟩
    exact hm ⟨Option.isNone_iff_eq_none.1 h1, Option.isNone_iff_eq_none.1 h3, Option.isNone_iff_eq_none.1 h2⟩
  unfold updatePatchFid
  rw [if_neg hm']
  dsimp only [bind, Except.bind]
  rw [e1, e2]
  dsimp only
  by_cases hs : 2 * input.height ≥ 3 * p ∧ 2 * input.width ≥ 3 * p
  · obtain ⟨r3, e3, n3, -⟩ := C58_patches q p (crop (p / 2) input) hp hc
      (by show p ≤ input.height - p / 2; omega) (by show p ≤ input.width - p / 2; omega)
    obtain ⟨r4, e4, n4, -⟩ := C58_patches q p (crop (p / 2) pred) hp hpc
      (by show p ≤ pred.height - p / 2; omega) (by show p ≤ pred.width - p / 2; omega)
    have n3' : r3.batch = input.batch * gridCount p (input.height - p / 2) (input.width - p / 2) := n3
    have n4' : r4.batch = input.batch * gridCount p (input.height - p / 2) (input.width - p / 2) := by
      rw [← hpb, ← hph, ← hpw]; exact n4
    rw [if_pos hs, e3, e4]
    have ht : totalCount p input.batch input.height input.width = r1.batch + r3.batch := by
      unfold totalCount
      rw [if_pos hs, n1, n3']
      rfl
    refine ⟨_, by rw [ht]; rfl, fun sel hsel => ?_⟩
    have key : ∀ x : Option (Metric β),
        (x = none → updateMetric r3 r4 (updateMetric r1 r2 x) = none) ∧
        ∀ us, x = some us → ∃ us', updateMetric r3 r4 (updateMetric r1 r2 x) = some us' ∧ us <+: us' ∧
          ∀ real, seen us' real = seen us real + totalCount p input.batch input.height input.width := by
      intro x
      refine ⟨fun hx => by subst hx; rfl, fun us hx => ?_⟩
      subst hx
      refine ⟨_, rfl, ⟨[(r1, true), (r2, false)] ++ [(r3, true), (r4, false)], by simp⟩, fun real => ?_⟩
      have a1 := seen_append us r1 r2
      have a2 := seen_append (us ++ [(r1, true), (r2, false)]) r3 r4
      cases real with
      | true => rw [a2.1, a1.1, ht]; omega
      | false => rw [a2.2, a1.2, ht, n4', n2, ← n3', ← n1]; omega
    simp only [List.mem_cons, List.not_mem_nil, or_false] at hsel
    rcases hsel with rfl | rfl | rfl
    · exact key m.fid
    · exact key m.fidSwav
    · exact key m.kid
  · rw [if_neg hs]
    have ht : totalCount p input.batch input.height input.width = r1.batch := by
      unfold totalCount
      rw [if_neg hs, n1]
      rfl
    refine ⟨_, by rw [ht]; rfl, fun sel hsel => ?_⟩
    have key : ∀ x : Option (Metric β),
        (x = none → updateMetric r1 r2 x = none) ∧
        ∀ us, x = some us → ∃ us', updateMetric r1 r2 x = some us' ∧ us <+: us' ∧
          ∀ real, seen us' real = seen us real + totalCount p input.batch input.height input.width := by
      intro x
      refine ⟨fun hx => by subst hx; rfl, fun us hx => ?_⟩
      subst hx
      refine ⟨_, rfl, ⟨[(r1, true), (r2, false)], rfl⟩, fun real => ?_⟩
      have a1 := seen_append us r1 r2
      cases real with
      | true => rw [a1.1, ht]
      | false => rw [a1.2, ht, n2, ← n1]
    simp only [List.mem_cons, List.not_mem_nil, or_false] at hsel
    rcases hsel with rfl | rfl | rfl
    · exact key m.fid
    · exact key m.fidSwav
    · exact key m.kid

/-- **C58, contents.** The patches that a metric gets: first the grid of the input as real patches and of the prediction as
fake ones, then (for large images) the same of the images without their first half patch. -/
theorem C58_contents_partial (q : α → β) (p : ℕ) (input pred : Images α) (m : Metrics β) (n : ℕ) (m' : Metrics β)
    (h : updatePatchFid q p input pred m = .ok (n, m')) :
    ∃ r f, patches q p input = .ok r ∧ patches q p pred = .ok f ∧
      ((2 * input.height < 3 * p ∨ 2 * input.width < 3 * p) ∧
          (∀ us, m.fid = some us → m'.fid = some (us ++ [(r, true), (f, false)])) ∧
          (∀ us, m.fidSwav = some us → m'.fidSwav = some (us ++ [(r, true), (f, false)])) ∧
          (∀ us, m.kid = some us → m'.kid = some (us ++ [(r, true), (f, false)])) ∨
        ∃ r' f', patches q p (crop (p / 2) input) = .ok r' ∧ patches q p (crop (p / 2) pred) = .ok f' ∧
          3 * p ≤ 2 * input.height ∧ 3 * p ≤ 2 * input.width ∧
          (∀ us, m.fid = some us → m'.fid = some (us ++ [(r, true), (f, false)] ++ [(r', true), (f', false)])) ∧
          (∀ us, m.fidSwav = some us → m'.fidSwav = some (us ++ [(r, true), (f, false)] ++ [(r', true), (f', false)])) ∧
          (∀ us, m.kid = some us → m'.kid = some (us ++ [(r, true), (f, false)] ++ [(r', true), (f', false)]))) := by
  unfold updatePatchFid at h
  by_cases h1 : m.fid.isNone ∧ m.kid.isNone ∧ m.fidSwav.isNone
  · rw [if_pos h1] at h
    exact (nomatch h)
  rw [if_neg h1] at h
  dsimp only [bind, Except.bind] at h
  cases e1 : patches q p input with
  | error e => rw [e1] at h; exact (nomatch h)
  | ok r =>
    rw [e1] at h
    dsimp only at h
    cases e2 : patches q p pred with
    | error e => rw [e2] at h; exact (nomatch h)
    | ok f =>
      rw [e2] at h
      dsimp only at h
      refine ⟨r, f, rfl, rfl, ?_⟩
      by_cases hs : 2 * input.height ≥ 3 * p ∧ 2 * input.width ≥ 3 * p
      · right
        rw [if_pos hs] at h
        cases e3 : patches q p (crop (p / 2) input) with
        | error e => rw [e3] at h; exact (nomatch h)
        | ok r' =>
          rw [e3] at h
          dsimp only at h
          cases e4 : patches q p (crop (p / 2) pred) with
          | error e => rw [e4] at h; exact (nomatch h)
          | ok f' =>
            rw [e4] at h
            injection h with h
            injection h with h1 h2
            subst h2
            refine ⟨r', f', rfl, rfl, hs.1, hs.2, fun us hu => ?_, fun us hu => ?_, fun us hu => ?_⟩ <;>
              simp [updateAll, updateMetric, hu]
      · left
        rw [if_neg hs] at h
        injection h with h
        injection h with h1 h2
        subst h2
        refine ⟨by omega, fun us hu => ?_, fun us hu => ?_, fun us hu => ?_⟩ <;>
          simp [updateAll, updateMetric, hu]

/-- **C58, the second grid.** The second set of patches consists of the complete blocks of the grid that starts half a
patch below and to the right of the corner, each with its pixels in place. -/
theorem C58_shifted (q : α → β) (p : ℕ) (x : Images α) (hp : 0 < p) (hc : x.chan = 3) (hh : 3 * p ≤ 2 * x.height)
    (hw : 3 * p ≤ 2 * x.width) :
    ∃ r, patches q p (crop (p / 2) x) = .ok r ∧
      r.batch = x.batch * (((x.height - p / 2) / p) * ((x.width - p / 2) / p)) ∧
      ∀ b gy gx c i j, gy < (x.height - p / 2) / p → gx < (x.width - p / 2) / p → c < 3 → i < p → j < p →
        r.el (b * (((x.height - p / 2) / p) * ((x.width - p / 2) / p)) + (gy * ((x.width - p / 2) / p) + gx)) c i j =
          q (x.el b c (p / 2 + gy * p + i) (p / 2 + gx * p + j)) := by
  obtain ⟨r, h1, h2, -, -, -, h3⟩ := C58_patches q p (crop (p / 2) x) hp hc
    (by show p ≤ x.height - p / 2; omega) (by show p ≤ x.width - p / 2; omega)
  refine ⟨r, h1, h2, fun b gy gx c i j a1 a2 a3 a4 a5 => ?_⟩
  have := h3 b gy gx c i j a1 a2 a3 a4 a5
  refine this.trans ?_
  show q (x.el b c (gy * p + i + p / 2) (gx * p + j + p / 2)) = _
  congr 2 <;> omega

/-- **C58, rejected calls.** Without a metric, or if the image is smaller than a patch, the function raises. -/
theorem C58_rejects (q : α → β) (p : ℕ) (input pred : Images α) (m : Metrics β) :
    (m.fid = none ∧ m.fidSwav = none ∧ m.kid = none → updatePatchFid q p input pred m = .error .value) ∧
    (¬ (m.fid = none ∧ m.fidSwav = none ∧ m.kid = none) → input.height < p ∨ input.width < p →
      updatePatchFid q p input pred m = .error .runtime) := by
  constructor
  · rintro ⟨h1, h2, h3⟩
    unfold updatePatchFid
    rw [if_pos (by simp [h1, h2, h3])]
  · intro h1 h2
    unfold updatePatchFid patches unfold
    rw [if_neg]
    · dsimp only [bind, Except.bind]
      rw [if_pos (Or.inr h2)]
    · rintro ⟨a, b, c⟩
      exact h1 ⟨Option.isNone_iff_eq_none.1 a, Option.isNone_iff_eq_none.1 c, Option.isNone_iff_eq_none.1 b⟩

/-- **C58 is violated for grey images.** Three grey patches are silently merged into the channels of one patch: an image
with three complete blocks counts as one. -/
theorem C58_violated :
    let x : Images ℕ := ⟨1, 1, 4, 12, fun _ _ i j => 100 * i + j⟩
    ∃ m', updatePatchFid id 4 x x ⟨some [], none, none⟩ = .ok (1, m') ∧
      x.batch * gridCount 4 x.height x.width = 3 ∧
      ∀ us, m'.fid = some us → ∃ u ∈ us, u.1.el 0 0 0 0 = x.el 0 0 0 0 ∧ u.1.el 0 1 0 0 = x.el 0 0 0 4 := by
  refine ⟨_, rfl, by decide, fun us h => ?_⟩
  injection h with h
  subst h
  exact ⟨_, List.mem_cons_self, rfl, rfl⟩

/-- **C58 is violated for a prediction of another size**, which is accepted: one real patch, two fake ones. -/
theorem C58_violated_shape :
    let x : Images ℕ := ⟨1, 3, 4, 4, fun _ _ _ _ => 0⟩
    let y : Images ℕ := ⟨1, 3, 4, 8, fun _ _ _ _ => 0⟩
    ∃ us m', updatePatchFid id 4 x y ⟨some [], none, none⟩ = .ok (1, m') ∧ m'.fid = some us ∧
      seen us true = 1 ∧ seen us false = 2 := by
  exact ⟨_, _, rfl, rfl, rfl, rfl⟩

/-- C58 is not vacuous: two images of 6 x 7 pixels with patches of 4: one block and one shifted block each. -/
example : totalCount 4 2 6 7 = 4 ∧
    ∃ m', updatePatchFid id 4 (⟨2, 3, 6, 7, fun _ _ _ _ => 0⟩ : Images ℕ) ⟨2, 3, 6, 7, fun _ _ _ _ => 1⟩
      ⟨some [], none, some []⟩ = .ok (4, m') := ⟨by decide, _, rfl⟩

end Verif.Train.Patches
