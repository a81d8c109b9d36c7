import Verif.Functional.Pad

/-!
# C35: image padding to a factor
-/

namespace Verif.Functional

variable {α : Type}

/-- Two images have the same size and the same pixels. -/
def Image.Same (x y : Image α) : Prop :=
  x.height = y.height ∧ x.width = y.width ∧
    ∀ b c i j, i < x.height → j < x.width → x.pix b c i j = y.pix b c i j

/-- `m` is the smallest multiple of `f` that is at least `n`. -/
def LeastMultiple (f n m : ℕ) : Prop := f ∣ m ∧ n ≤ m ∧ ∀ k, f ∣ k → n ≤ k → m ≤ k

/-- The padding of one axis fits: always for constant padding; for reflection less than the axis, for
circular padding at most the axis. -/
def Fits (mode : PadMode) (n m : ℕ) : Prop :=
  match mode with
  | .constant => True
  | .reflect => m < 2 * n
  | .replicate => 0 < n
  | .circular => m ≤ 2 * n

theorem leastMultiple_pad {f : ℕ} (hf : 0 < f) (n : ℕ) :
    LeastMultiple f n (n + (f - n % f) % f) := by
  have hlt := Nat.mod_lt n hf
  have hdm := Nat.div_add_mod n f
  by_cases h0 : n % f = 0
  · have : (f - n % f) % f = 0 := by rw [h0]; simp
    rw [this]
    exact ⟨Nat.dvd_of_mod_eq_zero h0, le_rfl, fun k _ hk => hk⟩
  · have hm : (f - n % f) % f = f - n % f := Nat.mod_eq_of_lt (by omega)
    rw [hm]
    have he : n + (f - n % f) = f * (n / f + 1) := by rw [Nat.mul_add]; omega
    refine ⟨⟨_, he⟩, by omega, ?_⟩
    rintro k ⟨q, rfl⟩ hk
    rw [he]
    refine Nat.mul_le_mul_left f ?_
    by_contra hq
    have : q ≤ n / f := by omega
    have := Nat.mul_le_mul_left f this
    omega

theorem leastMultiple_unique {f n m m' : ℕ} (h : LeastMultiple f n m) (h' : LeastMultiple f n m') :
    m = m' :=
  le_antisymm (h.2.2 m' h'.1 h'.2.1) (h'.2.2 m h.1 h.2.1)

/-- C35 (what is returned is right): for every image, factor and mode, if `pad_image_to_factor` returns, the
new sizes are the smallest multiples of the factor that are at least the old ones, the original pixels are in
place, the reported size is the original one, and cropping to it gives the image back. -/
theorem C35_partial [Zero α] (x y : Image α) (factor : ℕ) (mode : PadMode) (h w : ℕ)
    (hr : padImageToFactor x factor mode = .ok (y, h, w)) :
    LeastMultiple factor x.height y.height ∧ LeastMultiple factor x.width y.width ∧
      (∀ b c i j, i < x.height → j < x.width → y.pix b c i j = x.pix b c i j) ∧
      h = x.height ∧ w = x.width ∧ (y.crop h w).Same x := by
  unfold padImageToFactor at hr
  by_cases hf : factor = 0
  · rw [if_pos hf] at hr; simp at hr
  rw [if_neg hf] at hr
  simp only at hr
  have hpos : 0 < factor := Nat.pos_of_ne_zero hf
  have l1 := leastMultiple_pad hpos x.height
  have l2 := leastMultiple_pad hpos x.width
  suffices hmain : y.height = x.height + (factor - x.height % factor) % factor ∧
      y.width = x.width + (factor - x.width % factor) % factor ∧
      (∀ b c i j, i < x.height → j < x.width → y.pix b c i j = x.pix b c i j) ∧
      h = x.height ∧ w = x.width by
    obtain ⟨hh, hw, hpix, rfl, rfl⟩ := hmain
    refine ⟨hh ▸ l1, hw ▸ l2, hpix, rfl, rfl, ?_, ?_, ?_⟩
    · simp only [Image.crop]; omega
    · simp only [Image.crop]; omega
    · intro b c i j hi hj
      simp only [Image.crop] at hi hj ⊢
      exact hpix b c i j (by omega) (by omega)
  by_cases hp : (factor - x.height % factor) % factor ≠ 0 ∨ (factor - x.width % factor) % factor ≠ 0
  · rw [if_pos hp] at hr
    unfold padEnd at hr
    split at hr
    · rename_i y' hy
      split at hy
      · simp only [Except.ok.injEq] at hy
        simp only [Except.ok.injEq, Prod.mk.injEq] at hr
        obtain ⟨rfl, rfl, rfl⟩ := hr
        subst hy
        refine ⟨rfl, rfl, fun b c i j hi hj => ?_, rfl, rfl⟩
        simp [PadMode.source, hi, hj]
      · simp at hy
    · simp at hr
  · rw [if_neg hp] at hr
    push Not at hp
    simp only [Except.ok.injEq, Prod.mk.injEq] at hr
    obtain ⟨rfl, rfl, rfl⟩ := hr
    exact ⟨by rw [hp.1]; rfl, by rw [hp.2]; rfl, fun _ _ _ _ _ _ => rfl, rfl, rfl⟩

/-- C35 (when it returns): for a positive factor the function returns exactly if the sizes are already
multiples or the padding fits on both axes. -/
theorem C35_returns_iff [Zero α] (x : Image α) {factor : ℕ} (hf : 0 < factor) (mode : PadMode) {m n : ℕ}
    (hm : LeastMultiple factor x.height m) (hn : LeastMultiple factor x.width n) :
    (∃ r, padImageToFactor x factor mode = .ok r) ↔
      (m = x.height ∧ n = x.width) ∨ (Fits mode x.height m ∧ Fits mode x.width n) := by
  rw [leastMultiple_unique hm (leastMultiple_pad hf x.height),
    leastMultiple_unique hn (leastMultiple_pad hf x.width)]
  unfold padImageToFactor padEnd
  rw [if_neg (by omega)]
  simp only
  set ph := (factor - x.height % factor) % factor
  set pw := (factor - x.width % factor) % factor
  have hfit : ∀ k p, mode.allowed k p = true ↔ Fits mode k (k + p) := by
    intro k p
    cases mode <;> simp [PadMode.allowed, Fits] <;> omega
  by_cases hp : ph ≠ 0 ∨ pw ≠ 0
  · rw [if_pos hp]
    by_cases hall : (mode.allowed x.height ph && mode.allowed x.width pw) = true
    · rw [if_pos hall]
      rw [Bool.and_eq_true, hfit, hfit] at hall
      simp [hall]
    · rw [if_neg hall]
      rw [Bool.and_eq_true, hfit, hfit] at hall
      simp only [reduceCtorEq, exists_false, hall, or_false, false_iff]
      omega
  · rw [if_neg hp]
    push Not at hp
    simp [hp]

/-- C35 fails for images smaller than half the next multiple in the default mode: a 3 by 16 image cannot be
padded to a factor of 8 (`RuntimeError`). -/
theorem C35_violated : ∃ x : Image ℕ, 0 < x.height ∧ 0 < x.width ∧
    ∃ e, padImageToFactor x 8 = .error e :=
  ⟨⟨3, 16, fun _ _ i j => i + j⟩, by decide, by decide, .runtime, rfl⟩

/-- Non-vacuity: an odd image padded by reflection, and its corner pixel. -/
example : (match padImageToFactor (⟨5, 7, fun _ _ i j => 10 * i + j⟩ : Image ℕ) 4 with
    | .ok (y, h, w) => some (y.height, y.width, h, w, y.pix 0 0 7 7, y.pix 0 0 4 6)
    | .error _ => none) = some (8, 8, 5, 7, 15, 46) := by decide +kernel

example : LeastMultiple 4 5 8 ∧ LeastMultiple 4 7 8 :=
  ⟨leastMultiple_pad (by norm_num) 5, leastMultiple_pad (by norm_num) 7⟩

end Verif.Functional
