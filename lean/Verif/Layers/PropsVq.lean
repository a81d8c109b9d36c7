import Verif.Layers.Vq
import Mathlib.Tactic.Linarith
import Mathlib.Tactic.NormNum
import Mathlib.Tactic.FieldSimp
import Mathlib.Tactic.Ring
import Mathlib.Algebra.Order.BigOperators.Ring.Finset
import Mathlib.Analysis.SpecialFunctions.Log.Deriv

/-!
C47, C72 and C73: the vector quantisation bottleneck.
-/

namespace Verif.Layers.Vq

/-! ### argmin -/

theorem argmin_fold {K : ℕ} (f : Fin (K + 1) → ℝ) (l : List (Fin (K + 1))) (b : Fin (K + 1)) :
    let r := l.foldl (fun best k => if f k < f best then k else best) b
    f r ≤ f b ∧ ∀ k ∈ l, f r ≤ f k := by
  induction l generalizing b with
  | nil => simp
  | cons a l ih =>
    obtain ⟨h1, h2⟩ := ih (if f a < f b then a else b)
    have hle : f (if f a < f b then a else b) ≤ f b ∧ f (if f a < f b then a else b) ≤ f a := by
      split_ifs with h
      · exact ⟨h.le, le_rfl⟩
      · exact ⟨le_rfl, not_lt.1 h⟩
    refine ⟨h1.trans hle.1, ?_⟩
    intro k hk
    rcases List.mem_cons.1 hk with rfl | hk
    · exact h1.trans hle.2
    · exact h2 k hk

theorem argmin_le {K : ℕ} (f : Fin (K + 1) → ℝ) (k : Fin (K + 1)) : f (argmin f) ≤ f k :=
  (argmin_fold f _ 0).2 k (List.mem_finRange k)

theorem argmin_fold_first {K : ℕ} (f : Fin (K + 1) → ℝ) (l : List (Fin (K + 1))) (b : Fin (K + 1))
    (hl : l.Pairwise (· < ·)) (hb : ∀ k ∈ l, b ≤ k) :
    let r := l.foldl (fun best k => if f k < f best then k else best) b
    (r = b ∨ (r ∈ l ∧ f r < f b)) ∧ ∀ k ∈ l, k < r → f r < f k := by
  induction l generalizing b with
  | nil => simp
  | cons a l ih =>
    rw [List.pairwise_cons] at hl
    have hb' : ∀ k ∈ l, (if f a < f b then a else b) ≤ k := by
      intro k hk
      split_ifs
      · exact (hl.1 k hk).le
      · exact hb k (List.mem_cons_of_mem _ hk)
    obtain ⟨h1, h2⟩ := ih (if f a < f b then a else b) hl.2 hb'
    rw [List.foldl_cons]
    refine ⟨?_, ?_⟩
    · rcases h1 with h1 | ⟨h1, h1'⟩
      · rw [h1]
        split_ifs with h
        · exact .inr ⟨List.mem_cons_self, h⟩
        · exact .inl rfl
      · refine .inr ⟨List.mem_cons_of_mem _ h1, h1'.trans_le ?_⟩
        split_ifs with h
        · exact h.le
        · exact le_rfl
    · intro k hk hlt
      rcases List.mem_cons.1 hk with rfl | hk
      · rcases h1 with h1 | ⟨-, h1'⟩
        · rw [h1] at hlt ⊢
          split_ifs at hlt ⊢ with h
          · exact absurd hlt (lt_irrefl _)
          · exact absurd (hb _ List.mem_cons_self) (not_le.2 hlt)
        · refine h1'.trans_le ?_
          split_ifs with h
          · exact le_rfl
          · exact not_lt.1 h
      · exact h2 k hk hlt

theorem argmin_first {K : ℕ} (f : Fin (K + 1) → ℝ) (k : Fin (K + 1)) (h : k < argmin f) : f (argmin f) < f k :=
  (argmin_fold_first f (List.finRange (K + 1)) 0 (List.pairwise_lt_finRange _) fun _ _ => Fin.zero_le _).2 k
    (List.mem_finRange k) h

theorem argmin_unique {K : ℕ} (f : Fin (K + 1) → ℝ) (k : Fin (K + 1)) (h1 : ∀ j, f k ≤ f j)
    (h2 : ∀ j < k, f k < f j) : argmin f = k := by
  rcases lt_trichotomy (argmin f) k with h | h | h
  · exact absurd (argmin_le f k) (not_le.2 (h2 _ h))
  · exact h
  · exact absurd (h1 (argmin f)) (not_le.2 (argmin_first f k h))

/-! ### C47 -/

/-- The vector of pixel `(b, y, x)`. -/
def pixel {d : ℕ} (t : Latent d) (b y x : ℕ) : Fin d → ℝ := fun c => t b c y x

/-- The squared Euclidean distance. -/
def sqDist {d : ℕ} (u v : Fin d → ℝ) : ℝ := ∑ c, (u c - v c) ^ 2

theorem row_pixel {d : ℕ} (H W : ℕ) (t : Latent d) (b y x : ℕ) (hy : y < H) (hx : x < W) :
    row H W t ((b * H + y) * W + x) = pixel t b y x := by
  have h1 : ((b * H + y) * W + x) / W = b * H + y := by
    rw [Nat.add_comm, Nat.add_mul_div_right _ _ (by omega), Nat.div_eq_of_lt hx, Nat.zero_add]
  have h2 : ((b * H + y) * W + x) % W = x := by
    rw [Nat.add_comm, Nat.add_mul_mod_self_right, Nat.mod_eq_of_lt hx]
  have h3 : (b * H + y) / H = b := by
    rw [Nat.add_comm, Nat.add_mul_div_right _ _ (by omega), Nat.div_eq_of_lt hy, Nat.zero_add]
  have h4 : (b * H + y) % H = y := by
    rw [Nat.add_comm, Nat.add_mul_mod_self_right, Nat.mod_eq_of_lt hy]
  unfold row
  rw [h1, h2, h3, h4]
  rfl

/-- **C47, nearest.** Every pixel's vector is replaced by an entry of the codebook (with normalised entries when
that option is on), no other entry is nearer to it, the index returned for the pixel names that entry, and it is
the first such entry. -/
theorem C47_nearest {d K : ℕ} (H W : ℕ) (norm : Bool) (draws : ℕ → ℝ) (t : Latent d)
    (codebook : Fin (K + 1) → Fin d → ℝ) (b y x : ℕ) (hy : y < H) (hx : x < W) :
    let entry := fun k => if norm then normalize (codebook k) else codebook k
    let out := quantizeVectors H W norm false draws t codebook
    let i := out.indices ((b * H + y) * W + x)
    pixel out.latent b y x = entry i ∧
      (∀ k, sqDist (entry i) (pixel t b y x) ≤ sqDist (entry k) (pixel t b y x)) ∧
      (∀ k < i, sqDist (entry i) (pixel t b y x) < sqDist (entry k) (pixel t b y x)) := by
  intro entry out i
  have hi : i = argmin fun k => sqDist (entry k) (pixel t b y x) := by
    have e : i = argmin (distances (effective norm codebook) (row H W t ((b * H + y) * W + x))) := rfl
    rw [e, row_pixel H W t b y x hy hx]
    rfl
  refine ⟨?_, ?_, ?_⟩
  · funext c
    show t b c y x + (effective norm codebook i c - t b c y x) = entry i c
    rw [add_sub_cancel]
    rfl
  · intro k
    rw [hi]
    exact argmin_le (fun k => sqDist (entry k) (pixel t b y x)) k
  · intro k hk
    rw [hi] at hk ⊢
    exact argmin_first (fun k => sqDist (entry k) (pixel t b y x)) k hk

theorem norm2_normalize {d : ℕ} (v : Fin d → ℝ) (h : 1e-12 ≤ norm2 v) : ∑ c, normalize v c ^ 2 = 1 := by
  have h0 : (0 : ℝ) < norm2 v := lt_of_lt_of_le (by norm_num) h
  have hs : norm2 v ^ 2 = ∑ c, v c ^ 2 := Real.sq_sqrt (Finset.sum_nonneg fun c _ => sq_nonneg _)
  unfold normalize
  rw [max_eq_left h]
  simp only [div_pow]
  rw [← Finset.sum_div, ← hs]
  exact div_self (pow_ne_zero _ h0.ne')

/-- **C47, direction.** With a normalised codebook the chosen entry is the one whose direction agrees best with
the vector: its inner product with the vector is the largest. -/
theorem C47_direction {d K : ℕ} (H W : ℕ) (draws : ℕ → ℝ) (t : Latent d) (codebook : Fin (K + 1) → Fin d → ℝ)
    (hcb : ∀ k, 1e-12 ≤ norm2 (codebook k)) (b y x : ℕ) (hy : y < H) (hx : x < W) (k : Fin (K + 1)) :
    ∑ c, codebook k c / norm2 (codebook k) * t b c y x ≤
      ∑ c, pixel (quantizeVectors H W true false draws t codebook).latent b y x c * t b c y x := by
  obtain ⟨h1, h2, -⟩ := C47_nearest H W true draws t codebook b y x hy hx
  rw [h1]
  have h := h2 k
  simp only [if_true] at h ⊢
  have expand : ∀ u v : Fin d → ℝ, sqDist u v = ∑ c, u c ^ 2 - 2 * ∑ c, u c * v c + ∑ c, v c ^ 2 := by
    intro u v
    unfold sqDist
    rw [Finset.mul_sum, ← Finset.sum_sub_distrib, ← Finset.sum_add_distrib]
    exact Finset.sum_congr rfl fun c _ => by ring
  rw [expand, expand, norm2_normalize _ (hcb _), norm2_normalize _ (hcb _)] at h
  have e : ∀ c, normalize (codebook k) c = codebook k c / norm2 (codebook k) := fun c => by
    unfold normalize; rw [max_eq_left (hcb k)]
  simp only [pixel, e] at h
  linarith

/-- The number of vectors that a history quantises. -/
def vectors {d K : ℕ} (ops : List (Op d K)) : ℕ :=
  (ops.map fun
    | .batch B H W _ => B * H * W
    | _ => 0).sum

theorem sum_filter_length {K : ℕ} (l : List ℕ) (g : ℕ → Fin (K + 1)) :
    ∑ k, (l.filter fun v => g v = k).length = l.length := by
  induction l with
  | nil => simp
  | cons a l ih =>
    have : ∀ k, ((a :: l).filter fun v => g v = k).length =
        (l.filter fun v => g v = k).length + if g a = k then 1 else 0 := by
      intro k
      by_cases h : g a = k <;> simp [h]
    simp only [this, Finset.sum_add_distrib, ih, List.length_cons]
    simp

theorem indexAdd_sum {K : ℕ} (hits : Fin (K + 1) → ℕ) (n : ℕ) (indices : ℕ → Fin (K + 1)) :
    ∑ k, indexAdd hits n indices k = ∑ k, hits k + n := by
  unfold indexAdd
  rw [Finset.sum_add_distrib, sum_filter_length, List.length_range]

theorem run_sum {d K : ℕ} (s : State d K) (ops : List (Op d K)) :
    ∑ k, (run s ops).hits k = ∑ k, s.hits k + vectors ops := by
  induction ops generalizing s with
  | nil => simp [run, vectors]
  | cons op ops ih =>
    have e : run s (op :: ops) = run (apply s op) ops := rfl
    rw [e, ih]
    cases op with
    | batch B H W t =>
      have : ∑ k, (apply s (.batch B H W t)).hits k = ∑ k, s.hits k + B * H * W := indexAdd_sum _ _ _
      rw [this]
      simp [vectors, add_assoc]
    | step c =>
      have : ∑ k, (apply s (.step c)).hits k = ∑ k, s.hits k := rfl
      rw [this]
      simp [vectors]
    | reset =>
      have : ∑ k, (apply s .reset).hits k = ∑ k, s.hits k := rfl
      rw [this]
      simp [vectors]

/-- **C47, hits.** Over every training history the counters add up to the number of quantised vectors, whatever
the batches and the changes of the codebook. -/
theorem C47_hits_partial {d K : ℕ} (codebook : Fin (K + 1) → Fin d → ℝ) (ops : List (Op d K)) :
    ∑ k, (run (fresh codebook) ops).hits k = vectors ops := by
  rw [run_sum]
  simp [fresh]

/-- **C47, counted where used.** A batch adds to the counter of an entry the number of its pixels that were
replaced by that entry, that is, for which it is the first of the nearest entries. -/
theorem C47_hits_each {d K : ℕ} (s : State d K) (B H W : ℕ) (t : Latent d) (k : Fin (K + 1)) :
    (forward s B H W t).1.hits k =
      s.hits k + ((Finset.range B ×ˢ Finset.range H ×ˢ Finset.range W).filter fun p =>
        argmin (fun j => sqDist (normalize (s.codebook j)) (pixel t p.1 p.2.1 p.2.2)) = k).card := by
  show s.hits k + _ = _
  congr 1
  have e : ∀ b y x, y < H → x < W → (forward s B H W t).2.1.indices ((b * H + y) * W + x) =
      argmin (fun j => sqDist (normalize (s.codebook j)) (pixel t b y x)) := by
    intro b y x hy hx
    have e : (forward s B H W t).2.1.indices ((b * H + y) * W + x) =
      argmin (distances (effective true s.codebook) (row H W t ((b * H + y) * W + x))) := rfl
    rw [e, row_pixel H W t b y x hy hx]
    rfl
  have hcard : ((List.range (B * H * W)).filter fun v => (forward s B H W t).2.1.indices v = k).length =
      ((Finset.range (B * H * W)).filter fun v => (forward s B H W t).2.1.indices v = k).card := rfl
  refine hcard.trans ?_
  have dec : ∀ v, v < B * H * W → v / W / H < B ∧ v / W % H < H ∧ v % W < W ∧
      (v / W / H * H + v / W % H) * W + v % W = v := by
    intro v hv
    have hW : 0 < W := Nat.pos_of_ne_zero fun h => by simp [h] at hv
    have hH : 0 < H := Nat.pos_of_ne_zero fun h => by simp [h] at hv
    refine ⟨?_, Nat.mod_lt _ hH, Nat.mod_lt _ hW, ?_⟩
    · rw [Nat.div_lt_iff_lt_mul hH, Nat.div_lt_iff_lt_mul hW]
      exact hv
    · rw [Nat.mul_comm (v / W / H) H, Nat.div_add_mod, Nat.mul_comm, Nat.div_add_mod]
  refine Finset.card_nbij' (fun v => (v / W / H, v / W % H, v % W)) (fun p => (p.1 * H + p.2.1) * W + p.2.2)
    ?_ ?_ ?_ ?_
  · intro v hv
    simp only [Finset.coe_filter, Finset.mem_range, Set.mem_ofPred_eq, Finset.mem_product] at hv ⊢
    obtain ⟨h1, h2, h3, h4⟩ := dec v hv.1
    refine ⟨⟨h1, h2, h3⟩, ?_⟩
    rw [← e _ _ _ h2 h3, h4]
    exact hv.2
  · rintro ⟨b, y, x⟩ hp
    simp only [Finset.coe_filter, Finset.mem_range, Set.mem_ofPred_eq, Finset.mem_product] at hp ⊢
    obtain ⟨⟨hb, hy, hx⟩, hk⟩ := hp
    refine ⟨?_, ?_⟩
    · calc (b * H + y) * W + x < (b * H + y) * W + W := by omega
        _ = (b * H + y + 1) * W := by ring
        _ ≤ B * H * W := by
          refine Nat.mul_le_mul_right W ?_
          calc b * H + y + 1 ≤ b * H + H := by omega
            _ = (b + 1) * H := by ring
            _ ≤ B * H := Nat.mul_le_mul_right H hb
    · rw [e b y x hy hx]
      exact hk
  · intro v hv
    simp only [Finset.coe_filter, Finset.mem_range, Set.mem_ofPred_eq] at hv
    exact (dec v hv.1).2.2.2
  · rintro ⟨b, y, x⟩ hp
    simp only [Finset.coe_filter, Finset.mem_range, Set.mem_ofPred_eq, Finset.mem_product] at hp
    obtain ⟨⟨hb, hy, hx⟩, -⟩ := hp
    have h1 : ((b * H + y) * W + x) / W = b * H + y := by
      rw [Nat.add_comm, Nat.add_mul_div_right _ _ (by omega), Nat.div_eq_of_lt hx, Nat.zero_add]
    have h2 : ((b * H + y) * W + x) % W = x := by
      rw [Nat.add_comm, Nat.add_mul_mod_self_right, Nat.mod_eq_of_lt hx]
    have h3 : (b * H + y) / H = b := by
      rw [Nat.add_comm, Nat.add_mul_div_right _ _ (by omega), Nat.div_eq_of_lt hy, Nat.zero_add]
    have h4 : (b * H + y) % H = y := by
      rw [Nat.add_comm, Nat.add_mul_mod_self_right, Nat.mod_eq_of_lt hy]
    show ((((b * H + y) * W + x) / W / H), ((b * H + y) * W + x) / W % H, ((b * H + y) * W + x) % W) = (b, y, x)
    rw [h1, h2, h3, h4]

/-- C47 is not vacuous: three batches and a change of the codebook. -/
example : vectors (d := 2) (K := 3)
    [.batch 1 2 2 fun _ _ _ _ => 0, .step fun _ _ => 1, .reset, .batch 2 1 1 fun _ _ _ _ => 1] = 6 := rfl

/-- **C47 is violated** by `reset_hits`: it clears nothing, for every state; so after any history with at least
one vector, counters that should be zero are not. -/
theorem C47_violated {d K : ℕ} (codebook : Fin (K + 1) → Fin d → ℝ) (ops : List (Op d K)) (h : 0 < vectors ops) :
    (run (fresh codebook) (ops ++ [.reset])).hits = (run (fresh codebook) ops).hits ∧
      ∃ k, (run (fresh codebook) (ops ++ [.reset])).hits k ≠ 0 := by
  have e : run (fresh codebook) (ops ++ [.reset]) = run (fresh codebook) ops := by
    unfold run
    rw [List.foldl_append]
    rfl
  rw [e]
  refine ⟨rfl, ?_⟩
  by_contra hcon
  push Not at hcon
  have := C47_hits_partial codebook ops
  rw [Finset.sum_eq_zero fun k _ => hcon k] at this
  omega

/-! ### C72: bytes and metrics -/

/-- **C72, bytes.** The reported number of bytes is within one byte of what the indices need: there are at least
as many index maps as values of that many bytes, and one more byte always suffices. -/
theorem C72_bytes_partial (B H W K : ℕ) (hK : 0 < K) :
    256 ^ numBytes B H W K ≤ K ^ (B * H * W) ∧ K ^ (B * H * W) < 256 ^ (numBytes B H W K + 1) := by
  have hK' : (0 : ℝ) < K := by exact_mod_cast hK
  have hlog : 0 ≤ Real.logb 2 K := Real.logb_nonneg (by norm_num) (by exact_mod_cast hK)
  set r : ℝ := (B : ℝ) * H * W * Real.logb 2 K / 8 with hr
  have hr0 : 0 ≤ r := by positivity
  have e256 : ∀ n : ℕ, ((256 : ℝ) ^ n) = 2 ^ (8 * (n : ℝ)) := by
    intro n
    rw [Real.rpow_mul (by norm_num), Real.rpow_natCast]
    norm_num
  have eK : ((K : ℝ) ^ (B * H * W)) = 2 ^ (8 * r) := by
    have : (8 : ℝ) * r = Real.logb 2 K * ((B * H * W : ℕ) : ℝ) := by
      rw [hr]; push_cast; ring
    rw [this, Real.rpow_mul (by norm_num), Real.rpow_logb (by norm_num) (by norm_num) hK', Real.rpow_natCast]
  have hfl : numBytes B H W K = ⌊r⌋₊ := rfl
  constructor
  · have : ((256 : ℝ) ^ numBytes B H W K) ≤ (K : ℝ) ^ (B * H * W) := by
      rw [e256, eK, hfl]
      exact Real.rpow_le_rpow_of_exponent_le (by norm_num) (by linarith [Nat.floor_le hr0])
    exact_mod_cast this
  · have : ((K : ℝ) ^ (B * H * W)) < (256 : ℝ) ^ (numBytes B H W K + 1) := by
      rw [e256, eK, hfl]
      refine Real.rpow_lt_rpow_of_exponent_lt (by norm_num) ?_
      have := Nat.lt_floor_add_one r
      push_cast
      linarith
    exact_mod_cast this

/-- **C72, the bytes of a call.** The number that the layer itself returns is the one for its batch and its own
codebook of `K + 1` entries. -/
theorem C72_forward_partial {d K : ℕ} (s : State d K) (B H W : ℕ) (latent : Latent d) :
    256 ^ (forward s B H W latent).2.2 ≤ (K + 1) ^ (B * H * W) ∧
      (K + 1) ^ (B * H * W) < 256 ^ ((forward s B H W latent).2.2 + 1) :=
  C72_bytes_partial B H W (K + 1) (Nat.succ_pos K)

/-- **C72, when it suffices.** The reported number of bytes can tell all index maps apart exactly if their number is a
power of 256. -/
theorem C72_enough_partial (B H W K : ℕ) (hK : 0 < K) :
    K ^ (B * H * W) ≤ 256 ^ numBytes B H W K ↔ ∃ j, K ^ (B * H * W) = 256 ^ j := by
  obtain ⟨h1, h2⟩ := C72_bytes_partial B H W K hK
  constructor
  · intro h
    exact ⟨_, le_antisymm h h1⟩
  · rintro ⟨j, h⟩
    rw [h] at h1 h2 ⊢
    have : j < numBytes B H W K + 1 := (Nat.pow_lt_pow_iff_right (by norm_num)).1 h2
    exact Nat.pow_le_pow_right (by norm_num) (by omega)

/-- Two maps of a codebook of 16 entries and of 256 entries: the bytes suffice. -/
example : 16 ^ (1 * 1 * 2) ≤ 256 ^ numBytes 1 1 2 16 := (C72_enough_partial 1 1 2 16 (by norm_num)).2 ⟨1, by norm_num⟩

/-- **C72 is violated**: the reported number of bytes can be too small to tell the index maps apart, for example
zero bytes for one vector and two entries. -/
theorem C72_violated : numBytes 1 1 1 2 = 0 ∧ 256 ^ numBytes 1 1 1 2 < 2 ^ (1 * 1 * 1) := by
  have h : numBytes 1 1 1 2 = 0 := by
    unfold numBytes
    rw [Nat.floor_eq_zero]
    push_cast
    rw [Real.logb_self_eq_one (by norm_num)]
    norm_num
  rw [h]
  norm_num

/-- **C72, metrics.** Once something has been quantised, the perplexity lies between one (less the numerical
guard) and the size of the codebook. The share of used entries lies between zero and one, and the largest counter
is at most the sum and at least the average. -/
theorem C72_metrics {K : ℕ} (hits : Fin (K + 1) → ℕ) (h : 0 < ∑ k, hits k) :
    (∃ p, perplexity hits = some p ∧ 1 / (1 + 1e-7) ≤ p ∧ p ≤ ((K + 1 : ℕ) : ℝ)) ∧
      0 < percentageHits hits ∧ percentageHits hits ≤ 1 ∧
      maxHits hits ≤ ∑ k, hits k ∧ ∑ k, hits k ≤ (K + 1) * maxHits hits := by
  set S := ∑ k, hits k with hS
  have hS' : (0 : ℝ) < S := by exact_mod_cast h
  have hK : (0 : ℝ) < ((K + 1 : ℕ) : ℝ) := by positivity
  set p : Fin (K + 1) → ℝ := fun k => (hits k : ℝ) / (S : ℝ) with hp
  have hp0 : ∀ k, 0 ≤ p k := fun k => by positivity
  have hsum : ∑ k, p k = 1 := by
    rw [hp, ← Finset.sum_div, ← Nat.cast_sum]
    exact div_self hS'.ne'
  have hp1 : ∀ k, p k ≤ 1 := fun k => by
    rw [← hsum]
    exact Finset.single_le_sum (fun j _ => hp0 j) (Finset.mem_univ k)
  have hperp : perplexity hits = some ((2 : ℝ) ^ (-∑ k, p k * Real.logb 2 (p k + 1e-7))) := by
    unfold perplexity
    rw [if_neg (by omega)]
  have l2 : 0 < Real.log 2 := Real.log_pos (by norm_num)
  have toexp : (2 : ℝ) ^ (-∑ k, p k * Real.logb 2 (p k + 1e-7)) =
      Real.exp (-∑ k, p k * Real.log (p k + 1e-7)) := by
    rw [Real.rpow_def_of_pos (by norm_num)]
    congr 1
    rw [mul_neg, Finset.mul_sum]
    congr 1
    refine Finset.sum_congr rfl fun k _ => ?_
    unfold Real.logb
    field_simp
  have upper : -∑ k, p k * Real.log (p k + 1e-7) ≤ Real.log ((K + 1 : ℕ) : ℝ) := by
    have key : ∀ k, -(p k * Real.log (p k + 1e-7)) ≤
        p k * Real.log ((K + 1 : ℕ) : ℝ) + (1 / ((K + 1 : ℕ) : ℝ) - p k) := by
      intro k
      rcases (hp0 k).eq_or_lt with h0 | h0
      · rw [← h0]
        have : (0 : ℝ) ≤ 1 / ((K + 1 : ℕ) : ℝ) := by positivity
        linarith
      · have m : Real.log (p k) ≤ Real.log (p k + 1e-7) := Real.log_le_log h0 (by linarith [show (0:ℝ) < 1e-7 by norm_num])
        have q : Real.log (1 / (((K + 1 : ℕ) : ℝ) * p k)) ≤ 1 / (((K + 1 : ℕ) : ℝ) * p k) - 1 :=
          Real.log_le_sub_one_of_pos (by positivity)
        rw [one_div, Real.log_inv, Real.log_mul hK.ne' h0.ne'] at q
        have q' := mul_le_mul_of_nonneg_left q h0.le
        have e : p k * ((((K + 1 : ℕ) : ℝ) * p k)⁻¹ - 1) = 1 / ((K + 1 : ℕ) : ℝ) - p k := by
          field_simp
        rw [e] at q'
        have m' := mul_le_mul_of_nonneg_left m h0.le
        nlinarith
    calc -∑ k, p k * Real.log (p k + 1e-7) = ∑ k, -(p k * Real.log (p k + 1e-7)) := by
          rw [Finset.sum_neg_distrib]
      _ ≤ ∑ k, (p k * Real.log ((K + 1 : ℕ) : ℝ) + (1 / ((K + 1 : ℕ) : ℝ) - p k)) :=
          Finset.sum_le_sum fun k _ => key k
      _ = Real.log ((K + 1 : ℕ) : ℝ) := by
          rw [Finset.sum_add_distrib, ← Finset.sum_mul, hsum, Finset.sum_sub_distrib, hsum, Finset.sum_const,
            Finset.card_univ, Fintype.card_fin, nsmul_eq_mul]
          field_simp
          ring
  have lower : -Real.log (1 + 1e-7) ≤ -∑ k, p k * Real.log (p k + 1e-7) := by
    rw [neg_le_neg_iff]
    calc ∑ k, p k * Real.log (p k + 1e-7) ≤ ∑ k, p k * Real.log (1 + 1e-7) := by
          refine Finset.sum_le_sum fun k _ => mul_le_mul_of_nonneg_left ?_ (hp0 k)
          exact Real.log_le_log (by linarith [hp0 k, show (0:ℝ) < 1e-7 by norm_num]) (by linarith [hp1 k])
      _ = Real.log (1 + 1e-7) := by rw [← Finset.sum_mul, hsum, one_mul]
  refine ⟨⟨_, hperp, ?_, ?_⟩, ?_, ?_, ?_, ?_⟩
  · rw [toexp, one_div, ← Real.exp_log (show (0 : ℝ) < 1 + 1e-7 by norm_num), ← Real.exp_neg,
      Real.exp_le_exp]
    exact lower
  · rw [toexp, ← Real.exp_log hK, Real.exp_le_exp]
    exact upper
  · unfold percentageHits
    refine div_pos ?_ hK
    obtain ⟨k, -, hk⟩ := Finset.exists_ne_zero_of_sum_ne_zero (show ∑ k, hits k ≠ 0 by omega)
    have : 0 < (Finset.univ.filter fun k => hits k ≠ 0).card :=
      Finset.card_pos.2 ⟨k, Finset.mem_filter.2 ⟨Finset.mem_univ k, hk⟩⟩
    exact_mod_cast this
  · unfold percentageHits
    rw [div_le_one hK]
    have := Finset.card_filter_le (Finset.univ : Finset (Fin (K + 1))) (fun k => hits k ≠ 0)
    rw [Finset.card_univ, Fintype.card_fin] at this
    exact_mod_cast this
  · exact Finset.sup_le fun k _ => Finset.single_le_sum (fun j _ => Nat.zero_le _) (Finset.mem_univ k)
  · calc S ≤ ∑ _k : Fin (K + 1), maxHits hits := Finset.sum_le_sum fun k hk => Finset.le_sup hk
      _ = (K + 1) * maxHits hits := by simp

/-- The metrics of a bottleneck that has seen nothing are not numbers. -/
theorem C72_unused {d K : ℕ} (codebook : Fin (K + 1) → Fin d → ℝ) :
    perplexity (fresh codebook).hits = none := by simp [perplexity, fresh]

/-- C72_metrics is not vacuous. -/
example : 0 < ∑ k : Fin 3, ![2, 0, 1] k := by decide

/-! ### C73: the probabilistic choice -/

/-- The probability that the distances give to an entry: inversely proportional to the guarded distance. -/
noncomputable def chance {K : ℕ} (dist : Fin (K + 1) → ℝ) (k : Fin (K + 1)) : ℝ :=
  1 / (dist k + 1e-7) / ∑ i, 1 / (dist i + 1e-7)

/-- **C73.** The draws `u` in `[0, 1)` for which the probabilistic choice returns entry `k` form an interval as
long as the entry's chance: those above the summed chances of the earlier entries and up to the summed chances
with this one (and zero goes to the first entry). The chances are positive and sum to one. -/
theorem C73_choice {K : ℕ} (dist : Fin (K + 1) → ℝ) (hd : ∀ k, 0 ≤ dist k) :
    (∀ k, 0 < chance dist k) ∧ ∑ k, chance dist k = 1 ∧
      ∀ u, 0 ≤ u → u < 1 → ∀ k, choose true u dist = k ↔
        ((∑ j ∈ Finset.univ.filter (· < k), chance dist j < u ∨ k = 0) ∧
          u ≤ ∑ j ∈ Finset.univ.filter (· < k), chance dist j + chance dist k) := by
  have w : ∀ k, 0 < 1 / (dist k + 1e-7) := fun k => by
    have := hd k
    exact div_pos one_pos (by linarith [show (0:ℝ) < 1e-7 by norm_num])
  have W : 0 < ∑ i, 1 / (dist i + 1e-7) := Finset.sum_pos (fun i _ => w i) ⟨0, Finset.mem_univ _⟩
  have cpos : ∀ k, 0 < chance dist k := fun k => div_pos (w k) W
  have csum : ∑ k, chance dist k = 1 := by
    unfold chance
    rw [← Finset.sum_div]
    exact div_self W.ne'
  have cum : ∀ k, cumulative dist k = ∑ j ∈ Finset.univ.filter (· ≤ k), chance dist j := fun k => rfl
  have split : ∀ k, cumulative dist k = ∑ j ∈ Finset.univ.filter (· < k), chance dist j + chance dist k := by
    intro k
    rw [cum]
    have : (Finset.univ.filter (· ≤ k) : Finset (Fin (K + 1))) = insert k (Finset.univ.filter (· < k)) := by
      ext j
      simp [le_iff_lt_or_eq, or_comm]
    rw [this, Finset.sum_insert (by simp)]
    ring
  have mono : ∀ i k, i < k → cumulative dist i ≤ ∑ j ∈ Finset.univ.filter (· < k), chance dist j := by
    intro i k hik
    rw [cum]
    refine Finset.sum_le_sum_of_subset_of_nonneg ?_ fun j _ _ => (cpos j).le
    intro j hj
    rw [Finset.mem_filter] at hj ⊢
    exact ⟨hj.1, lt_of_le_of_lt hj.2 hik⟩
  have smono : ∀ i k, i < k → cumulative dist i < cumulative dist k := by
    intro i k hik
    rw [split k]
    have := mono i k hik
    linarith [cpos k]
  have le1 : ∀ k, cumulative dist k ≤ 1 := by
    intro k
    rw [cum, ← csum]
    exact Finset.sum_le_sum_of_subset_of_nonneg (Finset.filter_subset _ _) fun j _ _ => (cpos j).le
  have last : cumulative dist (Fin.last K) = 1 := by
    rw [cum, ← csum]
    congr 1
    ext j
    simp [Fin.le_last]
  refine ⟨cpos, csum, ?_⟩
  intro u hu0 hu1
  -- the unique entry described on the right is the one chosen
  have pick : ∀ k, ((∑ j ∈ Finset.univ.filter (· < k), chance dist j < u ∨ k = 0) ∧
      u ≤ ∑ j ∈ Finset.univ.filter (· < k), chance dist j + chance dist k) → choose true u dist = k := by
    intro k ⟨h1, h2⟩
    rw [← split] at h2
    unfold choose
    rw [if_pos rfl]
    have below : ∀ j < k, cumulative dist j < u := by
      intro j hj
      rcases h1 with h1 | h1
      · exact (mono j k hj).trans_lt h1
      · rw [h1] at hj
        exact absurd hj (Fin.not_lt_zero j)
    have vk : (if cumulative dist k - u < 0 then (1 : ℝ) else cumulative dist k - u) = cumulative dist k - u :=
      if_neg (by linarith)
    refine argmin_unique _ k ?_ ?_
    · intro j
      show (if cumulative dist k - u < 0 then (1 : ℝ) else _) ≤ if cumulative dist j - u < 0 then 1 else _
      rw [vk]
      split_ifs with hj
      · linarith [le1 k]
      · rcases lt_trichotomy j k with h | h | h
        · linarith [below j h]
        · rw [h]
        · linarith [smono k j h]
    · intro j hj
      show (if cumulative dist k - u < 0 then (1 : ℝ) else _) < if cumulative dist j - u < 0 then 1 else _
      rw [vk, if_pos (by linarith [below j hj])]
      have hu : 0 < u := by
        have h1 := below j hj
        have : 0 < cumulative dist j := by
          rw [split]
          have := Finset.sum_nonneg (s := Finset.univ.filter (· < j)) fun i _ => (cpos i).le
          linarith [cpos j]
        linarith
      linarith [le1 k]
  intro k
  refine ⟨?_, pick k⟩
  intro hk
  -- there is an entry with the property, hence it is the chosen one
  obtain ⟨m, hm, hmin⟩ : ∃ m : Fin (K + 1), u ≤ cumulative dist m ∧ ∀ j < m, ¬ u ≤ cumulative dist j := by
    classical
    have hne : (Finset.univ.filter fun m : Fin (K + 1) => u ≤ cumulative dist m).Nonempty :=
      ⟨Fin.last K, Finset.mem_filter.2 ⟨Finset.mem_univ _, by rw [last]; exact hu1.le⟩⟩
    refine ⟨Finset.min' _ hne, (Finset.mem_filter.1 (Finset.min'_mem _ hne)).2, ?_⟩
    intro j hj hcon
    have := Finset.min'_le (Finset.univ.filter fun m : Fin (K + 1) => u ≤ cumulative dist m) j
      (Finset.mem_filter.2 ⟨Finset.mem_univ _, hcon⟩)
    exact absurd hj (not_lt.2 this)
  have hprop : (∑ j ∈ Finset.univ.filter (· < m), chance dist j < u ∨ m = 0) ∧
      u ≤ ∑ j ∈ Finset.univ.filter (· < m), chance dist j + chance dist m := by
    refine ⟨?_, by rw [← split]; exact hm⟩
    by_cases h0 : m = 0
    · exact .inr h0
    · left
      have hpos : 0 < m.val := by
        rcases Nat.eq_zero_or_pos m.val with h | h
        · exact absurd (Fin.ext h) h0
        · exact h
      set j : Fin (K + 1) := ⟨m.val - 1, by omega⟩
      have hj : j < m := by
        rw [Fin.lt_def]
        show m.val - 1 < m.val
        omega
      have := hmin j hj
      have e : (Finset.univ.filter (· < m) : Finset (Fin (K + 1))) = Finset.univ.filter (· ≤ j) := by
        ext i
        simp only [Finset.mem_filter, Finset.mem_univ, true_and, Fin.lt_def, Fin.le_def]
        show i.val < m.val ↔ i.val ≤ m.val - 1
        omega
      rw [e, ← cum]
      exact not_le.1 this
  have := pick m hprop
  rw [hk] at this
  rw [this]
  exact hprop

/-- C73 is about something: distances may be zero. -/
example : ∀ k : Fin 2, (0 : ℝ) ≤ ![0, 3] k := by
  intro k
  fin_cases k <;> simp

end Verif.Layers.Vq
