import Verif.Models.PropsDvcValues2

/-!
# C136: the layers of deep video compression in explicit terms

Specification: `doubled` (linear interpolation to twice the size), sums over positions.
-/

namespace Verif.Models.DvcValues

open Verif Verif.Functional Verif.Models.DvcNets
open Verif.Models.VqVaeNet (bind_ok)

variable {Str : Type}

theorem run_val {training inverse : Bool} {l : Layer} {w : LayerW} {t r : Tensor} (h : run training inverse l w t = .ok r) :
    l.apply training t.shape = .ok r.shape ∧ r.val = values training inverse l w t := by
  unfold run at h
  obtain ⟨s, e, h⟩ := bind_ok h
  cases h
  exact ⟨e, rfl⟩

/-- **C136, convolutions.** Every output is the bias, if there is one, and the weighted sum of the inputs under the kernel,
which are zero beyond the image. -/
theorem C136_convolution (training inverse bias : Bool) (cin cout k s p : ℕ) (w : LayerW) (t r : Tensor)
    (h : run training inverse (.conv cin cout k s p bias) w t = .ok r) (b o i j : ℕ) :
    r.val b o i j = (if bias then w.bias o else 0) + ∑ c ∈ Finset.range cin, ∑ di ∈ Finset.range k, ∑ dj ∈ Finset.range k,
      w.weight o c di dj *
        (if p ≤ i * s + di ∧ i * s + di < t.shape.h + p ∧ p ≤ j * s + dj ∧ j * s + dj < t.shape.w + p then
          t.val b c (i * s + di - p) (j * s + dj - p) else 0) := by
  rw [(run_val h).2]
  simp only [values, HificNet.conv2d, LayerW.conv]
  congr 1
  · cases bias <;> rfl
  · refine Finset.sum_congr rfl fun c _ => Finset.sum_congr rfl fun di _ => Finset.sum_congr rfl fun dj _ => ?_
    congr 1
    unfold HificNet.zeroPadded
    rw [← Nat.cast_mul, ← Nat.cast_mul]
    generalize i * s = A
    generalize j * s = B
    simp only [Tensor.image]
    rw [show ((A : ℤ) + di - p).toNat = A + di - p by omega, show ((B : ℤ) + dj - p).toNat = B + dj - p by omega]
    refine if_congr ?_ rfl rfl
    omega

theorem sum_pick (f : ℕ → ℝ) (n : ℕ) (q : ℤ) :
    ∑ u ∈ Finset.range n, (if (u : ℤ) = q then f u else 0) = if 0 ≤ q ∧ q < n then f q.toNat else 0 := by
  split_ifs with h
  · rw [Finset.sum_eq_single q.toNat]
    · rw [if_pos (by omega)]
    · intro u _ hu
      rw [if_neg (by omega)]
    · intro hu
      exact absurd (Finset.mem_range.2 (by omega)) hu
  · refine Finset.sum_eq_zero fun u hu => if_neg ?_
    rw [Finset.mem_range] at hu
    omega

theorem deconv_term (wt : ℝ) (t : Tensor) (b c i j p s di dj : ℕ) (hs : s ≠ 0) :
    (if (s : ℤ) ∣ (i : ℤ) + p - di ∧ (s : ℤ) ∣ (j : ℤ) + p - dj then
      wt * HificNet.zeroPadded t.image b c (((i : ℤ) + p - di) / s) (((j : ℤ) + p - dj) / s) else 0) =
    ∑ u ∈ Finset.range t.shape.h, ∑ v ∈ Finset.range t.shape.w,
      if u * s + di = i + p ∧ v * s + dj = j + p then wt * t.val b c u v else 0 := by
  have hs' : (s : ℤ) ≠ 0 := by exact_mod_cast hs
  have pos : ∀ (u a d : ℕ) (q : ℤ), (a : ℤ) + p - d = s * q → (u * s + d = a + p ↔ (u : ℤ) = q) := by
    intro u a d q hq
    constructor
    · intro e
      have e' : (u : ℤ) * s + d = a + p := by exact_mod_cast e
      have : (s : ℤ) * u = s * q := by linarith
      exact mul_left_cancel₀ hs' this
    · intro e
      subst e
      have : (u : ℤ) * s + d = a + p := by linarith
      exact_mod_cast this
  have none : ∀ (u a d : ℕ), ¬ (s : ℤ) ∣ (a : ℤ) + p - d → u * s + d ≠ a + p := by
    intro u a d hd e
    apply hd
    have e' : (u : ℤ) * s + d = a + p := by exact_mod_cast e
    exact ⟨u, by linarith⟩
  by_cases h1 : (s : ℤ) ∣ (i : ℤ) + p - di
  · by_cases h2 : (s : ℤ) ∣ (j : ℤ) + p - dj
    · rw [if_pos ⟨h1, h2⟩]
      obtain ⟨q1, e1⟩ := h1
      obtain ⟨q2, e2⟩ := h2
      rw [e1, e2, Int.mul_ediv_cancel_left _ hs', Int.mul_ediv_cancel_left _ hs']
      have : ∀ u ∈ Finset.range t.shape.h, (∑ v ∈ Finset.range t.shape.w,
          if u * s + di = i + p ∧ v * s + dj = j + p then wt * t.val b c u v else 0) =
          if (u : ℤ) = q1 then (if 0 ≤ q2 ∧ q2 < t.shape.w then wt * t.val b c u q2.toNat else 0) else 0 := by
        intro u _
        split_ifs with hu hv
        · rw [← (sum_pick (fun v => wt * t.val b c u v) t.shape.w q2).trans (if_pos hv)]
          refine Finset.sum_congr rfl fun v _ => ?_
          simp only [(pos u i di q1 e1).2 hu, true_and, pos v j dj q2 e2]
        · refine Eq.trans ?_ ((sum_pick (fun v => wt * t.val b c u v) t.shape.w q2).trans (if_neg hv))
          refine Finset.sum_congr rfl fun v _ => ?_
          simp only [(pos u i di q1 e1).2 hu, true_and, pos v j dj q2 e2]
        · refine Finset.sum_eq_zero fun v _ => if_neg ?_
          rintro ⟨a, _⟩
          exact hu ((pos u i di q1 e1).1 a)
      rw [Finset.sum_congr rfl this,
        sum_pick (fun u => if 0 ≤ q2 ∧ q2 < t.shape.w then wt * t.val b c u q2.toNat else 0)]
      unfold HificNet.zeroPadded Tensor.image
      dsimp only
      split_ifs <;> first | rfl | omega | simp
    · rw [if_neg (by tauto)]
      refine (Finset.sum_eq_zero fun u _ => Finset.sum_eq_zero fun v _ => if_neg ?_).symm
      rintro ⟨_, a⟩
      exact none _ _ _ h2 a
  · rw [if_neg (by tauto)]
    refine (Finset.sum_eq_zero fun u _ => Finset.sum_eq_zero fun v _ => if_neg ?_).symm
    rintro ⟨a, _⟩
    exact none _ _ _ h1 a

/-- **C136, transposed convolutions.** With the size that is asked for, every output is the bias, if there is one, and the sum
over all inputs whose kernel reaches it. -/
theorem C136_transposed (training bias : Bool) (cin cout k s p : ℕ) (w : LayerW) (t r : Tensor) (wanted : Shape)
    (h : runSized training (.convT cin cout k s p bias) w t wanted = .ok r) :
    r.shape = ⟨t.shape.n, cout, wanted.h, wanted.w⟩ ∧
    ∀ b o i j, r.val b o i j = (if bias then w.bias o else 0) + ∑ c ∈ Finset.range cin, ∑ di ∈ Finset.range k,
      ∑ dj ∈ Finset.range k, ∑ u ∈ Finset.range t.shape.h, ∑ v ∈ Finset.range t.shape.w,
        if u * s + di = i + p ∧ v * s + dj = j + p then w.weight c o di dj * t.val b c u v else 0 := by
  unfold runSized at h
  obtain ⟨z, e, h⟩ := bind_ok h
  cases h
  unfold applySized at e
  dsimp only at e
  split at e
  · cases e
  · rename_i hne
    have hs : s ≠ 0 := by
      intro hs
      exact hne (Or.inr (Or.inr (Or.inl hs)))
    have size : ∀ {m a q : ℕ}, convTOut k s p m (some a) = .ok q → q = a := by
      intro m a q hq
      unfold convTOut at hq
      dsimp only at hq
      split at hq
      · cases hq
      · split at hq
        · cases hq
        · cases hq
          rfl
    obtain ⟨a1, g1, e⟩ := bind_ok e
    obtain ⟨a2, g2, e⟩ := bind_ok e
    cases e
    refine ⟨by dsimp only; rw [size g1, size g2], fun b o i j => ?_⟩
    simp only [values, HificNet.convTranspose2d, LayerW.conv]
    congr 1
    · cases bias <;> rfl
    · refine Finset.sum_congr rfl fun c _ => Finset.sum_congr rfl fun di _ => Finset.sum_congr rfl fun dj _ => ?_
      exact deconv_term _ t b c i j p s di dj hs

/-- **C136, normalisation.** `SimplifiedGDN` divides, and `SimplifiedInverseGDN` multiplies, every value by a sum of the
absolute values of all channels of its pixel, with weights of at least zero, and a number of at least a millionth. -/
theorem C136_gdn (training inverse : Bool) (c : ℕ) (w : LayerW) (t r : Tensor)
    (h : run training inverse (.gdn c) w t = .ok r) : r.shape = t.shape ∧ ∀ b, ∀ k < c, ∀ i j,
      r.val b k i j =
        let norm := ∑ l ∈ Finset.range c, max (w.gamma k l) 0 * |t.val b l i j| + max (w.beta k) (1 / 1000000)
        if inverse then t.val b k i j * norm else t.val b k i j / norm := by
  obtain ⟨e, hv⟩ := run_val h
  constructor
  · unfold Layer.apply at e
    dsimp only at e
    split at e
    · cases e
    · injection e with e
      exact e.symm
  · intro b k hk i j
    rw [hv]
    have hn : ((w.gdn c).clamp.norm (fun l => t.val b l i j) ⟨k, hk⟩) =
        ∑ l ∈ Finset.range c, max (w.gamma k l) 0 * |t.val b l i j| + max (w.beta k) (1 / 1000000) := by
      simp only [Layers.Norm.Gdn.norm, Layers.Norm.Gdn.clamp, LayerW.gdn]
      rw [← Fin.sum_univ_eq_sum_range (fun l => max (w.gamma k l) 0 * |t.val b l i j|) c]
      norm_num
    simp only [values, gdnValue, dif_pos hk]
    cases inverse <;> simp only [Bool.false_eq_true, if_false, if_true, Layers.Norm.Gdn.forward, Layers.Norm.Gdn.inverse, hn]

/-- **C136, batch normalisation and ReLU.** -/
theorem C136_batchNorm (training inverse : Bool) (c : ℕ) (w : LayerW) (t r : Tensor)
    (h : run training inverse (.batchNorm c) w t = .ok r) (b k i j : ℕ) :
    let N : ℝ := t.shape.n * t.shape.h * t.shape.w
    let mean := if training then (∑ a ∈ Finset.range t.shape.n, ∑ y ∈ Finset.range t.shape.h, ∑ x ∈ Finset.range t.shape.w,
      t.val a k y x) / N else w.norm.mean k
    let var := if training then (∑ a ∈ Finset.range t.shape.n, ∑ y ∈ Finset.range t.shape.h, ∑ x ∈ Finset.range t.shape.w,
      (t.val a k y x - mean) ^ 2) / N else w.norm.var k
    r.val b k i j = w.norm.gamma k * (t.val b k i j - mean) / √(var + 1e-5) + w.norm.beta k := by
  rw [(run_val h).2]
  have q : (1e-5 : ℝ) = 1 / 100000 := by norm_num
  cases training
  · simp only [values, UnetNet.batchNorm, Tensor.image, Bool.false_eq_true, if_false, q, mul_div_assoc]
  · simp only [values, UnetNet.batchNorm, UnetNet.meanOf, UnetNet.varOf, Tensor.image, if_true, zero_add, q, mul_div_assoc]

/-- **C136, ReLU.** -/
theorem C136_relu (training inverse : Bool) (w : LayerW) (t r : Tensor) (h : run training inverse .relu w t = .ok r) :
    r.shape = t.shape ∧ ∀ b k i j, r.val b k i j = if t.val b k i j < 0 then 0 else t.val b k i j := by
  obtain ⟨e, hv⟩ := run_val h
  refine ⟨?_, fun b k i j => ?_⟩
  · injection e with e
    exact e.symm
  · rw [hv]
    simp only [values, HificNet.relu, Tensor.image]
    split_ifs with hlt
    · exact max_eq_right hlt.le
    · exact max_eq_left (not_lt.1 hlt)

/-! ### Resizing -/

/-- Linear interpolation to twice the size: three quarters of the nearest value and a quarter of the next one, and at the ends
the value at the end. -/
noncomputable def doubled (f : ℕ → ℝ) (size i : ℕ) : ℝ :=
  if i % 2 = 1 then 3 / 4 * f (i / 2) + 1 / 4 * f (min (i / 2 + 1) (size - 1)) else 3 / 4 * f (i / 2) + 1 / 4 * f (i / 2 - 1)

theorem lerp_doubled (f : ℕ → ℝ) (size i : ℕ) (h0 : 1 ≤ size) (hi : i < 2 * size) :
    (1 - (sourcePos size (2 * size) i - (sourceRow size (2 * size) i).1)) * f (sourceRow size (2 * size) i).1
      + (sourcePos size (2 * size) i - (sourceRow size (2 * size) i).1) * f (sourceRow size (2 * size) i).2 =
    doubled f size i := by
  have hs : (size : ℝ) ≠ 0 := by
    have : (1 : ℝ) ≤ size := by exact_mod_cast h0
    linarith
  have hq : (size : ℝ) / ((2 * size : ℕ) : ℝ) = 1 / 2 := by
    push_cast
    field_simp
  have hp : sourcePos size (2 * size) i = max 0 ((i : ℝ) / 2 - 1 / 4) := by
    unfold sourcePos
    rw [hq]
    congr 1
    ring
  rcases Nat.even_or_odd' i with ⟨a, rfl | rfl⟩
  · rcases Nat.eq_zero_or_pos a with rfl | ha
    · have hp0 : sourcePos size (2 * size) (2 * 0) = 0 := by
        rw [hp]
        norm_num
      unfold sourceRow doubled
      rw [hp0]
      simp
      ring
    · obtain ⟨e, rfl⟩ : ∃ e, a = e + 1 := ⟨a - 1, by omega⟩
      have hpa : sourcePos size (2 * size) (2 * (e + 1)) = e + 3 / 4 := by
        rw [hp]
        push_cast
        rw [max_eq_right (by have : (0 : ℝ) ≤ e := Nat.cast_nonneg e; linarith)]
        ring
      have hf : ⌊(e : ℝ) + 3 / 4⌋₊ = e := by
        rw [Nat.floor_eq_iff (by positivity)]
        constructor <;> linarith
      unfold sourceRow doubled
      rw [hpa]
      dsimp only
      rw [hf, if_pos (by omega), if_neg (by omega), show 2 * (e + 1) / 2 = e + 1 by omega, Nat.add_sub_cancel]
      ring
  · have hpa : sourcePos size (2 * size) (2 * a + 1) = a + 1 / 4 := by
      rw [hp]
      push_cast
      rw [max_eq_right (by have : (0 : ℝ) ≤ a := Nat.cast_nonneg a; linarith)]
      ring
    have hf : ⌊(a : ℝ) + 1 / 4⌋₊ = a := by
      rw [Nat.floor_eq_iff (by positivity)]
      constructor <;> linarith
    unfold sourceRow doubled
    rw [hpa]
    dsimp only
    rw [hf, if_pos (by omega : (2 * a + 1) % 2 = 1), show (2 * a + 1) / 2 = a by omega]
    have : (if a + 1 < size then a + 1 else a) = min (a + 1) (size - 1) := by
      split_ifs <;> omega
    rw [this]
    ring

theorem lerp_same (f : ℕ → ℝ) (size i : ℕ) (hi : i < size) :
    (1 - (sourcePos size size i - (sourceRow size size i).1)) * f (sourceRow size size i).1
      + (sourcePos size size i - (sourceRow size size i).1) * f (sourceRow size size i).2 = f i := by
  have hs : (size : ℝ) ≠ 0 := by
    have : (0 : ℝ) < size := by exact_mod_cast (by omega : 0 < size)
    linarith
  have hp : sourcePos size size i = i := by
    unfold sourcePos
    rw [div_self hs, max_eq_right] <;> [ring; skip]
    have : (0 : ℝ) ≤ i := Nat.cast_nonneg i
    linarith
  have h1 : (sourceRow size size i).1 = i := by
    unfold sourceRow
    dsimp only
    rw [hp, Nat.floor_natCast]
  rw [hp, h1]
  ring

/-- **C136, bilinear resizing.** To twice the size, as between two levels of the flow of images of even size, every value is
interpolated in both directions; to its own size, nothing changes. -/
theorem C136_bilinear (t r r' : Tensor) (h : resizeBilinear t (2 * t.shape.h) (2 * t.shape.w) = .ok r)
    (h' : resizeBilinear t t.shape.h t.shape.w = .ok r') :
    r.shape = { t.shape with h := 2 * t.shape.h, w := 2 * t.shape.w } ∧ r'.shape = t.shape ∧
    (∀ b c, ∀ i < 2 * t.shape.h, ∀ j < 2 * t.shape.w, r.val b c i j =
      doubled (fun y => doubled (fun x => t.val b c y x) t.shape.w j) t.shape.h i) ∧
    ∀ b c, ∀ i < t.shape.h, ∀ j < t.shape.w, r'.val b c i j = t.val b c i j := by
  unfold resizeBilinear at h h'
  obtain ⟨s, e, h⟩ := bind_ok h
  obtain ⟨s', e', h'⟩ := bind_ok h'
  cases h
  cases h'
  unfold resize at e e'
  split at e
  · cases e
  split at e'
  · cases e'
  cases e
  cases e'
  refine ⟨rfl, rfl, fun b c i hi j hj => ?_, fun b c i hi j hj => ?_⟩
  · rw [← lerp_doubled _ _ _ (by omega) hi, ← lerp_doubled _ _ _ (by omega) hj, ← lerp_doubled _ _ _ (by omega) hj]
  · have q := lerp_same (fun y => (1 - (sourcePos t.shape.w t.shape.w j - (sourceRow t.shape.w t.shape.w j).1)) *
      t.val b c y (sourceRow t.shape.w t.shape.w j).1
      + (sourcePos t.shape.w t.shape.w j - (sourceRow t.shape.w t.shape.w j).1) *
        t.val b c y (sourceRow t.shape.w t.shape.w j).2) t.shape.h i hi
    rw [lerp_same (fun x => t.val b c i x) _ _ hj] at q
    exact q

/-- **C136, nearest resizing.** To twice the size, every value becomes a square of four. -/
theorem C136_nearest (t r : Tensor) (h : resizeNearest t (2 * t.shape.h) (2 * t.shape.w) = .ok r) :
    r.shape = { t.shape with h := 2 * t.shape.h, w := 2 * t.shape.w } ∧
    ∀ b c i j, r.val b c i j = t.val b c (i / 2) (j / 2) := by
  unfold resizeNearest at h
  obtain ⟨s, e, h⟩ := bind_ok h
  cases h
  unfold resize at e
  split at e
  · cases e
  · rename_i hne
    cases e
    refine ⟨rfl, fun b c i j => ?_⟩
    dsimp only
    rw [Nat.mul_div_mul_right _ _ (by omega), Nat.mul_div_mul_right _ _ (by omega)]

/-- **C136, the input of the networks.** The channels of the three tensors one after the other. -/
theorem C136_concatenation (x y z r : Tensor) (h : cat3 x y z = .ok r) :
    r.shape = { x.shape with c := x.shape.c + y.shape.c + z.shape.c } ∧
    (∀ b, ∀ c < x.shape.c, ∀ i j, r.val b c i j = x.val b c i j) ∧
    (∀ b, ∀ c < y.shape.c, ∀ i j, r.val b (x.shape.c + c) i j = y.val b c i j) ∧
    ∀ b c i j, r.val b (x.shape.c + y.shape.c + c) i j = z.val b c i j := by
  unfold cat3 at h
  obtain ⟨s, e, h⟩ := bind_ok h
  cases h
  unfold concat3 at e
  split at e
  · cases e
  · cases e
    refine ⟨rfl, fun b c hc i j => ?_, fun b c hc i j => ?_, fun b c i j => ?_⟩
    · dsimp only
      rw [if_pos hc]
    · dsimp only
      rw [if_neg (by omega), if_pos (by omega), Nat.add_sub_cancel_left]
    · dsimp only
      rw [if_neg (by omega), if_neg (by omega), show x.shape.c + y.shape.c + c - x.shape.c - y.shape.c = c by omega]

/-! ### The flow as a sum -/

theorem level_const (training : Bool) (a : ℝ) (kernel : ℕ) (counts : List ℕ) (cin : ℕ) (hne : counts ≠ []) (n : ℕ)
    (t r : Tensor) (h : runAll training (fun _ => constLayer a) n (levelLayers kernel cin counts) t = .ok r) :
    ∀ b c i j, r.val b c i j = a := by
  induction counts generalizing cin n t with
  | nil => exact absurd rfl hne
  | cons x rest ih =>
    cases rest with
    | nil =>
      rw [levelLayers] at h
      rw [runAll] at h
      obtain ⟨q, e, h⟩ := bind_ok h
      rw [runAll] at h
      cases h
      intro b c i j
      rw [C136_convolution _ _ _ _ _ _ _ _ _ _ _ e]
      simp [constLayer]
    | cons y rest =>
      rw [levelLayers] at h
      rw [runAll] at h
      obtain ⟨q, e, h⟩ := bind_ok h
      rw [runAll] at h
      obtain ⟨q', e', h⟩ := bind_ok h
      exact ih _ (by simp) _ _ h

theorem loop_const (e : Estimator) (he : e.filterCounts ≠ []) (training : Bool) (a : ℕ → ℝ) (l : List (Tensor × Tensor))
    (k : ℕ) (z : ℝ) (flow out : Tensor) (hz : ∀ b c i j, flow.val b c i j = z) (pairs res : List (Tensor × Tensor))
    (h : flowLoop e training (fun k _ => constLayer (a k)) k l flow pairs = .ok (out, res)) :
    ∀ b c i j, out.val b c i j = z + ∑ q ∈ Finset.range l.length, a (k + q) := by
  induction l generalizing k z flow pairs with
  | nil =>
    rw [flowLoop] at h
    cases h
    simpa using hz
  | cons p rest ih =>
    obtain ⟨x, y⟩ := p
    rw [flowLoop] at h
    obtain ⟨f1, e1, h⟩ := bind_ok h
    obtain ⟨w1, e2, h⟩ := bind_ok h
    obtain ⟨i1, e3, h⟩ := bind_ok h
    obtain ⟨u1, e4, h⟩ := bind_ok h
    obtain ⟨f2, e5, h⟩ := bind_ok h
    obtain ⟨w2, e6, h⟩ := bind_ok h
    have hu := level_const training (a k) e.kernel e.filterCounts e.inChannels he 0 i1 u1 e4
    have hf1 : ∀ b c i j, f1.val b c i j = z := by
      unfold resizeBilinear at e1
      obtain ⟨s, _, e1⟩ := bind_ok e1
      cases e1
      intro b c i j
      dsimp only
      rw [hz, hz, hz, hz]
      ring
    have hf2 : ∀ b c i j, f2.val b c i j = z + a k := by
      unfold elementwise at e5
      obtain ⟨s, _, e5⟩ := bind_ok e5
      cases e5
      intro b c i j
      simp only [Tensor.at, hf1, hu]
    intro b c i j
    rw [ih (k + 1) (z + a k) f2 hf2 _ h b c i j, List.length_cons, Finset.sum_range_succ', add_zero]
    have : ∀ q, k + 1 + q = k + (q + 1) := fun q => by omega
    simp only [this]
    ring

/-- **C136, the flow of all levels.** What the networks of all levels say is added up without factors: if the network of level
`k`, counted from the coarsest, always gives `a k`, the flow of the estimator is the sum of all `a k` at every pixel.  The flow is in
parts of the image (from -1 to 1), so that a displacement found at a coarse level means the same at the finer ones. -/
theorem C136_flow_sum (e : Estimator) (he : e.filterCounts ≠ []) (hl : 1 ≤ e.levels) (training : Bool) (a : ℕ → ℝ)
    (x y flow : Tensor) (pairs : List (Tensor × Tensor))
    (h : estimate e training (fun k _ => constLayer (a k)) x y = .ok (flow, pairs)) :
    ∀ b c i j, flow.val b c i j = ∑ k ∈ Finset.range e.levels, a k := by
  unfold estimate at h
  split at h
  · cases h
  obtain ⟨l1, e1, h⟩ := bind_ok h
  obtain ⟨l2, e2, h⟩ := bind_ok h
  have p1 := pyramidOf_length _ _ _ e1
  have p2 := pyramidOf_length _ _ _ e2
  intro b c i j
  rw [loop_const e he training a _ 0 0 _ _ (fun _ _ _ _ => rfl) _ _ h b c i j, zero_add]
  have : (List.take e.levels (l1.zip l2).reverse).length = e.levels := by
    rw [List.length_take, List.length_reverse, List.length_zip, p1.1, p2.1]
    omega
  rw [this]
  simp

/-! ### Motion compensation with empty residual blocks -/

/-- Two convolutions whose weights and biases are zero. -/
def zeroBlock : BlockW := ⟨constLayer 0, constLayer 0⟩

theorem block_zero {channels : ℕ} {training : Bool} {t r : Tensor}
    (h : residualBlock channels channels training zeroBlock t = .ok r) :
    r.shape = t.shape ∧ ∀ b < t.shape.n, ∀ c < t.shape.c, ∀ i < t.shape.h, ∀ j < t.shape.w, r.val b c i j = t.val b c i j := by
  unfold residualBlock at h
  obtain ⟨y, e, h⟩ := bind_ok h
  simp only [runAll] at e
  obtain ⟨t1, e1, e⟩ := bind_ok e
  obtain ⟨t2, e2, e⟩ := bind_ok e
  obtain ⟨t3, e3, e⟩ := bind_ok e
  obtain ⟨t4, e4, e⟩ := bind_ok e
  cases e
  have size : ∀ {inv : Bool} {w : LayerW} {p q : Tensor}, run training inv (.conv channels channels 3 1 1 true) w p = .ok q →
      p.shape.c = channels ∧ q.shape = p.shape := by
    intro inv w p q hq
    obtain ⟨hq, _⟩ := run_val hq
    unfold Layer.apply at hq
    dsimp only at hq
    split at hq
    · cases hq
    · rename_i hne
      have hc : p.shape.c = channels := by
        by_contra hcc
        exact hne (Or.inl hcc)
      refine ⟨hc, ?_⟩
      injection hq with hq
      rw [← hq]
      cases hp : p.shape
      rw [hp] at hne hc
      dsimp only at hne hc
      simp only [convOut, Shape.mk.injEq, true_and]
      omega
  have s1 := (C136_relu _ _ _ _ _ e1).1
  have s2 := (size e2).2
  have s3 := (C136_relu _ _ _ _ _ e3).1
  have s4 := (size e4).2
  have hv : ∀ b c i j, y.val b c i j = 0 := by
    intro b c i j
    rw [C136_convolution _ _ _ _ _ _ _ _ _ _ _ e4]
    simp [zeroBlock, constLayer]
  obtain ⟨h1, h2⟩ := elementwise_same_shape (· + ·) (by rw [s4, s3, s2, s1]) h
  refine ⟨h1, fun b hb c hc i hi j hj => ?_⟩
  rw [h2 b hb c hc i hi j hj, hv, add_zero]

/-- **C136, motion compensation.** The nested layers with residual blocks that add nothing, on tensors whose size is a multiple
of `2 ^ (levels - 1)`: every pixel of the result is the sum, over the levels, of the averages of the blocks of `2 ^ l` by `2 ^ l`
pixels that it lies in. -/
theorem C136_compensation (channels : ℕ) (training : Bool) (k : ℕ) (t r : Tensor)
    (hh : 2 ^ k ∣ t.shape.h) (hw : 2 ^ k ∣ t.shape.w)
    (h : unet channels training (fun _ => (zeroBlock, zeroBlock)) (k + 1) t = .ok r) :
    r.shape = t.shape ∧ ∀ b < t.shape.n, ∀ c < t.shape.c, ∀ i < t.shape.h, ∀ j < t.shape.w,
      r.val b c i j = ∑ l ∈ Finset.range (k + 1), (blockMean l t).val b c (i / 2 ^ l) (j / 2 ^ l) := by
  induction k generalizing t r with
  | zero =>
    rw [unet] at h
    obtain ⟨x, e1, h⟩ := bind_ok h
    dsimp only at h
    obtain ⟨x', e2, h⟩ := bind_ok h
    cases e2
    obtain ⟨s1, v1⟩ := block_zero e1
    obtain ⟨s2, v2⟩ := block_zero h
    refine ⟨s2.trans s1, fun b hb c hc i hi j hj => ?_⟩
    rw [v2 b (s1 ▸ hb) c (s1 ▸ hc) i (s1 ▸ hi) j (s1 ▸ hj), v1 b hb c hc i hi j hj, Finset.sum_range_one, blockMean_zero]
    simp
  | succ k ih =>
    rw [unet] at h
    obtain ⟨x, e1, h⟩ := bind_ok h
    dsimp only at h
    obtain ⟨small, e2, h⟩ := bind_ok h
    obtain ⟨child, e3, h⟩ := bind_ok h
    obtain ⟨up, e4, h⟩ := bind_ok h
    obtain ⟨sum, e5, h⟩ := bind_ok h
    obtain ⟨s1, v1⟩ := block_zero e1
    obtain ⟨s6, v6⟩ := block_zero h
    have hsm : small.shape = { t.shape with h := t.shape.h / 2, w := t.shape.w / 2 } := by
      unfold pool at e2
      obtain ⟨s, e, e2⟩ := bind_ok e2
      cases e2
      unfold avgPool at e
      split at e
      · cases e
      · cases e
        rw [s1]
    obtain ⟨hh', hhe⟩ := hh
    obtain ⟨hw', hwe⟩ := hw
    have eh : small.shape.h = 2 ^ k * hh' := by
      rw [hsm]
      dsimp only
      rw [hhe, pow_succ, Nat.mul_comm (2 ^ k) 2, Nat.mul_assoc, Nat.mul_div_cancel_left _ (by norm_num)]
    have ew : small.shape.w = 2 ^ k * hw' := by
      rw [hsm]
      dsimp only
      rw [hwe, pow_succ, Nat.mul_comm (2 ^ k) 2, Nat.mul_assoc, Nat.mul_div_cancel_left _ (by norm_num)]
    obtain ⟨s3, v3⟩ := ih small child ⟨hh', eh⟩ ⟨hw', ew⟩ e3
    have th : t.shape.h = 2 * child.shape.h := by
      rw [s3, eh, hhe, pow_succ]
      ring
    have tw : t.shape.w = 2 * child.shape.w := by
      rw [s3, ew, hwe, pow_succ]
      ring
    rw [th, tw] at e4
    obtain ⟨s4, v4⟩ := C136_nearest child up e4
    have s4' : up.shape = t.shape := by
      rw [s4, ← th, ← tw, s3, hsm]
    obtain ⟨s5, v5⟩ := elementwise_same_shape (· + ·) (by rw [s1, s4']) e5
    refine ⟨s6.trans (s5.trans s1), fun b hb c hc i hi j hj => ?_⟩
    have q5 := s5.trans s1
    rw [v6 b (q5 ▸ hb) c (q5 ▸ hc) i (q5 ▸ hi) j (q5 ▸ hj), v5 b (s1 ▸ hb) c (s1 ▸ hc) i (s1 ▸ hi) j (s1 ▸ hj),
      v1 b hb c hc i hi j hj, v4, v3 b (by rw [hsm]; exact hb) c (by rw [hsm]; exact hc) _ (by rw [← s3]; omega) _
        (by rw [← s3]; omega), Finset.sum_range_succ' _ (k + 1), blockMean_zero, pow_zero, Nat.div_one, Nat.div_one, add_comm]
    congr 1
    refine Finset.sum_congr rfl fun l hl => ?_
    rw [Finset.mem_range] at hl
    rw [pool_blockMean e2, Nat.div_div_eq_div_mul, Nat.div_div_eq_div_mul, ← pow_succ']
    -- the first block does not change the values that the averages read
    unfold blockMean
    dsimp only
    congr 1
    have inside : ∀ {a n d : ℕ}, 2 ^ (k + 1) ∣ n → a < n → d < 2 ^ (l + 1) → 2 ^ (l + 1) * (a / 2 ^ (l + 1)) + d < n := by
      intro a n d hd ha hd'
      obtain ⟨z, rfl⟩ := (pow_dvd_pow 2 (by omega : l + 1 ≤ k + 1)).trans hd
      have : a / 2 ^ (l + 1) < z := by
        rw [Nat.div_lt_iff_lt_mul (by positivity), Nat.mul_comm]
        exact ha
      calc 2 ^ (l + 1) * (a / 2 ^ (l + 1)) + d < 2 ^ (l + 1) * (a / 2 ^ (l + 1)) + 2 ^ (l + 1) := by omega
        _ = 2 ^ (l + 1) * (a / 2 ^ (l + 1) + 1) := by ring
        _ ≤ 2 ^ (l + 1) * z := Nat.mul_le_mul_left _ this
    refine Finset.sum_congr rfl fun di hdi => Finset.sum_congr rfl fun dj hdj => ?_
    rw [Finset.mem_range] at hdi hdj
    exact v1 b hb c hc _ (inside ⟨hh', hhe⟩ hi hdi) _ (inside ⟨hw', hwe⟩ hj hdj)

end Verif.Models.DvcValues
