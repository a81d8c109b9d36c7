import Verif.Models.PropsDvcValues
import Verif.Models.PropsDvcNets

/-!
# C136: when frames can be coded, the pairs of the flow estimator, the outputs, and the layers in explicit terms
-/

namespace Verif.Models.DvcValues

open Verif Verif.Functional Verif.Models.DvcNets
open Verif.Models.VqVaeNet (bind_ok)

variable {Str : Type}

/-! ### Frames that can be coded -/

theorem of_shape {α β : Type} {R : α → β → Prop} {x : Except Err α} {y : Except Err β} {b : β} (h : RelE R x y)
    (hy : y = .ok b) : ∃ a, x = .ok a ∧ R a b := by
  subst hy
  cases x with
  | error e => exact h.elim
  | ok a => exact ⟨a, rfl, h⟩

theorem evenLast_encoder (n cin cf h w k : ℕ) (l : ℕ) (hl : 1 ≤ l) (h1 : h ⌈/⌉ k ^ (l - 1) % 2 = 0)
    (h2 : w ⌈/⌉ k ^ (l - 1) % 2 = 0) :
    EvenLast ((List.range l).map fun i => (⟨n, if i = 0 then cin else cf, h ⌈/⌉ k ^ i, w ⌈/⌉ k ^ i⟩ : Shape)) := by
  obtain ⟨m, rfl⟩ : ∃ m, l = m + 1 := ⟨l - 1, by omega⟩
  intro s hs
  rw [List.range_succ, List.map_append, List.map_singleton, List.getLast?_append, List.getLast?_singleton,
    Option.some_or, Option.some.injEq] at hs
  subst hs
  exact ⟨h1, h2⟩

theorem compress_defined {k : Bottleneck Str} {channels : ℕ} {t : Tensor} (h : t.shape.c = channels) :
    ∃ l, k.compress channels t = .ok l ∧ l.length = t.shape.n := by
  unfold Bottleneck.compress
  dsimp only
  rw [if_neg (by simp [h])]
  exact ⟨_, rfl, by simp⟩

/-- **C136, coding.** Parts that were built for images of `c` channels, with strides of two and as many channels in the
bottlenecks as in the latents, any weights and lossless range coders, on every pair of frames that is large enough and whose
sizes, halved and rounded up `layers - 1` times, are even: `compress`, `decompress` and `forward` all run, and `decompress`
gives the estimate of `forward` in evaluation mode clamped to [0, 1]. -/
theorem C136_coded_partial (m : Model) (we : Weights Str) (l1 : we.motionBottleneck.Lossless)
    (l2 : we.residualBottleneck.Lossless) (c : ℕ)
    (he : m.estimator.kernel % 2 = 1) (hel : 1 ≤ m.estimator.levels) (hef : FlowFits m.estimator c)
    (hc : m.compensation.kernel % 2 = 1) (hcl : 1 ≤ m.compensation.levels)
    (hci : m.compensation.inChannels = c + c + 2) (hco : m.compensation.outChannels = c)
    (hmo : Matched m.motionEncoder m.motionBottleneck m.motionDecoder 2)
    (hre : Matched m.residualEncoder m.residualBottleneck m.residualDecoder c)
    (hst : m.motionEncoder.stride = 2 ∧ m.residualEncoder.stride = 2)
    (hbo : m.motionBottleneck = m.motionEncoder.outChannels ∧ m.residualBottleneck = m.residualEncoder.outChannels)
    (x y : Tensor) (hxy : y.shape = x.shape) (hxc : x.shape.c = c)
    (hh : 2 ^ (m.estimator.levels - 1) ≤ x.shape.h ∧ 2 ^ (m.compensation.levels - 1) ≤ x.shape.h)
    (hw : 2 ^ (m.estimator.levels - 1) ≤ x.shape.w ∧ 2 ^ (m.compensation.levels - 1) ≤ x.shape.w)
    (hev1 : x.shape.h ⌈/⌉ 2 ^ (m.motionEncoder.layers - 1) % 2 = 0 ∧ x.shape.w ⌈/⌉ 2 ^ (m.motionEncoder.layers - 1) % 2 = 0)
    (hev2 : x.shape.h ⌈/⌉ 2 ^ (m.residualEncoder.layers - 1) % 2 = 0 ∧
      x.shape.w ⌈/⌉ 2 ^ (m.residualEncoder.layers - 1) % 2 = 0) (u v : ℕ → ℕ → ℕ → ℕ → ℝ) :
    ∃ p o d, compress m we x y = .ok p ∧ forward m we false u v x y = .ok o ∧ decompress m we x p = .ok d ∧
      p.flow.length = x.shape.n ∧ p.residual.length = x.shape.n ∧ d.shape = x.shape ∧
      ∀ b < x.shape.n, ∀ k < c, ∀ i < x.shape.h, ∀ j < x.shape.w, d.val b k i j = min 1 (max 0 (o.image2.val b k i j)) := by
  obtain ⟨s, hs⟩ : ∃ s, x.shape = s := ⟨_, rfl⟩
  obtain ⟨n, c', h, w⟩ := s
  rw [hs] at hxy hxc hh hw hev1 hev2 ⊢
  dsimp only at hxc hh hw hev1 hev2 ⊢
  subst hxc
  have hp : 1 ≤ 2 ^ (m.estimator.levels - 1) := Nat.one_le_two_pow
  have hh1 : 1 ≤ h := hp.trans hh.1
  have hw1 : 1 ≤ w := hp.trans hw.1
  have no : ∀ k : Coder, NormRuns k false n := fun k => Or.inr (Or.inl rfl)
  have e1 := (C109_flow_partial m.estimator false he hel ⟨n, c', h, w⟩ ⟨n, c', h, w⟩ hh1 hw1).1
    ⟨rfl, hh.1, hw.1, hef⟩
  have e5 : DvcNets.warp ⟨n, c', h, w⟩ ⟨n, 2, h, w⟩ = .ok ⟨n, c', h, w⟩ := by
    rw [DvcNets.warp, if_neg (by simp), if_neg (by simp only; omega)]
  have e6 := ((C109_compensation_partial m.compensation false hc ⟨n, c', h, w⟩ ⟨n, c', h, w⟩ ⟨n, 2, h, w⟩ hh1
    hw1).2 hcl).1 ⟨rfl, rfl, rfl, rfl, rfl, rfl, hci.symm, hh.2, hw.2⟩
  rw [hco] at e6
  have en1 := C109_encoder_partial m.motionEncoder false hmo.odd hmo.stride hmo.layers ⟨n, 2, h, w⟩ hmo.input.symm hh1 hw1
    (no _)
  have en2 := C109_encoder_partial m.residualEncoder false hre.odd hre.stride hre.layers ⟨n, c', h, w⟩ hre.input.symm hh1 hw1
    (no _)
  obtain ⟨⟨f, ps⟩, g1, hf⟩ := of_shape (estimate_shape m.estimator false we.estimator x y) (by rw [hs, hxy]; exact e1)
  have hf1 : f.shape = ⟨n, 2, h, w⟩ := hf.1
  obtain ⟨⟨lat, sizes⟩, g2, hlat, hsz⟩ := of_shape (encode_shape m.motionEncoder false we.motionEncoder f)
    (by rw [hf1]; exact en1)
  dsimp only at hlat hsz
  obtain ⟨str, g3, hstr⟩ := compress_defined (k := we.motionBottleneck) (channels := m.motionBottleneck) (t := lat)
    (by rw [hlat, hbo.1])
  obtain ⟨fl, g4, hfl⟩ := of_shape (decode_shape m.motionDecoder false we.motionDecoder
      (we.motionBottleneck.decompress m.motionBottleneck str lat.shape.h lat.shape.w) sizes)
    (b := ⟨n, m.motionDecoder.outChannels, h, w⟩) (by
      have e2 := C109_decoder m.motionEncoder m.motionDecoder false (by have := hmo.odd; omega) hmo.stride
        hmo.decoderKernel hmo.decoderStride hmo.decoderLayers hmo.decoderInput ⟨n, 2, h, w⟩ _ _ (no _) en1
      rw [← hsz] at e2
      simp only [Bottleneck.decompress, hstr, hlat, hbo.1]
      exact e2)
  have hfl1 : fl.shape = ⟨n, 2, h, w⟩ := by rw [show fl.shape = _ from hfl, hmo.output]
  obtain ⟨est, g5, hest⟩ := of_shape (predict_shape m we false x fl) (b := ⟨n, c', h, w⟩) (by
    rw [hs, hfl1, e5]
    exact e6)
  have hest1 : est.shape = ⟨n, c', h, w⟩ := hest
  obtain ⟨r, g6, hr⟩ := of_shape (elementwise_shape (· - ·) y est) (b := ⟨n, c', h, w⟩) (by
    rw [hest1, hxy, broadcast_self])
  have hr1 : r.shape = ⟨n, c', h, w⟩ := hr
  obtain ⟨⟨lat2, sizes2⟩, g7, hlat2, hsz2⟩ := of_shape (encode_shape m.residualEncoder false we.residualEncoder r)
    (by rw [hr1]; exact en2)
  dsimp only at hlat2 hsz2
  obtain ⟨str2, g8, hstr2⟩ := compress_defined (k := we.residualBottleneck) (channels := m.residualBottleneck) (t := lat2)
    (by rw [hlat2, hbo.2])
  have hcomp : compress m we x y = .ok ⟨str, sizes, str2, sizes2⟩ := by
    simp only [compress, g1, g2, g3, g4, g5, g6, g7, g8, bind, Except.bind]
    rfl
  have hfs := C109_parts_partial m false n c' h w he hel hef hc hcl hci hco hmo hre (no _) (no _) (no _) (no _) hh hw
  obtain ⟨o, ho, hosh⟩ := of_shape (forward_shape m we false u v x y) (by rw [hxy, hs]; exact hfs)
  have key := (C136_coding_partial m we l1 l2 ⟨hmo.odd, hst.1, hre.odd, hst.2⟩ x y (by rw [hxy, hs]) _ hcomp (by
    dsimp only
    rw [hsz, hsz2]
    constructor
    · refine evenLast_encoder n _ _ h w _ _ hmo.layers ?_ ?_ <;> rw [hst.1]
      exacts [hev1.1, hev1.2]
    · refine evenLast_encoder n _ _ h w _ _ hre.layers ?_ ?_ <;> rw [hst.2]
      exacts [hev2.1, hev2.2]) u v).1 o ho
  obtain ⟨d, hd, hds, hdv⟩ := key
  have hds' : d.shape = ⟨n, c', h, w⟩ := by rw [hds, hosh.2.1]
  rw [hds'] at hdv
  refine ⟨_, o, d, hcomp, ho, hd, ?_, ?_, hds', hdv⟩
  · dsimp only
    rw [hstr, hlat]
  · dsimp only
    rw [hstr2, hlat2]

/-- **C136, coding, the default model.** `DVC(coder_channels)` for any number of channels, weights and lossless range coders, on
frames of at least 16 by 16 pixels whose eighths, rounded up, are even. -/
theorem C136_default_partial (coderChannels : ℕ) (we : Weights Str) (l1 : we.motionBottleneck.Lossless)
    (l2 : we.residualBottleneck.Lossless) (x y : Tensor) (hxy : y.shape = x.shape) (hc : x.shape.c = 3)
    (hh : 16 ≤ x.shape.h) (hw : 16 ≤ x.shape.w) (hev : (x.shape.h + 7) / 8 % 2 = 0 ∧ (x.shape.w + 7) / 8 % 2 = 0)
    (u v : ℕ → ℕ → ℕ → ℕ → ℝ) :
    ∃ p o d, compress (Model.default coderChannels) we x y = .ok p ∧
      forward (Model.default coderChannels) we false u v x y = .ok o ∧
      decompress (Model.default coderChannels) we x p = .ok d ∧
      p.flow.length = x.shape.n ∧ p.residual.length = x.shape.n ∧ d.shape = x.shape ∧
      ∀ b < x.shape.n, ∀ k < 3, ∀ i < x.shape.h, ∀ j < x.shape.w, d.val b k i j = min 1 (max 0 (o.image2.val b k i j)) := by
  have e : ∀ a : ℕ, a ⌈/⌉ 2 ^ 3 = (a + 7) / 8 := fun a => rfl
  refine C136_coded_partial (Model.default coderChannels) we l1 l2 3 (by simp [Model.default])
      (by simp [Model.default]) ⟨by decide, rfl, Or.inl rfl⟩ (by simp [Model.default]) (by simp [Model.default]) rfl
      rfl
      (by constructor <;> simp [Model.default]) (by constructor <;> simp [Model.default]) ⟨rfl, rfl⟩ ⟨rfl, rfl⟩ x y hxy hc
      (by simp [Model.default]; omega) (by simp [Model.default]; omega) ?_ ?_ u v
  · exact hev
  · exact hev

/-! ### The pyramid and the pairs -/

theorem sum_double (f : ℕ → ℝ) (m : ℕ) :
    ∑ d ∈ Finset.range (2 * m), f d = ∑ d ∈ Finset.range m, (f (2 * d) + f (2 * d + 1)) := by
  induction m with
  | zero => simp
  | succ m ih =>
    rw [show 2 * (m + 1) = 2 * m + 1 + 1 by ring, Finset.sum_range_succ, Finset.sum_range_succ, ih, Finset.sum_range_succ]
    ring

theorem blockMean_zero (t : Tensor) : blockMean 0 t = t := by
  cases t
  simp [blockMean]

theorem pool_blockMean {t r : Tensor} (h : pool t = .ok r) (k : ℕ) : blockMean k r = blockMean (k + 1) t := by
  unfold pool at h
  obtain ⟨s, e, h⟩ := bind_ok h
  cases h
  unfold avgPool at e
  split at e
  · cases e
  · cases e
    unfold blockMean
    congr 1
    · dsimp only
      rw [Nat.div_div_eq_div_mul, Nat.div_div_eq_div_mul, pow_succ, Nat.mul_comm]
    · funext b c i j
      dsimp only
      rw [pow_succ 2 k, Nat.mul_comm (2 ^ k) 2, sum_double, Finset.sum_div, Finset.sum_div]
      refine Finset.sum_congr rfl fun di _ => ?_
      rw [sum_double, sum_double, ← Finset.sum_add_distrib, Finset.sum_div, Finset.sum_div]
      refine Finset.sum_congr rfl fun dj _ => ?_
      have r1 : 2 * (2 ^ k * i + di) = 2 * 2 ^ k * i + 2 * di := by ring
      have r2 : 2 * (2 ^ k * j + dj) = 2 * 2 ^ k * j + 2 * dj := by ring
      rw [r1, r2]
      simp only [Nat.add_assoc, pow_succ]
      rw [div_div]
      ring

theorem pyramid_get (k : ℕ) (t : Tensor) (l : List Tensor) (h : pyramidOf k t = .ok l) :
    l = (List.range (k + 1)).map fun i => blockMean i t := by
  induction k generalizing t l with
  | zero =>
    cases h
    simp [blockMean_zero]
  | succ k ih =>
    rw [pyramidOf] at h
    obtain ⟨s, e, h⟩ := bind_ok h
    obtain ⟨r, e', h⟩ := bind_ok h
    cases h
    rw [ih s r e']
    conv_rhs => rw [List.range_succ_eq_map, List.map_cons, List.map_map, blockMean_zero]
    refine congrArg (t :: ·) ?_
    exact List.map_congr_left fun i _ => pool_blockMean e i

theorem loop_pairs (e : Estimator) (training : Bool) (w : ℕ → ℕ → LayerW) (l : List (Tensor × Tensor)) (k : ℕ)
    (flow out : Tensor) (pairs res : List (Tensor × Tensor)) (h : flowLoop e training w k l flow pairs = .ok (out, res)) :
    ∃ flows : List Tensor, flows.length = l.length ∧ flows.getLast?.getD flow = out ∧ ∃ news, res = pairs ++ news ∧
      news.length = l.length ∧ ∀ i (hi : i < l.length), ∃ f a, flows[i]? = some f ∧ warpTensor l[i].1 f = .ok a ∧
        news[i]? = some (a, l[i].2) := by
  induction l generalizing k flow pairs with
  | nil =>
    rw [flowLoop] at h
    cases h
    exact ⟨[], rfl, rfl, [], by simp, rfl, by simp⟩
  | cons p rest ih =>
    obtain ⟨x, y⟩ := p
    rw [flowLoop] at h
    obtain ⟨f1, e1, h⟩ := bind_ok h
    obtain ⟨w1, e2, h⟩ := bind_ok h
    obtain ⟨i1, e3, h⟩ := bind_ok h
    obtain ⟨u1, e4, h⟩ := bind_ok h
    obtain ⟨f2, e5, h⟩ := bind_ok h
    obtain ⟨w2, e6, h⟩ := bind_ok h
    obtain ⟨flows, h1, h2, news, h3, h4, h5⟩ := ih _ _ _ h
    refine ⟨f2 :: flows, by simp [h1], ?_, (w2, y) :: news, ?_, by simp [h4], ?_⟩
    · rw [List.getLast?_cons]
      exact h2
    · rw [h3, List.append_assoc]
      rfl
    · intro i hi
      cases i with
      | zero => exact ⟨f2, w2, rfl, e6, rfl⟩
      | succ i => exact h5 i (by simpa using hi)

/-- **C136, pairs.** `calculate_flow_with_image_pairs` for all settings with a level, all weights and images: as many pairs as
levels, from coarse to fine; the second image of every pair is `image2` averaged over square blocks of `2 ^ (levels - 1 - i)`
pixels; the first is `image1`, averaged in the same way, warped by a flow; and the last pair is `image1` warped by the flow that
is returned, with `image2` itself. -/
theorem C136_pairs (e : Estimator) (training : Bool) (w : ℕ → ℕ → LayerW) (hl : 1 ≤ e.levels) (x y flow : Tensor)
    (pairs : List (Tensor × Tensor)) (h : estimate e training w x y = .ok (flow, pairs)) :
    pairs.length = e.levels ∧
    (∀ i < e.levels, ∃ f a, warpTensor (blockMean (e.levels - 1 - i) x) f = .ok a ∧
      pairs[i]? = some (a, blockMean (e.levels - 1 - i) y)) ∧
    ∃ a, warpTensor x flow = .ok a ∧ pairs[e.levels - 1]? = some (a, y) := by
  obtain ⟨k, hk⟩ : ∃ k, e.levels = k + 1 := ⟨e.levels - 1, by omega⟩
  unfold estimate at h
  split at h
  · cases h
  obtain ⟨l1, e1, h⟩ := bind_ok h
  obtain ⟨l2, e2, h⟩ := bind_ok h
  rw [hk, Nat.add_sub_cancel] at e1 e2
  have p1 := pyramid_get _ _ _ e1
  have p2 := pyramid_get _ _ _ e2
  dsimp only at h
  have hz : (l1.zip l2).reverse.take e.levels =
      ((List.range (k + 1)).map fun i => (blockMean i x, blockMean i y)).reverse := by
    rw [p1, p2, List.zip_map', List.take_of_length_le (by simp [hk])]
  rw [hz] at h
  obtain ⟨flows, h1, h2, news, h3, h4, h5⟩ := loop_pairs e training w _ _ _ _ _ _ h
  rw [List.nil_append] at h3
  rw [← h3] at h4 h5
  simp only [List.length_reverse, List.length_map, List.length_range] at h1 h4 h5
  have get : ∀ i (hi : i < k + 1), ∃ f a, flows[i]? = some f ∧ warpTensor (blockMean (k - i) x) f = .ok a ∧
      pairs[i]? = some (a, blockMean (k - i) y) := by
    intro i hi
    obtain ⟨f, a, q1, q2, q3⟩ := h5 i hi
    simp only [List.getElem_reverse, List.getElem_map, List.getElem_range, List.length_map, List.length_range,
      Nat.add_sub_cancel] at q2 q3
    exact ⟨f, a, q1, q2, q3⟩
  simp only [hk, Nat.add_sub_cancel]
  refine ⟨h4, fun i hi => ?_, ?_⟩
  · obtain ⟨f, a, _, q2, q3⟩ := get i hi
    exact ⟨f, a, q2, q3⟩
  · obtain ⟨f, a, q1, q2, q3⟩ := get k (by omega)
    rw [Nat.sub_self, blockMean_zero] at q2 q3
    have : f = flow := by
      rw [List.getLast?_eq_getElem?, h1, Nat.add_sub_cancel, q1] at h2
      exact h2
    subst this
    exact ⟨a, q2, q3⟩

/-- Averages over blocks of two by two pixels. -/
example : (blockMean 1 ⟨⟨1, 1, 4, 5⟩, fun _ _ i j => 10 * i + j⟩).val 0 0 1 0 = 25.5 := by
  norm_num [blockMean, Finset.sum_range_succ]

/-! ### Outputs -/

theorem at_inside (t : Tensor) {b c i j : ℕ} (hb : b < t.shape.n) (hc : c < t.shape.c) (hi : i < t.shape.h)
    (hj : j < t.shape.w) : t.at b c i j = t.val b c i j := by
  have z : ∀ {k n : ℕ}, k < n → (if n = 1 then 0 else k) = k := by
    intro k n h
    split_ifs <;> omega
  unfold Tensor.at
  rw [z hb, z hc, z hi, z hj]

theorem elementwise_same_shape (f : ℝ → ℝ → ℝ) {x y r : Tensor} (hs : x.shape = y.shape) (h : elementwise f x y = .ok r) :
    r.shape = x.shape ∧ ∀ b < x.shape.n, ∀ c < x.shape.c, ∀ i < x.shape.h, ∀ j < x.shape.w,
      r.val b c i j = f (x.val b c i j) (y.val b c i j) := by
  unfold elementwise at h
  rw [← hs, broadcast_self] at h
  cases h
  refine ⟨rfl, fun b hb c hc i hi j hj => ?_⟩
  dsimp only
  rw [at_inside x hb hc hi hj, at_inside y (hs ▸ hb) (hs ▸ hc) (hs ▸ hi) (hs ▸ hj)]

/-- **C136, outputs.** The three images that `forward` returns belong together, for all settings, weights and images, in
training and in evaluation: the estimate of `image2` is the returned residual added to what motion compensation makes of
`image1`, `image1` warped by the returned flow, and that flow. -/
theorem C136_outputs (m : Model) (w : Weights Str) (training : Bool) (u v : ℕ → ℕ → ℕ → ℕ → ℝ) (x y : Tensor) (o : Output)
    (h : forward m w training u v x y = .ok o) :
    ∃ warped est, warpTensor x o.flow = .ok warped ∧
      compensate m.compensation training w.compensation x warped o.flow = .ok est ∧
      elementwise (· + ·) est o.residual = .ok o.image2 ∧
      (est.shape = o.residual.shape → o.image2.shape = est.shape ∧
        ∀ b < est.shape.n, ∀ c < est.shape.c, ∀ i < est.shape.h, ∀ j < est.shape.w,
          o.image2.val b c i j = est.val b c i j + o.residual.val b c i j) := by
  unfold forward at h
  obtain ⟨⟨f, ps⟩, e1, h⟩ := bind_ok h
  obtain ⟨⟨lat, sizes⟩, e2, h⟩ := bind_ok h
  obtain ⟨⟨q, lik⟩, e3, h⟩ := bind_ok h
  obtain ⟨fl, e4, h⟩ := bind_ok h
  obtain ⟨est, e5, h⟩ := bind_ok h
  obtain ⟨r, e6, h⟩ := bind_ok h
  obtain ⟨⟨lat2, sizes2⟩, e7, h⟩ := bind_ok h
  obtain ⟨⟨q2, lik2⟩, e8, h⟩ := bind_ok h
  obtain ⟨r2, e9, h⟩ := bind_ok h
  obtain ⟨est2, e10, h⟩ := bind_ok h
  cases h
  unfold predict at e5
  obtain ⟨warped, e11, e12⟩ := bind_ok e5
  exact ⟨warped, est, e11, e12, e10, fun hs => elementwise_same_shape _ hs e10⟩

/-- A layer whose weights are zero and whose biases are all `b`. -/
def constLayer (b : ℝ) : LayerW := ⟨fun _ _ _ _ => 0, fun _ => b, fun _ _ => 0, fun _ => 1, ⟨fun _ => 1, fun _ => 0, fun _ => 0, fun _ => 1⟩⟩

theorem decode_const_loop (training : Bool) (a : ℝ) (ls : List Layer) (c1 c2 k s p : ℕ) (n : ℕ) (t r : Tensor)
    (sizes : List Shape)
    (h : decodeLoop training (fun _ => constLayer a) n (ls ++ [.convT c1 c2 k s p true]) t sizes = .ok r) :
    ∀ b c i j, r.val b c i j = a := by
  induction ls generalizing n t sizes with
  | nil =>
    rw [List.nil_append, decodeLoop] at h
    simp only [Layer.isConvT, if_true] at h
    split at h
    · cases h
    · obtain ⟨q, e, h⟩ := bind_ok h
      rw [decodeLoop] at h
      cases h
      unfold runSized at e
      obtain ⟨z, _, e⟩ := bind_ok e
      cases e
      intro b c i j
      simp [values, HificNet.convTranspose2d, LayerW.conv, constLayer]
  | cons l rest ih =>
    rw [List.cons_append, decodeLoop] at h
    split at h
    · split at h
      · cases h
      · obtain ⟨q, e, h⟩ := bind_ok h
        exact ih _ _ _ h
    · obtain ⟨q, e, h⟩ := bind_ok h
      exact ih _ _ _ h

theorem decoderFrom_last (k : Coder) (m cin : ℕ) : ∃ ls c1, k.decoderFrom m cin =
    ls ++ [.convT c1 k.outChannels k.kernel k.stride (k.kernel / 2) true] := by
  induction m generalizing cin with
  | zero => exact ⟨[], cin, rfl⟩
  | succ m ih =>
    obtain ⟨ls, c1, e⟩ := ih k.filterChannels
    exact ⟨_, c1, by rw [Coder.decoderFrom, e, ← List.append_assoc]⟩

theorem decode_const (k : Coder) (training : Bool) (a : ℝ) (t r : Tensor) (sizes : List Shape)
    (h : decode k training (fun _ => constLayer a) t sizes = .ok r) : ∀ b c i j, r.val b c i j = a := by
  unfold decode at h
  split at h
  · cases h
  · obtain ⟨ls, c1, e⟩ := decoderFrom_last k (k.layers - 1) k.inChannels
    rw [Coder.decoder, e] at h
    exact decode_const_loop training a ls _ _ _ _ _ _ _ _ _ h

theorem forward_defined (m : Model) (w w' : Weights Str) (training : Bool) (u v : ℕ → ℕ → ℕ → ℕ → ℝ) (x y : Tensor)
    (o : Output) (h : forward m w training u v x y = .ok o) : ∃ o', forward m w' training u v x y = .ok o' := by
  obtain ⟨s, hs, _⟩ := relE_ok (forward_shape m w training u v x y) h
  obtain ⟨o', h', _⟩ := of_shape (forward_shape m w' training u v x y) hs
  exact ⟨o', h'⟩

/-- **C136 (negation), flow.** The documentation calls the first output "the calculated optical flow".  It is the flow after
coding: whatever the model, the images and the other weights, there are weights of the motion decoder for which the flow that
the estimator calculates and the flow that `forward` returns differ at every pixel. -/
theorem C136_violated_flow (m : Model) (w : Weights Str) (training : Bool) (u v : ℕ → ℕ → ℕ → ℕ → ℝ) (x y : Tensor)
    (o : Output) (h : forward m w training u v x y = .ok o) (b c i j : ℕ) :
    ∃ d, ∃ o' flow pairs, forward m { w with motionDecoder := d } training u v x y = .ok o' ∧
      estimate m.estimator training w.estimator x y = .ok (flow, pairs) ∧ o'.flow.val b c i j ≠ flow.val b c i j := by
  have h0 := h
  unfold forward at h
  obtain ⟨⟨f, ps⟩, e1, h⟩ := bind_ok h
  refine ⟨fun _ => constLayer (f.val b c i j + 1), ?_⟩
  obtain ⟨o', ho'⟩ := forward_defined m w { w with motionDecoder := fun _ => constLayer (f.val b c i j + 1) } training u v x y
    o h0
  refine ⟨o', f, ps, ho', e1, ?_⟩
  unfold forward at ho'
  obtain ⟨⟨f', ps'⟩, e1', ho'⟩ := bind_ok ho'
  obtain ⟨⟨lat, sizes⟩, e2, ho'⟩ := bind_ok ho'
  obtain ⟨⟨q, lik⟩, e3, ho'⟩ := bind_ok ho'
  obtain ⟨fl, e4, ho'⟩ := bind_ok ho'
  obtain ⟨est, e5, ho'⟩ := bind_ok ho'
  obtain ⟨r, e6, ho'⟩ := bind_ok ho'
  obtain ⟨⟨lat2, sizes2⟩, e7, ho'⟩ := bind_ok ho'
  obtain ⟨⟨q2, lik2⟩, e8, ho'⟩ := bind_ok ho'
  obtain ⟨r2, e9, ho'⟩ := bind_ok ho'
  obtain ⟨est2, e10, ho'⟩ := bind_ok ho'
  cases ho'
  dsimp only
  rw [decode_const _ _ _ _ _ _ e4]
  exact ne_of_gt (lt_add_one _)

/-- **C136 (negation), residual.** The documentation calls the third output "the residual between the flow-compensated image1
and the true image2".  It is that residual after coding: whatever the model, the images and the other weights, there are
weights of the residual decoder for which the two differ. -/
theorem C136_violated_residual (m : Model) (w : Weights Str) (training : Bool) (u v : ℕ → ℕ → ℕ → ℕ → ℝ) (x y : Tensor)
    (o : Output) (h : forward m w training u v x y = .ok o) (b c i j : ℕ) :
    ∃ d, ∃ o' warped est, forward m { w with residualDecoder := d } training u v x y = .ok o' ∧
      warpTensor x o'.flow = .ok warped ∧ compensate m.compensation training w.compensation x warped o'.flow = .ok est ∧
      o'.residual.val b c i j ≠ y.val b c i j - est.val b c i j := by
  have h0 := h
  unfold forward at h
  obtain ⟨⟨f, ps⟩, e1, h⟩ := bind_ok h
  obtain ⟨⟨lat, sizes⟩, e2, h⟩ := bind_ok h
  obtain ⟨⟨q, lik⟩, e3, h⟩ := bind_ok h
  obtain ⟨fl, e4, h⟩ := bind_ok h
  obtain ⟨est, e5, h⟩ := bind_ok h
  refine ⟨fun _ => constLayer (y.val b c i j - est.val b c i j + 1), ?_⟩
  obtain ⟨o', ho'⟩ := forward_defined m w
    { w with residualDecoder := fun _ => constLayer (y.val b c i j - est.val b c i j + 1) } training u v x y o h0
  have ho := ho'
  unfold forward at ho'
  simp only [e1, bind, Except.bind] at ho'
  simp only [e2] at ho'
  simp only [e3] at ho'
  simp only [e4] at ho'
  have e5' : predict m { w with residualDecoder := fun _ => constLayer (y.val b c i j - est.val b c i j + 1) } training x fl =
    .ok est := e5
  simp only [e5'] at ho'
  obtain ⟨r, e6, ho'⟩ := bind_ok ho'
  obtain ⟨⟨lat2, sizes2⟩, e7, ho'⟩ := bind_ok ho'
  obtain ⟨⟨q2, lik2⟩, e8, ho'⟩ := bind_ok ho'
  obtain ⟨r2, e9, ho'⟩ := bind_ok ho'
  obtain ⟨est2, e10, ho'⟩ := bind_ok ho'
  cases ho'
  unfold predict at e5
  obtain ⟨warped, e11, e12⟩ := bind_ok e5
  refine ⟨_, warped, est, ho, e11, e12, ?_⟩
  dsimp only
  rw [decode_const _ _ _ _ _ _ e9]
  exact ne_of_gt (lt_add_one _)

/-- An encoder of two layers with batch normalisation and kernels of one pixel, and weights that copy. -/
def normCoder : Coder :=
  { inChannels := 1, outChannels := 1, filterChannels := 1, kernel := 1, stride := 1, layers := 2, useGdn := false }

/-- Weights that copy. -/
def copyLayer : LayerW :=
  ⟨fun _ _ _ _ => 1, fun _ => 0, fun _ _ => 0, fun _ => 1, ⟨fun _ => 1, fun _ => 0, fun _ => 0, fun _ => 1⟩⟩

/-- A batch of two images of one pixel. -/
def pairOf (a b : ℝ) : Tensor := ⟨⟨2, 1, 1, 1⟩, fun k _ _ _ => if k = 0 then a else b⟩

theorem copy_value (bias : Bool) (x : Image ℝ) (b : ℕ) (h1 : x.height = 1) (h2 : x.width = 1) :
    (HificNet.conv2d 1 1 1 0 (copyLayer.conv bias) x).pix b 0 0 0 = x.pix b 0 0 0 := by
  cases bias <;> simp [HificNet.conv2d, LayerW.conv, copyLayer, HificNet.zeroPadded, h1, h2]

theorem normCoder_value (a b : ℝ) : ∃ t sizes, encode normCoder true (fun _ => copyLayer) (pairOf a b) = .ok (t, sizes) ∧
    t.val 0 0 0 0 = max ((a - (a + b) / 2) / √(((a - (a + b) / 2) ^ 2 + (b - (a + b) / 2) ^ 2) / 2 + 1 / 100000)) 0 := by
  have step : ∀ (l : Layer) (v : ℕ → ℕ → ℕ → ℕ → ℝ), l.apply true ⟨2, 1, 1, 1⟩ = .ok ⟨2, 1, 1, 1⟩ →
      run true false l copyLayer ⟨⟨2, 1, 1, 1⟩, v⟩ = .ok ⟨⟨2, 1, 1, 1⟩, values true false l copyLayer ⟨⟨2, 1, 1, 1⟩, v⟩⟩ := by
    intro l v h
    unfold run
    rw [h]
    rfl
  have e : normCoder.encoder = [.conv 1 1 1 1 0 false, .batchNorm 1, .relu, .conv 1 1 1 1 0 true] := by decide
  refine ⟨⟨⟨2, 1, 1, 1⟩, values true false (.conv 1 1 1 1 0 true) copyLayer ⟨⟨2, 1, 1, 1⟩, values true false .relu copyLayer
    ⟨⟨2, 1, 1, 1⟩, values true false (.batchNorm 1) copyLayer ⟨⟨2, 1, 1, 1⟩, values true false (.conv 1 1 1 1 0 false) copyLayer
      (pairOf a b)⟩⟩⟩⟩, [⟨2, 1, 1, 1⟩, ⟨2, 1, 1, 1⟩], ?_, ?_⟩
  · rw [encode, e, pairOf]
    simp only [encodeLoop]
    rw [step _ _ (by decide)]
    simp only [bind, Except.bind]
    rw [step _ _ (by decide)]
    dsimp only
    rw [step _ _ (by decide)]
    dsimp only
    rw [step _ _ (by decide)]
    rfl
  simp only [values]
  rw [copy_value _ _ _ rfl rfl]
  simp only [Tensor.image, HificNet.relu, UnetNet.batchNorm, UnetNet.meanOf, UnetNet.varOf, if_true, Finset.sum_range_succ,
    Finset.sum_range_zero, zero_add]
  rw [copy_value _ _ _ rfl rfl, copy_value _ _ _ rfl rfl]
  simp [copyLayer, pairOf, Tensor.image]

/-- **C136 (negation), batches.** With `use_gdn=False`, in training, the latent of a frame depends on the other frames of the
batch: the same frame gets zero beside one frame and a positive value beside another. -/
theorem C136_violated_batch : ∃ t t' sizes sizes',
    encode normCoder true (fun _ => copyLayer) (pairOf 1 3) = .ok (t, sizes) ∧
    encode normCoder true (fun _ => copyLayer) (pairOf 1 (-1)) = .ok (t', sizes') ∧ t.val 0 0 0 0 = 0 ∧
    0 < t'.val 0 0 0 0 := by
  obtain ⟨t, s, e, h⟩ := normCoder_value 1 3
  obtain ⟨t', s', e', h'⟩ := normCoder_value 1 (-1)
  refine ⟨t, t', s, s', e, e', ?_, ?_⟩
  · rw [h]
    refine max_eq_right (div_nonpos_of_nonpos_of_nonneg (by norm_num) (Real.sqrt_nonneg _))
  · rw [h']
    refine lt_max_of_lt_left (div_pos (by norm_num) (Real.sqrt_pos.2 (by norm_num)))

end Verif.Models.DvcValues
