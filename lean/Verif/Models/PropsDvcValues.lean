import Verif.Models.DvcValuesLemmas
import Mathlib.Tactic.Ring
import Mathlib.Tactic.NormNum

/-!
# C136: the frames of a batch, the pairs of the flow estimator and the outputs of deep video compression

Specification: `Selected` (a batch put together from images of another), `SelectedStrings`, `blockMean` (averages of square
blocks), `Lossless`.
-/

namespace Verif.Models.DvcValues

open Verif Verif.Functional Verif.Models.DvcNets
open Verif.Models.VqVaeNet (bind_ok)

variable {Str : Type}

/-! ### Specification -/

/-- `y` is a batch of `k` images that are the images `f 0`, `f 1`, … of the batch `x`: any selection, in any order, with or
without repetitions. -/
def Selected (k : ℕ) (f : ℕ → ℕ) (x y : Tensor) : Prop :=
  y.shape = { x.shape with n := k } ∧ ∀ b < k, f b < x.shape.n ∧
    ∀ c < x.shape.c, ∀ i < x.shape.h, ∀ j < x.shape.w, y.val b c i j = x.val (f b) c i j

/-- The same for lists of strings, one for each image. -/
def SelectedStrings (k : ℕ) (f : ℕ → ℕ) (l l' : List Str) : Prop :=
  l'.length = k ∧ ∀ b < k, ∃ s, l[f b]? = some s ∧ l'[b]? = some s

/-- The same for logged sizes. -/
def SelectedSizes (k : ℕ) (l l' : List Shape) : Prop := l' = l.map fun s => { s with n := k }

/-- Every value is the average of a block of `2 ^ k` by `2 ^ k` values; what does not fill a block is dropped. -/
noncomputable def blockMean (k : ℕ) (t : Tensor) : Tensor :=
  ⟨{ t.shape with h := t.shape.h / 2 ^ k, w := t.shape.w / 2 ^ k }, fun b c i j =>
    (∑ di ∈ Finset.range (2 ^ k), ∑ dj ∈ Finset.range (2 ^ k), t.val b c (2 ^ k * i + di) (2 ^ k * j + dj)) / 4 ^ k⟩

/-- The range coder gives back the symbols, given the numbers of their tables. -/
def Bottleneck.Lossless (k : Bottleneck Str) : Prop := ∀ l, k.decode (k.encode l) (l.map Prod.fst) = l.map Prod.snd

/-- The last size has even height and width. -/
def EvenLast (sizes : List Shape) : Prop := ∀ s, sizes.getLast? = some s → s.h % 2 = 0 ∧ s.w % 2 = 0

/-! ### Batches -/

theorem same_of_selected {k : ℕ} {f : ℕ → ℕ} {x y : Tensor} (h : Selected k f x y) :
    Same x.shape.n k (fun b b' => b = f b' ∧ b' < k) x y := by
  obtain ⟨h1, h2⟩ := h
  refine ⟨⟨rfl, by rw [h1], by rw [h1], by rw [h1], by rw [h1]⟩, ?_⟩
  rintro b b' ⟨rfl, hb⟩ c hc i hi j hj
  exact ((h2 b' hb).2 c hc i hi j hj).symm

theorem selected_of_same {k n : ℕ} {f : ℕ → ℕ} {x y : Tensor} (hf : ∀ b < k, f b < n)
    (h : Same n k (fun b b' => b = f b' ∧ b' < k) x y) : Selected k f x y := by
  obtain ⟨⟨h1, h2, h3, h4, h5⟩, hv⟩ := h
  refine ⟨?_, fun b hb => ⟨by rw [h1]; exact hf b hb, fun c hc i hi j hj => (hv _ b ⟨rfl, hb⟩ c hc i hi j hj).symm⟩⟩
  cases hy : y.shape
  rw [hy] at h2 h3 h4 h5
  dsimp only at h2 h3 h4 h5
  subst h2 h3 h4 h5
  rfl

theorem inside_selected {k n : ℕ} {f : ℕ → ℕ} (hf : ∀ b < k, f b < n) :
    Inside n k fun b b' => b = f b' ∧ b' < k := by
  rintro b b' ⟨rfl, hb⟩
  exact ⟨hf b' hb, hb⟩

/-- **C136, batches, `forward`.** For all settings and weights, in evaluation mode or with GDN (the default): what `forward`
gives for a batch of pairs of frames is, image by image, what it gives for any other batch with those pairs in it — any
selection, in any order — and it fails on one if it fails on the other.  In training the noise must be the same. -/
theorem C136_batch_partial (m : Model) (w : Weights Str) (training : Bool)
    (hm : training = false ∨ m.motionEncoder.useGdn = true ∧ m.motionDecoder.useGdn = true ∧
      m.residualEncoder.useGdn = true ∧ m.residualDecoder.useGdn = true)
    (k : ℕ) (f : ℕ → ℕ) (u u' v v' : ℕ → ℕ → ℕ → ℕ → ℝ)
    (hu : training = true → ∀ b < k, u' b = u (f b) ∧ v' b = v (f b))
    (x1 x2 y1 y2 : Tensor) (hn : x1.shape.n = x2.shape.n) (h1 : Selected k f x1 y1) (h2 : Selected k f x2 y2) :
    (∀ o, forward m w training u v x1 x2 = .ok o → ∃ o', forward m w training u' v' y1 y2 = .ok o' ∧
      Selected k f o.flow o'.flow ∧ Selected k f o.image2 o'.image2 ∧ Selected k f o.residual o'.residual ∧
      Selected k f o.flowProbabilities o'.flowProbabilities ∧
      Selected k f o.residualProbabilities o'.residualProbabilities) ∧
    ∀ e, forward m w training u v x1 x2 = .error e → forward m w training u' v' y1 y2 = .error e := by
  have hf : ∀ b < k, f b < x1.shape.n := fun b hb => (h1.2 b hb).1
  have s1 := same_of_selected h1
  have s2 := same_of_selected h2
  rw [← hn] at s2
  have ha : ModelApart training m := by
    rcases hm with h | ⟨a, b, c, d⟩
    · exact ⟨Or.inl h, Or.inl h, Or.inl h, Or.inl h⟩
    · exact ⟨Or.inr a, Or.inr b, Or.inr c, Or.inr d⟩
  have key := forward_same (inside_selected hf) m w training ha (u := u) (u' := u') (v := v) (v' := v')
    (by rintro ht b b' ⟨rfl, hb⟩ c i j; rw [(hu ht b' hb).1])
    (by rintro ht b b' ⟨rfl, hb⟩ c i j; rw [(hu ht b' hb).2]) s1 s2
  refine ⟨fun o ho => ?_, fun e he => relE_error key he⟩
  obtain ⟨o', ho', hs⟩ := relE_ok key ho
  exact ⟨o', ho', selected_of_same hf hs.flow, selected_of_same hf hs.image2, selected_of_same hf hs.residual,
    selected_of_same hf hs.flowProbabilities, selected_of_same hf hs.residualProbabilities⟩

theorem selectedStrings_of_same {k n : ℕ} {f : ℕ → ℕ} {l l' : List Str} (hf : ∀ b < k, f b < n)
    (h : SameStrings n k (fun b b' => b = f b' ∧ b' < k) l l') : SelectedStrings k f l l' := by
  refine ⟨h.n', fun b hb => ?_⟩
  have hlt : f b < l.length := by rw [h.n]; exact hf b hb
  exact ⟨l[f b], List.getElem?_eq_getElem hlt, by rw [← h.get _ b ⟨rfl, hb⟩, List.getElem?_eq_getElem hlt]⟩

theorem same_of_selectedStrings {k n : ℕ} {f : ℕ → ℕ} {l l' : List Str} (hn : l.length = n)
    (h : SelectedStrings k f l l') : SameStrings n k (fun b b' => b = f b' ∧ b' < k) l l' := by
  refine ⟨hn, h.1, ?_⟩
  rintro b b' ⟨rfl, hb⟩
  obtain ⟨s, e1, e2⟩ := h.2 b' hb
  rw [e1, e2]

theorem selectedSizes_of_same {k n : ℕ} {l l' : List Shape} (h : SameSizes n k l l') : SelectedSizes k l l' := by
  unfold SelectedSizes
  induction h with
  | nil => rfl
  | @cons s s' _ _ a _ ih =>
    rw [List.map_cons, ← ih]
    congr 1
    obtain ⟨h1, h2, h3, h4, h5⟩ := a
    cases s'
    dsimp only at h2 h3 h4 h5
    subst h2 h3 h4 h5
    rfl

/-- **C136, batches, `compress`.** The strings of a pair of frames do not depend on the batch: the string of every image of a
selection is the string that the image has in the whole batch. -/
theorem C136_strings (m : Model) (w : Weights Str) (k : ℕ) (f : ℕ → ℕ) (x1 x2 y1 y2 : Tensor)
    (hn : x1.shape.n = x2.shape.n) (h1 : Selected k f x1 y1) (h2 : Selected k f x2 y2) :
    (∀ p, compress m w x1 x2 = .ok p → ∃ p', compress m w y1 y2 = .ok p' ∧
      SelectedStrings k f p.flow p'.flow ∧ SelectedStrings k f p.residual p'.residual ∧
      SelectedSizes k p.flowSizes p'.flowSizes ∧ SelectedSizes k p.residualSizes p'.residualSizes) ∧
    ∀ e, compress m w x1 x2 = .error e → compress m w y1 y2 = .error e := by
  have hf : ∀ b < k, f b < x1.shape.n := fun b hb => (h1.2 b hb).1
  have s1 := same_of_selected h1
  have s2 := same_of_selected h2
  rw [← hn] at s2
  have key := frame_same (inside_selected hf) m w s1 s2
  refine ⟨fun p hp => ?_, fun e he => relE_error key he⟩
  obtain ⟨p', hp', hs⟩ := relE_ok key hp
  exact ⟨p', hp', selectedStrings_of_same hf hs.flow, selectedStrings_of_same hf hs.residual,
    selectedSizes_of_same hs.flowSizes, selectedSizes_of_same hs.residualSizes⟩

/-- **C136, batches, `decompress`.** A receiver who decodes only some of the images gets those images: decoding the strings
of a selection relative to the selected references gives the selected images of the batch that all strings give. -/
theorem C136_decoded (m : Model) (w : Weights Str) (k : ℕ) (f : ℕ → ℕ) (x y : Tensor) (h : Selected k f x y)
    (p p' : PFrame Str) (hn : p.flow.length = x.shape.n ∧ p.residual.length = x.shape.n ∧
      (∀ s ∈ p.flowSizes, s.n = x.shape.n) ∧ ∀ s ∈ p.residualSizes, s.n = x.shape.n)
    (h1 : SelectedStrings k f p.flow p'.flow) (h2 : SelectedStrings k f p.residual p'.residual)
    (h3 : SelectedSizes k p.flowSizes p'.flowSizes) (h4 : SelectedSizes k p.residualSizes p'.residualSizes) :
    (∀ d, decompress m w x p = .ok d → ∃ d', decompress m w y p' = .ok d' ∧ Selected k f d d') ∧
    ∀ e, decompress m w x p = .error e → decompress m w y p' = .error e := by
  have hf : ∀ b < k, f b < x.shape.n := fun b hb => (h.2 b hb).1
  have sizes : ∀ {l l' : List Shape}, (∀ s ∈ l, s.n = x.shape.n) → SelectedSizes k l l' → SameSizes x.shape.n k l l' := by
    intro l l' hl hs
    unfold SelectedSizes at hs
    subst hs
    rw [SameSizes, List.forall₂_map_right_iff, List.forall₂_same]
    exact fun s hs => ⟨hl s hs, rfl, rfl, rfl, rfl⟩
  have key := received_same (inside_selected hf) m w (same_of_selected h)
    (p := p) (p' := p') ⟨same_of_selectedStrings hn.1 h1, sizes hn.2.2.1 h3, same_of_selectedStrings hn.2.1 h2,
      sizes hn.2.2.2 h4⟩
  refine ⟨fun d hd => ?_, fun e he => relE_error key he⟩
  obtain ⟨d', hd', hs⟩ := relE_ok key hd
  exact ⟨d', hd', selected_of_same hf hs⟩

/-! ### Coding -/

section Coding

/-- The pairing of a batch with itself. -/
def diag (n b b' : ℕ) : Prop := b = b' ∧ b < n

theorem inside_diag (n : ℕ) : Inside n n (diag n) := by
  rintro b b' ⟨rfl, h⟩
  exact ⟨h, h⟩

theorem same_refl (t : Tensor) : Same t.shape.n t.shape.n (diag t.shape.n) t t :=
  ⟨⟨rfl, rfl, rfl, rfl, rfl⟩, by rintro b b' ⟨rfl, _⟩ c _ i _ j _; rfl⟩

theorem same_trans {n : ℕ} {x y z : Tensor} (h1 : Same n n (diag n) x y) (h2 : Same n n (diag n) y z) :
    Same n n (diag n) x z := by
  refine ⟨⟨h1.shape.n, h2.shape.n', h2.shape.c.trans h1.shape.c, h2.shape.h.trans h1.shape.h,
    h2.shape.w.trans h1.shape.w⟩, ?_⟩
  rintro b b' ⟨rfl, hb⟩ c hc i hi j hj
  rw [h1.val b b ⟨rfl, hb⟩ c hc i hi j hj]
  exact h2.val b b ⟨rfl, hb⟩ c (by rw [h1.shape.c]; exact hc) i (by rw [h1.shape.h]; exact hi) j
    (by rw [h1.shape.w]; exact hj)

theorem restore {k : Bottleneck Str} (hk : k.Lossless) {channels : ℕ} {t : Tensor} {l : List Str}
    (h : k.compress channels t = .ok l) (u : ℕ → ℕ → ℕ → ℕ → ℝ) :
    ∃ q lik, k.forward channels false u t = .ok (q, lik) ∧ l.length = t.shape.n ∧
      Same t.shape.n t.shape.n (diag t.shape.n) (k.decompress channels l t.shape.h t.shape.w) q := by
  unfold Bottleneck.compress at h
  dsimp only at h
  split at h
  · cases h
  · rename_i hc
    have hc' : t.shape.c = channels := by omega
    subst hc'
    cases h
    refine ⟨⟨t.shape, fun b c i j => (roundHalfEven (t.val b c i j - k.median (chan t.shape.c c)) : ℝ)
        + k.median (chan t.shape.c c)⟩,
      ⟨t.shape, fun b c i j => k.lik (chan t.shape.c c) ((roundHalfEven (t.val b c i j - k.median (chan t.shape.c c)) : ℝ)
        + k.median (chan t.shape.c c))⟩, ?_, by simp, ?_⟩
    · unfold Bottleneck.forward bottleneck
      rw [if_neg (by simp)]
      rfl
    · refine ⟨⟨by simp [Bottleneck.decompress], rfl, rfl, rfl, rfl⟩, ?_⟩
      rintro b b' ⟨rfl, hb⟩ c hc i hi j hj
      simp only [Bottleneck.decompress] at hc hi hj ⊢
      rw [List.getElem?_map, List.getElem?_range hb]
      simp only [Option.map_some, Bool.false_eq_true, if_false]
      have hidx : indexes t.shape.c t.shape.h t.shape.w =
          ((List.range (t.shape.c * t.shape.h * t.shape.w)).map fun p =>
            (p / (t.shape.h * t.shape.w), roundHalfEven (t.val b (p / (t.shape.h * t.shape.w)) (p / t.shape.w % t.shape.h)
              (p % t.shape.w) - k.median (p / (t.shape.h * t.shape.w))))).map Prod.fst := by
        rw [List.map_map]
        rfl
      rw [hidx, hk]
      have hp : (c * t.shape.h + i) * t.shape.w + j < t.shape.c * t.shape.h * t.shape.w := by
        have a1 : c * t.shape.h + i + 1 ≤ t.shape.c * t.shape.h := by
          calc c * t.shape.h + i + 1 ≤ c * t.shape.h + t.shape.h := by omega
            _ = (c + 1) * t.shape.h := by ring
            _ ≤ t.shape.c * t.shape.h := Nat.mul_le_mul_right _ hc
        calc (c * t.shape.h + i) * t.shape.w + j < (c * t.shape.h + i) * t.shape.w + t.shape.w := by omega
          _ = (c * t.shape.h + i + 1) * t.shape.w := by ring
          _ ≤ t.shape.c * t.shape.h * t.shape.w := Nat.mul_le_mul_right _ a1
      have hw : 0 < t.shape.w := by omega
      have hh : 0 < t.shape.h := by omega
      have d1 : ((c * t.shape.h + i) * t.shape.w + j) / t.shape.w = c * t.shape.h + i := by
        rw [Nat.mul_comm, Nat.mul_add_div hw, Nat.div_eq_of_lt hj, Nat.add_zero]
      have d2 : ((c * t.shape.h + i) * t.shape.w + j) % t.shape.w = j := by
        rw [Nat.mul_comm, Nat.mul_add_mod, Nat.mod_eq_of_lt hj]
      have d3 : (c * t.shape.h + i) % t.shape.h = i := by
        rw [Nat.mul_comm, Nat.mul_add_mod, Nat.mod_eq_of_lt hi]
      have d4 : ((c * t.shape.h + i) * t.shape.w + j) / (t.shape.h * t.shape.w) = c := by
        rw [Nat.mul_comm t.shape.h, ← Nat.div_div_eq_div_mul, d1, Nat.mul_comm c, Nat.mul_add_div hh, Nat.div_eq_of_lt hi,
          Nat.add_zero]
      have hchan : ∀ {N}, c < N → (if N = 1 then 0 else c) = c := by
        intro N h
        split_ifs <;> omega
      rw [List.map_map, List.getD_eq_getElem?_getD, List.getElem?_map, List.getElem?_range hp]
      simp only [Option.map_some, Option.getD_some, Function.comp, chan, hchan hc, d4, d1, d2, d3]

theorem encodeLoop_append (training : Bool) (a b : List Layer) (s : Shape) (sizes : List Shape) :
    DvcNets.encodeLoop training (a ++ b) s sizes =
      (DvcNets.encodeLoop training a s sizes >>= fun p => DvcNets.encodeLoop training b p.1 p.2) := by
  induction a generalizing s sizes with
  | nil => rfl
  | cons l rest ih =>
    cases l <;>
    · simp only [List.cons_append, DvcNets.encodeLoop, bind_assoc, ih]

theorem encoder_last (k : Coder) (hk : k.kernel % 2 = 1) (hs : k.stride = 2) (training : Bool) (m cin : ℕ) (s : Shape)
    (sizes : List Shape) (lat : Shape) (out : List Shape)
    (h : DvcNets.encodeLoop training (k.encoderFrom m cin) s sizes = .ok (lat, out)) :
    ∃ q, out.getLast? = some q ∧ lat.h = (q.h + 1) / 2 ∧ lat.w = (q.w + 1) / 2 := by
  induction m generalizing cin s sizes with
  | zero =>
    rw [Coder.encoderFrom, DvcNets.encodeLoop] at h
    obtain ⟨t, e, h⟩ := bind_ok h
    cases h
    unfold Layer.apply at e
    dsimp only at e
    split at e
    · cases e
    · cases e
      refine ⟨s, by simp, ?_, ?_⟩ <;> simp only [convOut, hs] <;> omega
  | succ m ih =>
    rw [Coder.encoderFrom, encodeLoop_append] at h
    obtain ⟨p, _, h⟩ := bind_ok h
    exact ih _ _ _ h

theorem asked_ok {k : Coder} (hk : k.kernel % 2 = 1) (hs : k.stride = 2) {w : ℕ → LayerW} {t lat : Tensor}
    {sizes : List Shape} (h : encode k false w t = .ok (lat, sizes)) (he : EvenLast sizes) :
    asked sizes = .ok (lat.shape.h, lat.shape.w) := by
  obtain ⟨⟨s, l⟩, e, hs'⟩ := relE_ok (encode_shape k false w t) h
  obtain ⟨e1, e2⟩ := hs'
  dsimp only at e1 e2
  subst e1 e2
  obtain ⟨q, hq, h1, h2⟩ := encoder_last k hk hs false _ _ _ _ _ _ e
  obtain ⟨p1, p2⟩ := he q hq
  unfold asked
  rw [hq, h1, h2]
  dsimp only
  congr 2 <;> omega

theorem coding (m : Model) (w : Weights Str) (l1 : w.motionBottleneck.Lossless) (l2 : w.residualBottleneck.Lossless)
    (hk : m.motionEncoder.kernel % 2 = 1 ∧ m.motionEncoder.stride = 2 ∧ m.residualEncoder.kernel % 2 = 1 ∧
      m.residualEncoder.stride = 2) (x y : Tensor) (hn : x.shape.n = y.shape.n) (p : PFrame Str)
    (h : compress m w x y = .ok p) (he : EvenLast p.flowSizes ∧ EvenLast p.residualSizes) (u v : ℕ → ℕ → ℕ → ℕ → ℝ) :
    RelE (fun (d : Tensor) (o : Output) => d.shape = o.image2.shape ∧ ∀ b < o.image2.shape.n, ∀ c < o.image2.shape.c,
        ∀ i < o.image2.shape.h, ∀ j < o.image2.shape.w, d.val b c i j = min 1 (max 0 (o.image2.val b c i j)))
      (decompress m w x p) (forward m w false u v x y) := by
  unfold compress at h
  obtain ⟨⟨f, ps⟩, e1, h⟩ := bind_ok h
  obtain ⟨⟨lat, sizes⟩, e2, h⟩ := bind_ok h
  obtain ⟨str, e3, h⟩ := bind_ok h
  obtain ⟨fl, e4, h⟩ := bind_ok h
  obtain ⟨est, e5, h⟩ := bind_ok h
  obtain ⟨r, e6, h⟩ := bind_ok h
  obtain ⟨⟨lat2, sizes2⟩, e7, h⟩ := bind_ok h
  obtain ⟨str2, e8, h⟩ := bind_ok h
  cases h
  dsimp only at he e2 e3 e4 e7 e8
  have a1 := asked_ok hk.1 hk.2.1 e2 he.1
  have a2 := asked_ok hk.2.2.1 hk.2.2.2 e7 he.2
  obtain ⟨q, lik, e9, _, hq⟩ := restore l1 e3 u
  have hx := same_refl x
  have hy := same_refl y
  rw [← hn] at hy
  have hf := relE_ok (estimate_same (inside_diag x.shape.n) m.estimator false w.estimator hx hy) e1
  obtain ⟨⟨f', ps'⟩, e1', hff, _⟩ := hf
  rw [e1] at e1'
  cases e1'
  obtain ⟨⟨lt', sz'⟩, e2', hlat⟩ := relE_ok (encode_same (Or.inl rfl) w.motionEncoder hff) e2
  rw [e2] at e2'
  cases e2'
  obtain ⟨hlat, hsizes⟩ := hlat
  dsimp only at hlat hsizes
  have hln : lat.shape.n = x.shape.n := hlat.shape.n
  rw [hln] at hq
  obtain ⟨fl', e4', hfl⟩ := relE_ok (decode_same (Or.inl rfl) w.motionDecoder hq hsizes) e4
  obtain ⟨est', e5', hest⟩ := relE_ok (predict_same (inside_diag _) m w false hx hfl) e5
  obtain ⟨r', e6', hr⟩ := relE_ok (elementwise_same (inside_diag _) (· - ·) hy hest) e6
  obtain ⟨⟨lat2', sizes2'⟩, e7', hl2, hs2⟩ := relE_ok (encode_same (Or.inl rfl) w.residualEncoder hr) e7
  dsimp only at hl2 hs2
  obtain ⟨q2, lik2, e10, _, hq2⟩ := restore l2 e8 v
  have hln2 : lat2.shape.n = x.shape.n := hl2.shape.n
  rw [hln2] at hq2
  obtain ⟨⟨q2', lik2'⟩, e10', hqq, _⟩ := relE_ok
    (bottleneck_same w.residualBottleneck m.residualBottleneck false (u := v) (u' := v) (by simp) hl2) e10
  dsimp only at hqq
  have hq3 := same_trans hq2 hqq
  unfold decompress forward
  rw [e1]
  simp only [bind, Except.bind]
  rw [e2]
  dsimp only
  rw [e9]
  dsimp only
  rw [e4', a1]
  dsimp only
  rw [e4, e5']
  dsimp only
  rw [e5]
  dsimp only
  rw [a2, e6']
  dsimp only
  rw [e7']
  dsimp only
  rw [e10']
  dsimp only
  have hdec := decode_same (training := false) (k := m.residualDecoder) (Or.inl rfl) w.residualDecoder hq3 hs2
  refine relE_bind hdec fun a a' ha => ?_
  refine relE_bind (elementwise_same (inside_diag _) (· + ·) hest ha) fun c c' hc => ?_
  have hsh : c.shape = c'.shape := by
    have := hc.shape
    cases h1 : c.shape; cases h2 : c'.shape
    rw [h1, h2] at this
    obtain ⟨b1, b2, b3, b4, b5⟩ := this
    dsimp only at b1 b2 b3 b4 b5
    subst b1 b3 b4 b5
    rw [b2]
  refine ⟨hsh, ?_⟩
  dsimp only
  rw [← hsh]
  intro b hb ch hch i hi j hj
  rw [hc.val b b ⟨rfl, by rw [← hc.shape.n]; exact hb⟩ ch hch i hi j hj]

end Coding

/-- **C136, coding.** For all settings with odd kernels and stride two, all weights, all lossless range coders and all batches
of pairs of frames that `compress` accepts, if the last size that each encoder logs is even (otherwise `decompress` asks for a
latent of another size, C55): `decompress` gives the estimate of `forward` in evaluation mode, clamped to [0, 1], at every
pixel of every image, and fails if and as `forward` fails. -/
theorem C136_coding_partial (m : Model) (w : Weights Str) (l1 : w.motionBottleneck.Lossless)
    (l2 : w.residualBottleneck.Lossless)
    (hk : m.motionEncoder.kernel % 2 = 1 ∧ m.motionEncoder.stride = 2 ∧ m.residualEncoder.kernel % 2 = 1 ∧
      m.residualEncoder.stride = 2) (x y : Tensor) (hn : x.shape.n = y.shape.n) (p : PFrame Str)
    (h : compress m w x y = .ok p) (he : EvenLast p.flowSizes ∧ EvenLast p.residualSizes) (u v : ℕ → ℕ → ℕ → ℕ → ℝ) :
    (∀ o, forward m w false u v x y = .ok o → ∃ d, decompress m w x p = .ok d ∧ d.shape = o.image2.shape ∧
      ∀ b < d.shape.n, ∀ c < d.shape.c, ∀ i < d.shape.h, ∀ j < d.shape.w,
        d.val b c i j = min 1 (max 0 (o.image2.val b c i j))) ∧
    ∀ e, forward m w false u v x y = .error e → decompress m w x p = .error e := by
  have key := coding m w l1 l2 hk x y hn p h he u v
  refine ⟨fun o ho => ?_, fun e he => ?_⟩
  · rw [ho] at key
    cases hd : decompress m w x p with
    | error e => rw [hd] at key; exact key.elim
    | ok d =>
      rw [hd] at key
      refine ⟨d, rfl, key.1, ?_⟩
      rw [key.1]
      exact key.2
  · rw [he] at key
    cases hd : decompress m w x p with
    | error e => rw [hd] at key; exact congrArg _ key
    | ok d => rw [hd] at key; exact key.elim

end Verif.Models.DvcValues
