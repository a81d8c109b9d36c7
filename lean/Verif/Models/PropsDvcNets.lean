import Verif.Models.DvcNets
import Mathlib.Algebra.Order.Floor.Div
import Mathlib.Data.List.Chain
import Mathlib.Tactic.Ring
import Mathlib.Tactic.Linarith
import Mathlib.Tactic.NormNum

/-!
C109: the networks of deep video compression fit together for their settings.
-/

namespace Verif.Models.DvcNets

/-! ### Layers -/

theorem conv_odd (kernel stride h : ℕ) (hk : kernel % 2 = 1) (hs : 1 ≤ stride) (hh : 1 ≤ h) :
    convOut kernel stride (kernel / 2) h = h ⌈/⌉ stride := by
  have e : h + 2 * (kernel / 2) - kernel = h - 1 := by omega
  rw [convOut, e, Nat.ceilDiv_eq_add_pred_div]
  have : h + stride - 1 = (h - 1) + stride := by omega
  rw [this, Nat.add_div_right _ hs]

theorem ceilDiv_pos' (h q : ℕ) (hq : 1 ≤ q) (hh : 1 ≤ h) : 1 ≤ h ⌈/⌉ q := by
  rw [Nat.ceilDiv_eq_add_pred_div]
  exact Nat.div_pos (by omega) hq

theorem ceilDiv_ceilDiv' (h a b : ℕ) (ha : 1 ≤ a) (hb : 1 ≤ b) (hh : 1 ≤ h) :
    (h ⌈/⌉ a) ⌈/⌉ b = h ⌈/⌉ (a * b) := by
  simp only [Nat.ceilDiv_eq_add_pred_div]
  have e1 : h + a - 1 = (h - 1) + a := by omega
  have e2 : h + a * b - 1 = (h - 1) + a * b := by omega
  rw [e1, e2, Nat.add_div_right _ ha, Nat.add_div_right _ (Nat.mul_pos ha hb)]
  have e3 : ∀ x : ℕ, x.succ + b - 1 = x + b := by omega
  rw [e3, Nat.add_div_right _ hb, Nat.div_div_eq_div_mul]

theorem conv_apply (t : Bool) (cin cout kernel stride : ℕ) (b : Bool) (s : Shape) (hk : kernel % 2 = 1)
    (hs : 1 ≤ stride) (hc : s.c = cin) (hh : 1 ≤ s.h) (hw : 1 ≤ s.w) :
    (Layer.conv cin cout kernel stride (kernel / 2) b).apply t s =
      .ok ⟨s.n, cout, s.h ⌈/⌉ stride, s.w ⌈/⌉ stride⟩ := by
  rw [Layer.apply, if_neg (by omega), conv_odd _ _ _ hk hs hh, conv_odd _ _ _ hk hs hw]

theorem conv_apply_channels (t : Bool) (cin cout kernel stride p : ℕ) (b : Bool) (s : Shape) (hc : s.c ≠ cin) :
    (Layer.conv cin cout kernel stride p b).apply t s = .error .runtime := by
  rw [Layer.apply, if_pos (Or.inl hc)]

theorem sequential_cons (t : Bool) (l : Layer) (rest : List Layer) (s : Shape) :
    sequential t (l :: rest) s = (l.apply t s >>= fun x => sequential t rest x) := rfl

/-- The coder can run its normalisations on this batch: GDN always can, a batch normalisation in training needs more
than one image, or more than one pixel. -/
def NormRuns (k : Coder) (training : Bool) (n : ℕ) : Prop := k.useGdn = true ∨ training = false ∨ 2 ≤ n

theorem norm_loop (k : Coder) (t : Bool) (s : Shape) (rest : List Layer) (acc : List Shape)
    (hc : s.c = k.filterChannels) (hn : NormRuns k t s.n) :
    encodeLoop t (k.norm ++ rest) s acc = encodeLoop t rest s acc := by
  unfold Coder.norm
  rcases hg : k.useGdn with _ | _
  · have h1 : ¬ (t = true ∧ s.n * (s.h * s.w) = 1) := by
      rcases hn with h | h | h
      · rw [hg] at h; cases h
      · rw [h]; simp
      · rintro ⟨_, h2⟩
        have := Nat.eq_one_of_mul_eq_one_right h2
        omega
    simp only [Bool.false_eq_true, if_false, List.cons_append, List.nil_append, encodeLoop, Layer.apply, h1, hc,
      ne_eq, not_true_eq_false]
    rfl
  · simp only [if_true, List.cons_append, List.nil_append, encodeLoop, Layer.apply, hc, ne_eq, not_true_eq_false,
      if_false]
    rfl

theorem encodeFrom (k : Coder) (t : Bool) (hk : k.kernel % 2 = 1) (hs : 1 ≤ k.stride) (m cin : ℕ) (s : Shape)
    (acc : List Shape) (hc : s.c = cin) (hh : 1 ≤ s.h) (hw : 1 ≤ s.w) (hn : NormRuns k t s.n) :
    encodeLoop t (k.encoderFrom m cin) s acc =
      .ok (⟨s.n, k.outChannels, s.h ⌈/⌉ k.stride ^ (m + 1), s.w ⌈/⌉ k.stride ^ (m + 1)⟩,
        acc ++ (List.range (m + 1)).map fun i =>
          ⟨s.n, if i = 0 then cin else k.filterChannels, s.h ⌈/⌉ k.stride ^ i, s.w ⌈/⌉ k.stride ^ i⟩) := by
  induction m generalizing cin s acc with
  | zero =>
    rw [Coder.encoderFrom, encodeLoop, conv_apply _ _ _ _ _ _ _ hk hs hc hh hw]
    subst hc
    simp [encodeLoop, bind, Except.bind]
  | succ m ih =>
    rw [Coder.encoderFrom, List.cons_append, encodeLoop, conv_apply _ _ _ _ _ _ _ hk hs hc hh hw]
    dsimp only [bind, Except.bind]
    rw [norm_loop k t ⟨s.n, k.filterChannels, s.h ⌈/⌉ k.stride, s.w ⌈/⌉ k.stride⟩ _ _ rfl hn,
      ih k.filterChannels ⟨s.n, k.filterChannels, s.h ⌈/⌉ k.stride, s.w ⌈/⌉ k.stride⟩ _ rfl
        (ceilDiv_pos' _ _ hs hh) (ceilDiv_pos' _ _ hs hw) hn]
    have hp : ∀ j, 1 ≤ k.stride ^ j := fun j => Nat.one_le_pow _ _ hs
    dsimp only
    rw [ceilDiv_ceilDiv' _ _ _ hs (hp _) hh, ceilDiv_ceilDiv' _ _ _ hs (hp _) hw, ← pow_succ']
    congr 2
    rw [List.range_succ_eq_map (n := m + 1), List.map_cons, List.append_assoc]
    congr 1
    rw [List.map_map]
    subst hc
    simp only [pow_zero, ceilDiv_one, if_true, List.cons_append, List.nil_append]
    congr 1
    apply List.map_congr_left
    intro j _
    simp only [Function.comp, Nat.succ_ne_zero, if_false, ite_self]
    rw [ceilDiv_ceilDiv' _ _ _ hs (hp _) hh, ceilDiv_ceilDiv' _ _ _ hs (hp _) hw, ← pow_succ']

/-- **C109.** An encoder with any numbers of channels, odd kernel, stride, at least one layer and either
normalisation, given an image with its channels: the latent has the requested channels and the size divided by the
stride once per layer, rounded up; and the shapes before each convolution are logged in order. -/
theorem C109_encoder_partial (k : Coder) (training : Bool) (hk : k.kernel % 2 = 1) (hs : 1 ≤ k.stride)
    (hl : 1 ≤ k.layers) (s : Shape) (hc : s.c = k.inChannels) (hh : 1 ≤ s.h) (hw : 1 ≤ s.w)
    (hn : NormRuns k training s.n) :
    k.encode training s =
      .ok (⟨s.n, k.outChannels, s.h ⌈/⌉ k.stride ^ k.layers, s.w ⌈/⌉ k.stride ^ k.layers⟩,
        (List.range k.layers).map fun i =>
          ⟨s.n, if i = 0 then k.inChannels else k.filterChannels, s.h ⌈/⌉ k.stride ^ i,
            s.w ⌈/⌉ k.stride ^ i⟩) := by
  rw [Coder.encode, Coder.encoder, encodeFrom k training hk hs _ _ s [] hc hh hw hn,
    Nat.sub_add_cancel hl, List.nil_append]

/-- **C109.** An image with other channels is refused, whatever the settings. -/
theorem C109_channels (k : Coder) (training : Bool) (s : Shape) (hc : s.c ≠ k.inChannels) :
    k.encode training s = .error .runtime := by
  rw [Coder.encode, Coder.encoder]
  rcases k.layers - 1 with _ | m
  · rw [Coder.encoderFrom, encodeLoop, conv_apply_channels _ _ _ _ _ _ _ _ hc]; rfl
  · rw [Coder.encoderFrom, List.cons_append, encodeLoop, conv_apply_channels _ _ _ _ _ _ _ _ hc]; rfl

/-! ### Decoder -/

/-- The next size that the encoder had before its convolution is one that the transposed convolution can produce. -/
def Fits (kernel stride padding : ℕ) (a b : Shape) : Prop :=
  a.h ≠ 0 ∧ a.w ≠ 0 ∧ convTOut kernel stride padding a.h (some b.h) = .ok b.h ∧
    convTOut kernel stride padding a.w (some b.w) = .ok b.w

theorem convTOut_convOut (kernel stride padding size : ℕ) (hs : 1 ≤ stride) (h1 : 1 ≤ size)
    (h : kernel ≤ size + 2 * padding) :
    convTOut kernel stride padding (convOut kernel stride padding size) (some size) = .ok size := by
  have h2 := Nat.div_mul_le_self (size + 2 * padding - kernel) stride
  have h3 := Nat.lt_div_mul_add hs (a := size + 2 * padding - kernel)
  rw [convTOut, convOut]
  generalize hq : (size + 2 * padding - kernel) / stride = q at h2 h3
  have e : (((q + 1 : ℕ) : ℤ) - 1) * (stride : ℤ) = ((q * stride : ℕ) : ℤ) := by push_cast; ring
  rw [e, if_neg (by omega), if_neg (by omega)]

theorem norm_any (k : Coder) (t : Bool) (s : Shape) (rest : List Layer) (acc : List Shape)
    (x : Shape × List Shape) (h : encodeLoop t (k.norm ++ rest) s acc = .ok x) :
    encodeLoop t rest s acc = .ok x := by
  unfold Coder.norm at h
  rcases hg : k.useGdn with _ | _
  · rw [hg] at h
    simp only [Bool.false_eq_true, if_false, List.cons_append, List.nil_append, encodeLoop, Layer.apply] at h
    split_ifs at h
    · cases h
    · cases h
    · exact h
  · rw [hg] at h
    simp only [if_true, List.cons_append, List.nil_append, encodeLoop, Layer.apply] at h
    split_ifs at h
    · cases h
    · exact h

theorem conv_apply_fits (t : Bool) (cin cout kernel stride padding : ℕ) (b : Bool) (s x : Shape)
    (h : (Layer.conv cin cout kernel stride padding b).apply t s = .ok x) :
    x.n = s.n ∧ x.c = cout ∧ Fits kernel stride padding x s := by
  rw [Layer.apply] at h
  split_ifs at h with hif
  injection h with h
  subst h
  refine ⟨rfl, rfl, Nat.succ_ne_zero _, Nat.succ_ne_zero _, ?_, ?_⟩ <;>
    exact convTOut_convOut _ _ _ _ (by omega) (by omega) (by omega)

theorem encode_chain (k : Coder) (t : Bool) (m cin : ℕ) (s : Shape) (acc sizes : List Shape) (lat : Shape)
    (h : encodeLoop t (k.encoderFrom m cin) s acc = .ok (lat, sizes)) :
    ∃ news, sizes = acc ++ s :: news ∧ news.length = m ∧ lat.n = s.n ∧ lat.c = k.outChannels ∧
      List.IsChain (fun a b => Fits k.kernel k.stride (k.kernel / 2) b a) (s :: news ++ [lat]) := by
  induction m generalizing cin s acc with
  | zero =>
    rw [Coder.encoderFrom, encodeLoop] at h
    rcases hx : (Layer.conv cin k.outChannels k.kernel k.stride (k.kernel / 2) true).apply t s with e | x
    · rw [hx] at h; cases h
    · rw [hx] at h
      dsimp only [bind, Except.bind, encodeLoop] at h
      injection h with h
      injection h with h1 h2
      subst h1
      obtain ⟨a, b, c⟩ := conv_apply_fits _ _ _ _ _ _ _ _ _ hx
      refine ⟨[], h2.symm, rfl, a, b, ?_⟩
      simpa using c
  | succ m ih =>
    rw [Coder.encoderFrom, List.cons_append, encodeLoop] at h
    rcases hx : (Layer.conv cin k.filterChannels k.kernel k.stride (k.kernel / 2) k.useGdn).apply t s with e | x
    · rw [hx] at h; cases h
    · rw [hx] at h
      dsimp only [bind, Except.bind] at h
      obtain ⟨a, b, c⟩ := conv_apply_fits _ _ _ _ _ _ _ _ _ hx
      obtain ⟨news, h1, h2, h3, h4, h5⟩ := ih _ _ _ (norm_any k t _ _ _ _ h)
      refine ⟨x :: news, by rw [h1]; simp, by simp [h2], h3.trans a, h4, ?_⟩
      simp only [List.cons_append, List.isChain_cons_cons]
      exact ⟨c, by simpa using h5⟩

theorem norm_sized (k : Coder) (t : Bool) (s : Shape) (rest : List Layer) (sizes : List Shape)
    (hc : s.c = k.filterChannels) (hn : NormRuns k t s.n) :
    decodeSized t (k.norm ++ rest) s sizes = decodeSized t rest s sizes := by
  unfold Coder.norm
  rcases hg : k.useGdn with _ | _
  · have h1 : ¬ (t = true ∧ s.n * (s.h * s.w) = 1) := by
      rcases hn with h | h | h
      · rw [hg] at h; cases h
      · rw [h]; simp
      · rintro ⟨_, h2⟩
        have := Nat.eq_one_of_mul_eq_one_right h2
        omega
    simp only [Bool.false_eq_true, if_false, List.cons_append, List.nil_append, decodeSized, Layer.isConvT,
      Layer.apply, h1, hc, ne_eq, not_true_eq_false]
    rfl
  · simp only [if_true, List.cons_append, List.nil_append, decodeSized, Layer.isConvT, Layer.apply, hc, ne_eq,
      not_true_eq_false, if_false, Bool.false_eq_true]
    rfl

theorem applySized_ok (cin cout kernel stride padding : ℕ) (b : Bool) (s x : Shape) (hc : s.c = cin)
    (hk : 1 ≤ kernel) (hs : 1 ≤ stride) (h : Fits kernel stride padding s x) :
    applySized (.convT cin cout kernel stride padding b) s x = .ok ⟨s.n, cout, x.h, x.w⟩ := by
  obtain ⟨h1, h2, h3, h4⟩ := h
  rw [applySized, if_neg (by omega), h3, h4]
  rfl

theorem decode_chain (k : Coder) (t : Bool) (hk : 1 ≤ k.kernel) (hs : 1 ≤ k.stride) (m cin : ℕ) (s x : Shape)
    (ws : List Shape) (hm : ws.length = m) (hc : s.c = cin) (hn : NormRuns k t s.n)
    (h : List.IsChain (Fits k.kernel k.stride (k.kernel / 2)) (s :: x :: ws)) :
    decodeSized t (k.decoderFrom m cin) s (x :: ws).reverse =
      .ok ⟨s.n, k.outChannels, ((x :: ws).getLast (by simp)).h, ((x :: ws).getLast (by simp)).w⟩ := by
  induction m generalizing cin s x ws with
  | zero =>
    obtain rfl := List.length_eq_zero_iff.1 hm
    rw [Coder.decoderFrom, decodeSized]
    simp only [Layer.isConvT, if_true, List.reverse_cons, List.reverse_nil, List.nil_append, List.getLast?_singleton]
    rw [applySized_ok _ _ _ _ _ _ _ _ hc hk hs (by simpa using h)]
    rfl
  | succ m ih =>
    obtain ⟨y, ws, rfl⟩ : ∃ y l, ws = y :: l := by
      cases ws with
      | nil => simp at hm
      | cons y l => exact ⟨y, l, rfl⟩
    rw [List.isChain_cons_cons] at h
    rw [Coder.decoderFrom, List.cons_append, decodeSized]
    simp only [Layer.isConvT, if_true, List.reverse_cons (a := x), List.getLast?_concat, List.dropLast_concat]
    rw [applySized_ok _ _ _ _ _ _ _ _ hc hk hs h.1]
    dsimp only [bind, Except.bind]
    rw [norm_sized k t ⟨s.n, k.filterChannels, x.h, x.w⟩ _ _ rfl hn]
    have h2 : List.IsChain (Fits k.kernel k.stride (k.kernel / 2)) (⟨s.n, k.filterChannels, x.h, x.w⟩ :: y :: ws) := by
      have := h.2
      rw [List.isChain_cons_cons] at this ⊢
      exact this
    rw [ih k.filterChannels ⟨s.n, k.filterChannels, x.h, x.w⟩ y ws (by simpa using hm) rfl hn h2]
    rw [List.getLast_cons (by simp : (y :: ws) ≠ [])]

theorem decoder_count (k : Coder) (m cin : ℕ) : ((k.decoderFrom m cin).filter Layer.isConvT).length = m + 1 := by
  induction m generalizing cin with
  | zero => rfl
  | succ m ih =>
    have e : (k.norm.filter Layer.isConvT) = [] := by
      unfold Coder.norm
      split_ifs <;> rfl
    rw [Coder.decoderFrom, List.cons_append, List.filter_cons_of_pos (by rfl), List.filter_append, e,
      List.nil_append, List.length_cons, ih]

/-- **C109.** A decoder with the kernel, stride and number of layers of an encoder — any kernel, stride, channels and
normalisations — takes what the encoder gives for an image, latent and sizes, and returns the batch and the size of
that image, with its own number of channels. -/
theorem C109_decoder (k d : Coder) (training : Bool) (hk : 1 ≤ k.kernel) (hs : 1 ≤ k.stride)
    (h1 : d.kernel = k.kernel) (h2 : d.stride = k.stride) (h3 : d.layers = k.layers)
    (h4 : d.inChannels = k.outChannels) (s lat : Shape) (sizes : List Shape) (hn : NormRuns d training s.n)
    (h : k.encode training s = .ok (lat, sizes)) :
    d.decode training lat (some sizes) = .ok ⟨s.n, d.outChannels, s.h, s.w⟩ := by
  obtain ⟨news, e1, e2, e3, e4, e5⟩ := encode_chain k training _ _ _ _ _ _ h
  rw [List.nil_append] at e1
  subst e1
  rw [Coder.decode, Coder.decoder, decoder_count, if_neg (by simp [h3, e2])]
  have e6 : List.IsChain (Fits d.kernel d.stride (d.kernel / 2)) (lat :: (s :: news).reverse) := by
    have := List.isChain_reverse.2 e5
    rw [h1, h2]
    simpa using this
  obtain ⟨x, ws, hx⟩ : ∃ x ws, (s :: news).reverse = x :: ws := by
    cases hr : (s :: news).reverse with
    | nil => simp at hr
    | cons x ws => exact ⟨x, ws, rfl⟩
  rw [hx] at e6
  have hlen : ws.length = d.layers - 1 := by
    have := congrArg List.length hx
    simp only [List.length_reverse, List.length_cons] at this
    omega
  have := decode_chain d training (h1 ▸ hk) (h2 ▸ hs) (d.layers - 1) d.inChannels lat x ws hlen (by rw [e4, h4])
    (by rw [e3]; exact hn) e6
  have hrev : (x :: ws).reverse = s :: news := by rw [← hx, List.reverse_reverse]
  rw [hrev] at this
  rw [this]
  have hlast : ∀ hne, (x :: ws).getLast hne = s := by
    intro hne
    have : (x :: ws).getLast? = some s := by rw [← hx]; simp
    rw [List.getLast?_eq_some_getLast hne] at this
    exact Option.some.inj this
  rw [hlast, e3]

/-- **C109.** Sizes that are not as many as the layers of the decoder are refused. -/
theorem C109_sizes (d : Coder) (training : Bool) (hl : 1 ≤ d.layers) (lat : Shape) (sizes : List Shape)
    (h : sizes.length ≠ d.layers) : d.decode training lat (some sizes) = .error .value := by
  rw [Coder.decode, Coder.decoder, decoder_count, if_pos (by omega)]

theorem norm_sequential (k : Coder) (t : Bool) (s : Shape) (rest : List Layer) (hc : s.c = k.filterChannels)
    (hn : NormRuns k t s.n) : sequential t (k.norm ++ rest) s = sequential t rest s := by
  unfold Coder.norm
  rcases hg : k.useGdn with _ | _
  · have h1 : ¬ (t = true ∧ s.n * (s.h * s.w) = 1) := by
      rcases hn with h | h | h
      · rw [hg] at h; cases h
      · rw [h]; simp
      · rintro ⟨_, h2⟩
        have := Nat.eq_one_of_mul_eq_one_right h2
        omega
    simp only [Bool.false_eq_true, if_false, List.cons_append, List.nil_append, sequential, Layer.apply, h1, hc,
      ne_eq, not_true_eq_false]
    rfl
  · simp only [if_true, List.cons_append, List.nil_append, sequential, Layer.apply, hc, ne_eq, not_true_eq_false,
      if_false]
    rfl

theorem convT_apply (t : Bool) (cin cout kernel stride : ℕ) (b : Bool) (s : Shape) (hk : kernel % 2 = 1)
    (hs : 1 ≤ stride) (hc : s.c = cin) (hh : 1 ≤ s.h) (hw : 1 ≤ s.w) :
    (Layer.convT cin cout kernel stride (kernel / 2) b).apply t s =
      .ok ⟨s.n, cout, (s.h - 1) * stride + 1, (s.w - 1) * stride + 1⟩ := by
  have key : ∀ m, 1 ≤ m → convTOut kernel stride (kernel / 2) m none = .ok ((m - 1) * stride + 1) := by
    intro m hm
    have e : ((m : ℤ) - 1) * (stride : ℤ) = (((m - 1) * stride : ℕ) : ℤ) := by push_cast [Nat.cast_sub hm]; ring
    simp only [convTOut, e]
    rw [if_neg (by omega)]
    congr 1
    omega
  rw [Layer.apply, if_neg (by omega), key _ hh, key _ hw]
  rfl

/-- **C109.** Without sizes, a decoder with an odd kernel returns the smallest image whose latent has the size of the
given one: the strides multiply the distances between its pixels. -/
theorem C109_nosizes_partial (d : Coder) (training : Bool) (hk : d.kernel % 2 = 1) (hs : 1 ≤ d.stride)
    (hl : 1 ≤ d.layers) (s : Shape) (hc : s.c = d.inChannels) (hh : 1 ≤ s.h) (hw : 1 ≤ s.w)
    (hn : NormRuns d training s.n) :
    d.decode training s none =
      .ok ⟨s.n, d.outChannels, (s.h - 1) * d.stride ^ d.layers + 1, (s.w - 1) * d.stride ^ d.layers + 1⟩ := by
  have gen : ∀ (m cin : ℕ) (s : Shape), s.c = cin → 1 ≤ s.h → 1 ≤ s.w → NormRuns d training s.n →
      sequential training (d.decoderFrom m cin) s =
        .ok ⟨s.n, d.outChannels, (s.h - 1) * d.stride ^ (m + 1) + 1, (s.w - 1) * d.stride ^ (m + 1) + 1⟩ := by
    intro m
    induction m with
    | zero =>
      intro cin s hc hh hw hn
      rw [Coder.decoderFrom, sequential_cons, convT_apply _ _ _ _ _ _ _ hk hs hc hh hw, zero_add, pow_one]
      rfl
    | succ m ih =>
      intro cin s hc hh hw hn
      rw [Coder.decoderFrom, List.cons_append, sequential_cons, convT_apply _ _ _ _ _ _ _ hk hs hc hh hw]
      dsimp only [bind, Except.bind]
      rw [norm_sequential d training ⟨s.n, d.filterChannels, (s.h - 1) * d.stride + 1, (s.w - 1) * d.stride + 1⟩ _ rfl
          hn,
        ih d.filterChannels ⟨s.n, d.filterChannels, (s.h - 1) * d.stride + 1, (s.w - 1) * d.stride + 1⟩ rfl
          (by simp) (by simp) hn]
      dsimp only
      rw [Nat.add_sub_cancel, Nat.add_sub_cancel, mul_assoc, mul_assoc, ← pow_succ']
  rw [Coder.decode, Coder.decoder, gen _ _ s hc hh hw hn, Nat.sub_add_cancel hl]

/-- **C109.** With those sizes the encoder and the decoder agree: an image whose latent has a given size has at least
that many rows. -/
example (d : Coder) (h : ℕ) (hs : 1 ≤ d.stride) (hh : 1 ≤ h) :
    ((h - 1) * d.stride ^ d.layers + 1) ⌈/⌉ d.stride ^ d.layers = h := by
  have hp : 1 ≤ d.stride ^ d.layers := Nat.one_le_pow _ _ hs
  rw [Nat.ceilDiv_eq_add_pred_div]
  have : (h - 1) * d.stride ^ d.layers + 1 + d.stride ^ d.layers - 1 = h * d.stride ^ d.layers := by
    obtain ⟨k, rfl⟩ : ∃ k, h = k + 1 := ⟨h - 1, by omega⟩
    rw [Nat.add_sub_cancel, Nat.add_one_mul]
    omega
  rw [this, Nat.mul_div_cancel _ hp]

/-! ### Flow estimation -/

theorem level_odd (kernel : ℕ) (hk : kernel % 2 = 1) (t : Bool) (cin f : ℕ) (fs : List ℕ) (s : Shape)
    (hc : s.c = cin) (hh : 1 ≤ s.h) (hw : 1 ≤ s.w) :
    sequential t (levelLayers kernel cin (f :: fs)) s =
      .ok { s with c := (f :: fs).getLast (by simp) } := by
  induction fs generalizing cin f s with
  | nil =>
    rw [levelLayers, sequential_cons, conv_apply _ _ _ _ _ _ _ hk le_rfl hc hh hw]
    simp only [ceilDiv_one]
    rfl
  | cons g fs ih =>
    rw [levelLayers, sequential_cons, conv_apply _ _ _ _ _ _ _ hk le_rfl hc hh hw]
    simp only [ceilDiv_one]
    dsimp only [bind, Except.bind]
    rw [sequential_cons]
    dsimp only [Layer.apply, bind, Except.bind]
    rw [ih f g ⟨s.n, f, s.h, s.w⟩ rfl hh hw, List.getLast_cons (by simp : (g :: fs) ≠ [])]

theorem level_channels (kernel : ℕ) (t : Bool) (cin : ℕ) (fs : List ℕ) (hfs : fs ≠ []) (s : Shape) (hc : s.c ≠ cin) :
    sequential t (levelLayers kernel cin fs) s = .error .runtime := by
  cases fs with
  | nil => exact absurd rfl hfs
  | cons f fs =>
    rw [levelLayers.eq_def]
    dsimp only
    rw [sequential_cons, conv_apply_channels _ _ _ _ _ _ _ _ hc]
    rfl

theorem broadcastDim_self (a : ℕ) : broadcastDim a a = .ok a := by simp [broadcastDim]

theorem broadcast_self (s : Shape) : broadcast s s = .ok s := by
  simp only [broadcast, broadcastDim_self]
  rfl

/-- The estimator's numbers of channels fit images of `c` channels: the network of a level takes the warped image,
the other image and the flow, and gives a flow (or one channel, which is added to both). -/
def FlowFits (e : Estimator) (c : ℕ) : Prop :=
  2 ≤ c ∧ e.inChannels = c + c + 2 ∧ (e.filterCounts.getLast? = some 2 ∨ e.filterCounts.getLast? = some 1)

theorem loop_step (e : Estimator) (hk : e.kernel % 2 = 1) (t : Bool) (c : ℕ) (hf : FlowFits e c) (image flow : Shape)
    (rest : List Shape) (pairs : List (Shape × Shape)) (hc : image.c = c) (hfc : flow.c = 2) (hn : flow.n = image.n)
    (hh : 1 ≤ image.h) (hw : 1 ≤ image.w) (fh : 1 ≤ flow.h) (fw : 1 ≤ flow.w) :
    e.loop t (image :: rest) flow pairs =
      e.loop t rest ⟨image.n, 2, image.h, image.w⟩ (pairs ++ [(image, image)]) := by
  obtain ⟨h2, h3, h4⟩ := hf
  obtain ⟨n, c', h, w⟩ := image
  obtain ⟨fn, fc, fh', fw'⟩ := flow
  dsimp only at hc hfc hn hh hw fh fw
  subst hc hfc hn
  obtain ⟨f, fs, hfs⟩ : ∃ f fs, e.filterCounts = f :: fs := by
    cases hl : e.filterCounts with
    | nil => rw [hl] at h4; simp at h4
    | cons f fs => exact ⟨f, fs, rfl⟩
  rw [Estimator.loop]
  have e1 : resize ⟨fn, 2, fh', fw'⟩ h w = .ok ⟨fn, 2, h, w⟩ := by
    rw [resize, if_neg (by simp only; omega)]
  have e2 : warp ⟨fn, c', h, w⟩ ⟨fn, 2, h, w⟩ = .ok ⟨fn, c', h, w⟩ := by
    rw [warp, if_neg (by simp), if_neg (by simp only; omega)]
  have e3 : concat3 ⟨fn, c', h, w⟩ ⟨fn, c', h, w⟩ ⟨fn, 2, h, w⟩ = .ok ⟨fn, c' + c' + 2, h, w⟩ := by
    rw [concat3, if_neg (by simp)]
  have e4 : sequential t e.level ⟨fn, c' + c' + 2, h, w⟩ =
      .ok ⟨fn, (f :: fs).getLast (by simp), h, w⟩ := by
    rw [Estimator.level, hfs, level_odd _ hk t _ _ _ _ h3.symm hh hw]
  have e5 : broadcast ⟨fn, 2, h, w⟩ ⟨fn, (f :: fs).getLast (by simp), h, w⟩ = .ok ⟨fn, 2, h, w⟩ := by
    rw [hfs, List.getLast?_eq_some_getLast (by simp)] at h4
    rcases h4 with h4 | h4 <;> (injection h4 with h4; rw [h4])
    · exact broadcast_self _
    · simp only [broadcast, broadcastDim_self]
      rfl
  simp only [e1, e2, e3, e4, e5, bind, Except.bind]

theorem loop_all (e : Estimator) (hk : e.kernel % 2 = 1) (t : Bool) (c : ℕ) (hf : FlowFits e c) (images : List Shape)
    (flow : Shape) (pairs : List (Shape × Shape))
    (himg : ∀ i ∈ images, i.c = c ∧ i.n = flow.n ∧ 1 ≤ i.h ∧ 1 ≤ i.w) (hfc : flow.c = 2) (fh : 1 ≤ flow.h)
    (fw : 1 ≤ flow.w) :
    ∃ x, e.loop t images flow pairs = .ok (x, pairs ++ images.map fun i => (i, i)) ∧
      ∀ last, images.getLast? = some last → x = ⟨last.n, 2, last.h, last.w⟩ := by
  induction images generalizing flow pairs with
  | nil => exact ⟨flow, by simp [Estimator.loop], by simp⟩
  | cons i rest ih =>
    obtain ⟨h1, h2, h3, h4⟩ := himg i (by simp)
    rw [loop_step e hk t c hf i flow rest pairs h1 hfc h2.symm h3 h4 fh fw]
    obtain ⟨x, hx, hl⟩ := ih ⟨i.n, 2, i.h, i.w⟩ (pairs ++ [(i, i)])
      (fun j hj => by
        obtain ⟨a, b, c, d⟩ := himg j (by simp [hj])
        exact ⟨a, b.trans h2.symm, c, d⟩) rfl h3 h4
    refine ⟨x, by rw [hx]; simp, ?_⟩
    intro last hlast
    cases rest with
    | nil =>
      simp only [List.getLast?_singleton, Option.some.injEq] at hlast
      subst hlast
      rw [Estimator.loop] at hx
      injection hx with hx
      injection hx with hx _
      exact hx.symm
    | cons j rest => exact hl last (by simpa using hlast)

/-- The images of the pyramid, from fine to coarse. -/
def levelsOf (s : Shape) (k : ℕ) : List Shape :=
  (List.range k).map fun i => { s with h := s.h / 2 ^ i, w := s.w / 2 ^ i }

theorem avgPool_ok (s : Shape) (hh : 2 ≤ s.h) (hw : 2 ≤ s.w) :
    avgPool s = .ok { s with h := s.h / 2, w := s.w / 2 } := by
  rw [avgPool, if_neg (by omega)]

theorem avgPool_err (s : Shape) (h : s.h < 2 ∨ s.w < 2) : avgPool s = .error .runtime := by
  rw [avgPool, if_pos (by omega)]

theorem pyramid_ok (k : ℕ) (s : Shape) (hh : 2 ^ k ≤ s.h) (hw : 2 ^ k ≤ s.w) :
    pyramid k s = .ok (levelsOf s (k + 1)) := by
  induction k generalizing s with
  | zero => simp [pyramid, levelsOf]
  | succ k ih =>
    have hp : 1 ≤ 2 ^ k := Nat.one_le_two_pow
    rw [pow_succ] at hh hw
    rw [pyramid, avgPool_ok s (by omega) (by omega)]
    dsimp only [bind, Except.bind]
    rw [ih _ (by dsimp only; omega) (by dsimp only; omega)]
    simp only [pure, Except.pure]
    congr 1
    rw [levelsOf, levelsOf, List.range_succ_eq_map (n := k + 1), List.map_cons, List.map_map]
    congr 1
    · simp
    · apply List.map_congr_left
      intro i _
      simp only [Function.comp, Nat.div_div_eq_div_mul]
      rw [← pow_succ']

theorem pyramid_err (k : ℕ) (s : Shape) (h : s.h < 2 ^ k ∨ s.w < 2 ^ k) (hh : 1 ≤ s.h) (hw : 1 ≤ s.w) :
    pyramid k s = .error .runtime := by
  induction k generalizing s with
  | zero => simp at h; omega
  | succ k ih =>
    rw [pow_succ] at h
    rw [pyramid]
    by_cases h2 : s.h < 2 ∨ s.w < 2
    · rw [avgPool_err s h2]; rfl
    · rw [avgPool_ok s (by omega) (by omega)]
      dsimp only [bind, Except.bind]
      rw [ih _ (by dsimp only; omega) (by dsimp only; omega) (by dsimp only; omega)]

theorem levelsOf_last (s : Shape) (k : ℕ) :
    (levelsOf s (k + 1)).getLast? = some { s with h := s.h / 2 ^ k, w := s.w / 2 ^ k } := by
  rw [levelsOf, List.range_succ, List.map_append]
  simp

theorem level_first (e : Estimator) (hk : e.kernel % 2 = 1) (t : Bool) (image : Shape) (rest : List Shape)
    (pairs : List (Shape × Shape)) (hh : 1 ≤ image.h) (hw : 1 ≤ image.w)
    (h : ¬ FlowFits e image.c) :
    ∃ x, e.loop t (image :: rest) { image with c := min image.c 2 } pairs = .error x := by
  obtain ⟨n, c, h', w⟩ := image
  dsimp only at hh hw h
  rw [Estimator.loop]
  have e1 : resize ⟨n, min c 2, h', w⟩ h' w = .ok ⟨n, min c 2, h', w⟩ := by
    rw [resize, if_neg (by simp only; omega)]
  simp only [e1, bind, Except.bind]
  by_cases hc : 2 ≤ c
  · have hm : min c 2 = 2 := by omega
    have e2 : warp ⟨n, c, h', w⟩ ⟨n, 2, h', w⟩ = .ok ⟨n, c, h', w⟩ := by
      rw [warp, if_neg (by simp), if_neg (by simp only; omega)]
    have e3 : concat3 ⟨n, c, h', w⟩ ⟨n, c, h', w⟩ ⟨n, 2, h', w⟩ = .ok ⟨n, c + c + 2, h', w⟩ := by
      rw [concat3, if_neg (by simp)]
    simp only [hm, e2, e3]
    rcases hfs : e.filterCounts with _ | ⟨f, fs⟩
    · have e4 : sequential t e.level ⟨n, c + c + 2, h', w⟩ = .ok ⟨n, c + c + 2, h', w⟩ := by
        rw [Estimator.level, hfs]; rfl
      have e5 : broadcast ⟨n, 2, h', w⟩ ⟨n, c + c + 2, h', w⟩ = .error .runtime := by
        simp only [broadcast, broadcastDim_self]
        rw [broadcastDim, if_neg (by omega), if_neg (by omega), if_neg (by omega)]
        rfl
      simp only [e4, e5]
      exact ⟨_, rfl⟩
    · by_cases hin : c + c + 2 = e.inChannels
      · have e4 : sequential t e.level ⟨n, c + c + 2, h', w⟩ =
            .ok ⟨n, (f :: fs).getLast (by simp), h', w⟩ := by
          rw [Estimator.level, hfs, level_odd _ hk t _ _ _ _ hin hh hw]
        simp only [e4]
        have hlast : (f :: fs).getLast (by simp) ≠ 2 ∧ (f :: fs).getLast (by simp) ≠ 1 := by
          constructor <;>
          · intro hl
            apply h
            refine ⟨hc, hin.symm, ?_⟩
            rw [hfs, List.getLast?_eq_some_getLast (by simp), hl]
            simp
        have e5 : broadcast ⟨n, 2, h', w⟩ ⟨n, (f :: fs).getLast (by simp), h', w⟩ = .error .runtime := by
          simp only [broadcast, broadcastDim_self]
          rw [broadcastDim, if_neg (by omega), if_neg (by omega), if_neg (by omega)]
          rfl
        simp only [e5]
        exact ⟨_, rfl⟩
      · have e4 : sequential t e.level ⟨n, c + c + 2, h', w⟩ = .error .runtime := by
          rw [Estimator.level, hfs, level_channels _ _ _ _ (by simp) _ hin]
        simp only [e4]
        exact ⟨_, rfl⟩
  · have e2 : warp ⟨n, c, h', w⟩ ⟨n, min c 2, h', w⟩ = .error .value := by
      rw [warp, if_pos (by simp only; omega)]
    simp only [e2]
    exact ⟨_, rfl⟩

/-- **C109.** A flow estimator with an odd kernel, any numbers of channels, filters and at least one level, on a pair
of images that are not empty: it returns a flow, and then the flow has two channels and the size of the images, and
there is a pair of images per level from coarse to fine, each half the size of the next — exactly if the images have
the same shape, at least two channels, `2 ^ (levels - 1)` rows and columns, and the channels of the networks fit. -/
theorem C109_flow_partial (e : Estimator) (training : Bool) (hk : e.kernel % 2 = 1) (hl : 1 ≤ e.levels)
    (s s' : Shape) (hh : 1 ≤ s.h) (hw : 1 ≤ s.w) :
    (s = s' ∧ 2 ^ (e.levels - 1) ≤ s.h ∧ 2 ^ (e.levels - 1) ≤ s.w ∧ FlowFits e s.c →
      e.flow training s s' = .ok (⟨s.n, 2, s.h, s.w⟩,
        (List.range e.levels).map fun i =>
          (⟨s.n, s.c, s.h / 2 ^ (e.levels - 1 - i), s.w / 2 ^ (e.levels - 1 - i)⟩,
            ⟨s.n, s.c, s.h / 2 ^ (e.levels - 1 - i), s.w / 2 ^ (e.levels - 1 - i)⟩))) ∧
    (¬ (s = s' ∧ 2 ^ (e.levels - 1) ≤ s.h ∧ 2 ^ (e.levels - 1) ≤ s.w ∧ FlowFits e s.c) →
      ∃ x, e.flow training s s' = .error x) := by
  obtain ⟨k, hk'⟩ : ∃ k, e.levels = k + 1 := ⟨e.levels - 1, by omega⟩
  have hsub : e.levels - 1 = k := by omega
  constructor
  · rintro ⟨rfl, h1, h2, h3⟩
    rw [hsub] at h1 h2
    have hp : 1 ≤ 2 ^ k := Nat.one_le_two_pow
    have hq1 : 1 ≤ s.h / 2 ^ k := Nat.div_pos h1 hp
    have hq2 : 1 ≤ s.w / 2 ^ k := Nat.div_pos h2 hp
    rw [Estimator.flow, if_neg (by simp), hsub, pyramid_ok k s h1 h2]
    dsimp only [bind, Except.bind]
    rw [levelsOf_last, Option.getD_some, hk', List.take_of_length_le (by simp [levelsOf])]
    obtain ⟨x, hx, hlast⟩ := loop_all e hk training s.c h3 (levelsOf s (k + 1)).reverse
      { s with c := min s.c 2, h := s.h / 2 ^ k, w := s.w / 2 ^ k } []
      (by
        intro i hi
        simp only [levelsOf, List.mem_reverse, List.mem_map, List.mem_range] at hi
        obtain ⟨j, hj, rfl⟩ := hi
        have hpj : 2 ^ j ≤ 2 ^ k := Nat.pow_le_pow_right (by omega) (by omega)
        exact ⟨rfl, rfl, Nat.div_pos (by omega) (Nat.two_pow_pos _), Nat.div_pos (by omega) (Nat.two_pow_pos _)⟩)
      (by have := h3.1; dsimp only; omega) hq1 hq2
    rw [hx]
    have : x = ⟨s.n, 2, s.h, s.w⟩ := by
      have := hlast s (by
        rw [List.getLast?_reverse, levelsOf, List.range_succ_eq_map]
        simp)
      exact this
    rw [this]
    congr 2
    rw [List.nil_append]
    apply List.ext_getElem
    · simp [levelsOf]
    · intro i h1 h2
      simp [levelsOf]
  · intro h
    rw [Estimator.flow]
    by_cases hs : s = s'
    · subst hs
      rw [if_neg (by simp), hsub]
      by_cases h1 : s.h < 2 ^ k ∨ s.w < 2 ^ k
      · rw [pyramid_err k s h1 hh hw]
        exact ⟨_, rfl⟩
      · rw [pyramid_ok k s (by omega) (by omega)]
        have hp : 1 ≤ 2 ^ k := Nat.one_le_two_pow
        have hq1 : 1 ≤ s.h / 2 ^ k := Nat.div_pos (by omega) hp
        have hq2 : 1 ≤ s.w / 2 ^ k := Nat.div_pos (by omega) hp
        dsimp only [bind, Except.bind]
        rw [levelsOf_last, Option.getD_some, hk', List.take_of_length_le (by simp [levelsOf])]
        have e1 : (levelsOf s (k + 1)).reverse =
            { s with h := s.h / 2 ^ k, w := s.w / 2 ^ k } :: (levelsOf s k).reverse := by
          rw [levelsOf, levelsOf, List.range_succ, List.map_append, List.reverse_append]
          rfl
        rw [e1]
        refine level_first e hk training ⟨s.n, s.c, s.h / 2 ^ k, s.w / 2 ^ k⟩ _ _ hq1 hq2 ?_
        intro hf
        exact h ⟨rfl, by rw [hsub]; omega, by rw [hsub]; omega, hf⟩
    · rw [if_pos (by simpa using hs)]
      exact ⟨_, rfl⟩

/-! ### Even kernels -/

theorem conv_even (t : Bool) (cin cout kernel : ℕ) (b : Bool) (s : Shape) (hk : kernel % 2 = 0) (hk0 : 1 ≤ kernel)
    (hc : s.c = cin) (hh : 1 ≤ s.h) (hw : 1 ≤ s.w) :
    (Layer.conv cin cout kernel 1 (kernel / 2) b).apply t s = .ok ⟨s.n, cout, s.h + 1, s.w + 1⟩ := by
  have e : ∀ m, m + 2 * (kernel / 2) - kernel = m := by omega
  rw [Layer.apply, if_neg (by omega), convOut, convOut, e, e, Nat.div_one, Nat.div_one]

theorem level_even (kernel : ℕ) (hk : kernel % 2 = 0) (hk0 : 1 ≤ kernel) (t : Bool) (cin f : ℕ) (fs : List ℕ)
    (s : Shape) (hc : s.c = cin) (hh : 1 ≤ s.h) (hw : 1 ≤ s.w) :
    sequential t (levelLayers kernel cin (f :: fs)) s =
      .ok ⟨s.n, (f :: fs).getLast (by simp), s.h + (fs.length + 1), s.w + (fs.length + 1)⟩ := by
  induction fs generalizing cin f s with
  | nil =>
    rw [levelLayers, sequential_cons, conv_even _ _ _ _ _ _ hk hk0 hc hh hw]
    rfl
  | cons g fs ih =>
    rw [levelLayers, sequential_cons, conv_even _ _ _ _ _ _ hk hk0 hc hh hw]
    dsimp only [bind, Except.bind]
    rw [sequential_cons]
    dsimp only [Layer.apply, bind, Except.bind]
    rw [ih f g ⟨s.n, f, s.h + 1, s.w + 1⟩ rfl (by simp) (by simp), List.getLast_cons (by simp : (g :: fs) ≠ [])]
    simp only [List.length_cons]
    congr 2 <;> omega

/-- **C109 (negation).** A flow estimator with an even kernel — the kernel size is a setting, without restriction —
fails on every pair of images whose coarsest level has more than one row or column, whatever its other settings. -/
theorem C109_violated_flow (e : Estimator) (training : Bool) (hk : e.kernel % 2 = 0) (hk0 : 1 ≤ e.kernel)
    (hl : 1 ≤ e.levels) (hf : e.filterCounts ≠ []) (s : Shape) (hh : 1 ≤ s.h) (hw : 1 ≤ s.w)
    (hbig : 2 ^ e.levels ≤ s.h ∨ 2 ^ e.levels ≤ s.w) : ∃ x, e.flow training s s = .error x := by
  obtain ⟨k, hk'⟩ : ∃ k, e.levels = k + 1 := ⟨e.levels - 1, by omega⟩
  have hsub : e.levels - 1 = k := by omega
  rw [hk', pow_succ] at hbig
  rw [Estimator.flow, if_neg (by simp), hsub]
  by_cases h1 : s.h < 2 ^ k ∨ s.w < 2 ^ k
  · rw [pyramid_err k s h1 hh hw]
    exact ⟨_, rfl⟩
  rw [pyramid_ok k s (by omega) (by omega)]
  have hp : 1 ≤ 2 ^ k := Nat.one_le_two_pow
  have hq1 : 1 ≤ s.h / 2 ^ k := Nat.div_pos (by omega) hp
  have hq2 : 1 ≤ s.w / 2 ^ k := Nat.div_pos (by omega) hp
  have hq3 : 2 ≤ s.h / 2 ^ k ∨ 2 ≤ s.w / 2 ^ k :=
    hbig.imp (fun h => (Nat.le_div_iff_mul_le hp).2 (by omega)) fun h => (Nat.le_div_iff_mul_le hp).2 (by omega)
  dsimp only [bind, Except.bind]
  have e1 : (levelsOf s (k + 1)).reverse =
      { s with h := s.h / 2 ^ k, w := s.w / 2 ^ k } :: (levelsOf s k).reverse := by
    rw [levelsOf, levelsOf, List.range_succ, List.map_append, List.reverse_append]
    rfl
  rw [levelsOf_last, Option.getD_some, hk', List.take_of_length_le (by simp [levelsOf]), e1]
  dsimp only
  generalize s.h / 2 ^ k = h at hq1 hq3
  generalize s.w / 2 ^ k = w at hq2 hq3
  rw [Estimator.loop]
  have e1 : resize ⟨s.n, min s.c 2, h, w⟩ h w = .ok ⟨s.n, min s.c 2, h, w⟩ := by
    rw [resize, if_neg (by simp only; omega)]
  simp only [e1, bind, Except.bind]
  by_cases hc : 2 ≤ s.c
  · have hm : min s.c 2 = 2 := by omega
    have e2 : warp ⟨s.n, s.c, h, w⟩ ⟨s.n, 2, h, w⟩ = .ok ⟨s.n, s.c, h, w⟩ := by
      rw [warp, if_neg (by simp), if_neg (by simp only; omega)]
    have e3 : concat3 ⟨s.n, s.c, h, w⟩ ⟨s.n, s.c, h, w⟩ ⟨s.n, 2, h, w⟩ = .ok ⟨s.n, s.c + s.c + 2, h, w⟩ := by
      rw [concat3, if_neg (by simp)]
    simp only [hm, e2, e3]
    by_cases hin : s.c + s.c + 2 = e.inChannels
    · obtain ⟨f, fs, hfs⟩ : ∃ f fs, e.filterCounts = f :: fs := by
        cases hl : e.filterCounts with
        | nil => exact absurd hl hf
        | cons f fs => exact ⟨f, fs, rfl⟩
      have e4 : sequential training e.level ⟨s.n, s.c + s.c + 2, h, w⟩ =
          .ok ⟨s.n, (f :: fs).getLast (by simp), h + (fs.length + 1), w + (fs.length + 1)⟩ := by
        rw [Estimator.level, hfs, level_even _ hk hk0 training _ _ _ _ hin hq1 hq2]
      simp only [e4]
      have e5 : ∃ x, broadcast ⟨s.n, 2, h, w⟩
          ⟨s.n, (f :: fs).getLast (by simp), h + (fs.length + 1), w + (fs.length + 1)⟩ = .error x := by
        have hd : ∀ m, 2 ≤ m → broadcastDim m (m + (fs.length + 1)) = .error .runtime := by
          intro m hm
          rw [broadcastDim, if_neg (by omega), if_neg (by omega), if_neg (by omega)]
        simp only [broadcast, broadcastDim_self, bind, Except.bind]
        rcases broadcastDim 2 ((f :: fs).getLast (by simp)) with x | x
        · exact ⟨_, rfl⟩
        · rcases hq3 with hq | hq
          · rw [hd _ hq]; exact ⟨_, rfl⟩
          · rcases broadcastDim h (h + (fs.length + 1)) with y | y
            · exact ⟨_, rfl⟩
            · simp only [hd _ hq]; exact ⟨_, rfl⟩
      obtain ⟨x, e5⟩ := e5
      simp only [e5]
      exact ⟨_, rfl⟩
    · have e4 : sequential training e.level ⟨s.n, s.c + s.c + 2, h, w⟩ = .error .runtime := by
        rw [Estimator.level, level_channels _ _ _ _ hf _ hin]
      simp only [e4]
      exact ⟨_, rfl⟩
  · have e2 : warp ⟨s.n, s.c, h, w⟩ ⟨s.n, min s.c 2, h, w⟩ = .error .value := by
      rw [warp, if_pos (by simp only; omega)]
    simp only [e2]
    exact ⟨_, rfl⟩

/-! ### Motion compensation -/

theorem residualBlock_ok (c : ℕ) (t : Bool) (s : Shape) (hc : s.c = c) (hh : 1 ≤ s.h) (hw : 1 ≤ s.w) :
    residualBlock c c t s = .ok s := by
  obtain ⟨n, c', h, w⟩ := s
  dsimp only at hc hh hw
  subst hc
  have e1 : (Layer.conv c' c' 3 1 1 true).apply t ⟨n, c', h, w⟩ = .ok ⟨n, c', h, w⟩ := by
    have := conv_apply t c' c' 3 1 true ⟨n, c', h, w⟩ rfl le_rfl rfl hh hw
    simp only [ceilDiv_one] at this
    exact this
  have e2 : Layer.relu.apply t ⟨n, c', h, w⟩ = .ok ⟨n, c', h, w⟩ := rfl
  simp only [residualBlock, sequential, e1, e2, bind, Except.bind, broadcast_self]

theorem unet_ok (c : ℕ) (t : Bool) (k : ℕ) (s : Shape) (hc : s.c = c) (hh : 2 ^ k ≤ s.h) (hw : 2 ^ k ≤ s.w) :
    unet c t (k + 1) s = .ok s := by
  induction k generalizing s with
  | zero =>
    have := residualBlock_ok c t s hc (by simpa using hh) (by simpa using hw)
    simp only [unet, this, bind, Except.bind]
  | succ k ih =>
    have hp : 1 ≤ 2 ^ k := Nat.one_le_two_pow
    rw [pow_succ] at hh hw
    have e1 := residualBlock_ok c t s hc (by omega) (by omega)
    have e2 := avgPool_ok s (by omega) (by omega)
    have e3 := ih { s with h := s.h / 2, w := s.w / 2 } hc (by dsimp only; omega) (by dsimp only; omega)
    have e4 : resize ⟨s.n, s.c, s.h / 2, s.w / 2⟩ s.h s.w = .ok s := by
      rw [resize, if_neg (by simp only; omega)]
    rw [unet]
    simp only [e1, e2, e3, e4, bind, Except.bind, broadcast_self]

theorem unet_err (c : ℕ) (t : Bool) (k : ℕ) (s : Shape) (hc : s.c = c) (hh : 1 ≤ s.h) (hw : 1 ≤ s.w)
    (h : s.h < 2 ^ k ∨ s.w < 2 ^ k) : unet c t (k + 1) s = .error .runtime := by
  induction k generalizing s with
  | zero => simp at h; omega
  | succ k ih =>
    rw [pow_succ] at h
    have e1 := residualBlock_ok c t s hc hh hw
    rw [unet]
    by_cases h2 : s.h < 2 ∨ s.w < 2
    · simp only [e1, avgPool_err s h2, bind, Except.bind]
    · have e2 := avgPool_ok s (by omega) (by omega)
      have e3 := ih { s with h := s.h / 2, w := s.w / 2 } hc (by dsimp only; omega) (by dsimp only; omega)
        (by dsimp only; omega)
      simp only [e1, e2, e3, bind, Except.bind]

/-- **C109.** A motion compensation can be built exactly with at least one level. With an odd kernel and any numbers
of channels and levels, on tensors of which the first is not empty: it returns an image of the requested channels and
the size of its inputs, exactly if these have the same batch and size, their channels add up to those it was built for,
and there are `2 ^ (levels - 1)` rows and columns. -/
theorem C109_compensation_partial (m : Compensator) (training : Bool) (hk : m.kernel % 2 = 1) (a b f : Shape)
    (hh : 1 ≤ a.h) (hw : 1 ≤ a.w) :
    (m.build = .ok () ↔ 1 ≤ m.levels) ∧
    (1 ≤ m.levels →
      ((a.n = b.n ∧ a.n = f.n ∧ a.h = b.h ∧ a.h = f.h ∧ a.w = b.w ∧ a.w = f.w ∧ a.c + b.c + f.c = m.inChannels ∧
          2 ^ (m.levels - 1) ≤ a.h ∧ 2 ^ (m.levels - 1) ≤ a.w) →
        m.forward training a b f = .ok ⟨a.n, m.outChannels, a.h, a.w⟩) ∧
      (¬ (a.n = b.n ∧ a.n = f.n ∧ a.h = b.h ∧ a.h = f.h ∧ a.w = b.w ∧ a.w = f.w ∧ a.c + b.c + f.c = m.inChannels ∧
          2 ^ (m.levels - 1) ≤ a.h ∧ 2 ^ (m.levels - 1) ≤ a.w) →
        m.forward training a b f = .error .runtime)) := by
  constructor
  · rw [Compensator.build]
    split_ifs with h
    · simp [h]
    · simp; omega
  intro hl
  obtain ⟨k, hk'⟩ : ∃ k, m.levels = k + 1 := ⟨m.levels - 1, by omega⟩
  have hsub : m.levels - 1 = k := by omega
  rw [hsub, Compensator.forward, hk']
  by_cases hs : b.n ≠ a.n ∨ b.h ≠ a.h ∨ b.w ≠ a.w ∨ f.n ≠ a.n ∨ f.h ≠ a.h ∨ f.w ≠ a.w
  · refine ⟨fun h => by omega, fun _ => ?_⟩
    rw [concat3, if_pos hs]
    rfl
  rw [concat3, if_neg hs]
  simp only [bind, Except.bind, Compensator.input, sequential]
  by_cases hc : a.c + b.c + f.c = m.inChannels
  · have e1 := conv_apply training m.inChannels m.modelChannels m.kernel 1 true ⟨a.n, a.c + b.c + f.c, a.h, a.w⟩ hk
      le_rfl hc hh hw
    simp only [ceilDiv_one] at e1
    simp only [e1]
    by_cases hb : a.h < 2 ^ k ∨ a.w < 2 ^ k
    · refine ⟨fun h => by omega, fun _ => ?_⟩
      rw [unet_err _ _ k ⟨a.n, m.modelChannels, a.h, a.w⟩ rfl hh hw hb]
    · refine ⟨fun _ => ?_, fun h => absurd (by omega) h⟩
      rw [unet_ok _ _ k ⟨a.n, m.modelChannels, a.h, a.w⟩ rfl (by dsimp only; omega) (by dsimp only; omega)]
      have e2 := conv_apply training m.modelChannels m.modelChannels m.kernel 1 true
        ⟨a.n, m.modelChannels, a.h, a.w⟩ hk le_rfl rfl hh hw
      have e3 := conv_apply training m.modelChannels m.outChannels m.kernel 1 true
        ⟨a.n, m.modelChannels, a.h, a.w⟩ hk le_rfl rfl hh hw
      simp only [ceilDiv_one] at e2 e3
      simp only [Compensator.output, sequential, e2, e3, Layer.apply.eq_5, bind, Except.bind]
  · refine ⟨fun h => by omega, fun _ => ?_⟩
    rw [conv_apply_channels _ _ _ _ _ _ _ _ hc]

/-- **C109 (negation).** With an even kernel a motion compensation returns an image with three rows and three columns
more than its inputs, whatever its other settings. -/
theorem C109_violated_compensation (m : Compensator) (training : Bool) (hk : m.kernel % 2 = 0) (hk0 : 1 ≤ m.kernel)
    (hl : 1 ≤ m.levels) (n c1 c2 c3 h w : ℕ) (hc : c1 + c2 + c3 = m.inChannels) (hh : 2 ^ (m.levels - 1) ≤ h)
    (hw : 2 ^ (m.levels - 1) ≤ w) :
    m.forward training ⟨n, c1, h, w⟩ ⟨n, c2, h, w⟩ ⟨n, c3, h, w⟩ = .ok ⟨n, m.outChannels, h + 3, w + 3⟩ := by
  obtain ⟨k, hk'⟩ : ∃ k, m.levels = k + 1 := ⟨m.levels - 1, by omega⟩
  have hsub : m.levels - 1 = k := by omega
  rw [hsub] at hh hw
  have hp : 1 ≤ 2 ^ k := Nat.one_le_two_pow
  rw [Compensator.forward, hk', concat3, if_neg (by simp)]
  simp only [bind, Except.bind, Compensator.input, sequential]
  rw [conv_even training m.inChannels m.modelChannels m.kernel true ⟨n, c1 + c2 + c3, h, w⟩ hk hk0 hc
    (by dsimp only; omega) (by dsimp only; omega)]
  dsimp only
  rw [unet_ok _ _ k ⟨n, m.modelChannels, h + 1, w + 1⟩ rfl (by dsimp only; omega) (by dsimp only; omega)]
  have e2 := conv_even training m.modelChannels m.modelChannels m.kernel true
    ⟨n, m.modelChannels, h + 1, w + 1⟩ hk hk0 rfl (by simp) (by simp)
  have e3 := conv_even training m.modelChannels m.outChannels m.kernel true
    ⟨n, m.modelChannels, h + 1 + 1, w + 1 + 1⟩ hk hk0 rfl (by simp) (by simp)
  simp only [Compensator.output, sequential, e2, e3, Layer.apply.eq_5, bind, Except.bind]

/-! ### The whole model -/

/-- An encoder and a decoder that a user gives to `DVC` for tensors of `c` channels: the decoder mirrors the
encoder, and the bottleneck has the channels of the latent (or a single one, shared by all channels). -/
structure Matched (enc : Coder) (bottleneck : ℕ) (dec : Coder) (c : ℕ) : Prop where
  input : enc.inChannels = c
  odd : enc.kernel % 2 = 1
  stride : 1 ≤ enc.stride
  layers : 1 ≤ enc.layers
  latent : bottleneck = enc.outChannels ∨ bottleneck = 1
  decoderInput : dec.inChannels = enc.outChannels
  decoderKernel : dec.kernel = enc.kernel
  decoderStride : dec.stride = enc.stride
  decoderLayers : dec.layers = enc.layers
  output : dec.outChannels = c

/-- The latent of an encoder. -/
def latentOf (enc : Coder) (n h w : ℕ) : Shape :=
  ⟨n, enc.outChannels, h ⌈/⌉ enc.stride ^ enc.layers, w ⌈/⌉ enc.stride ^ enc.layers⟩

theorem code_matched (enc dec : Coder) (b c : ℕ) (hm : Matched enc b dec c) (t : Bool) (n h w : ℕ)
    (hh : 1 ≤ h) (hw : 1 ≤ w) (h1 : NormRuns enc t n) (h2 : NormRuns dec t n) :
    ∃ sizes, enc.encode t ⟨n, c, h, w⟩ = .ok (latentOf enc n h w, sizes) ∧
      bottleneck b (latentOf enc n h w) = .ok (latentOf enc n h w, latentOf enc n h w) ∧
      dec.decode t (latentOf enc n h w) (some sizes) = .ok ⟨n, c, h, w⟩ := by
  have e1 := C109_encoder_partial enc t hm.odd hm.stride hm.layers ⟨n, c, h, w⟩ hm.input.symm hh hw h1
  refine ⟨_, e1, ?_, ?_⟩
  · rw [bottleneck, if_neg (by rcases hm.latent with h | h <;> rw [h] <;> simp [latentOf])]
  · have hk : 1 ≤ enc.kernel := by have := hm.odd; omega
    rw [← hm.output] at e1 ⊢
    exact C109_decoder enc dec t hk hm.stride hm.decoderKernel hm.decoderStride hm.decoderLayers hm.decoderInput
      ⟨n, dec.outChannels, h, w⟩ _ _ h2 e1

/-- **C109.** A model whose parts were built for images of `c` channels — any number from two, any odd kernels,
strides, numbers of layers, levels, filters and either normalisation — accepts every pair of images of that many
channels with enough rows and columns. Flow, estimate and residual have the size of the images, and there is one
probability per value of the latents. -/
theorem C109_parts_partial (m : Model) (training : Bool) (n c h w : ℕ)
    (he : m.estimator.kernel % 2 = 1) (hel : 1 ≤ m.estimator.levels) (hef : FlowFits m.estimator c)
    (hc : m.compensation.kernel % 2 = 1) (hcl : 1 ≤ m.compensation.levels)
    (hci : m.compensation.inChannels = c + c + 2) (hco : m.compensation.outChannels = c)
    (hmo : Matched m.motionEncoder m.motionBottleneck m.motionDecoder 2)
    (hre : Matched m.residualEncoder m.residualBottleneck m.residualDecoder c)
    (h1 : NormRuns m.motionEncoder training n) (h2 : NormRuns m.motionDecoder training n)
    (h3 : NormRuns m.residualEncoder training n) (h4 : NormRuns m.residualDecoder training n)
    (hh : 2 ^ (m.estimator.levels - 1) ≤ h ∧ 2 ^ (m.compensation.levels - 1) ≤ h)
    (hw : 2 ^ (m.estimator.levels - 1) ≤ w ∧ 2 ^ (m.compensation.levels - 1) ≤ w) :
    m.forward training ⟨n, c, h, w⟩ ⟨n, c, h, w⟩ =
      .ok { flow := ⟨n, 2, h, w⟩, image2 := ⟨n, c, h, w⟩, residual := ⟨n, c, h, w⟩
            flowProbabilities := latentOf m.motionEncoder n h w
            residualProbabilities := latentOf m.residualEncoder n h w } := by
  have hp : 1 ≤ 2 ^ (m.estimator.levels - 1) := Nat.one_le_two_pow
  have hh1 : 1 ≤ h := hp.trans hh.1
  have hw1 : 1 ≤ w := hp.trans hw.1
  have e1 := (C109_flow_partial m.estimator training he hel ⟨n, c, h, w⟩ ⟨n, c, h, w⟩ hh1 hw1).1
    ⟨rfl, hh.1, hw.1, hef⟩
  obtain ⟨s1, e2, e3, e4⟩ := code_matched _ _ _ _ hmo training n h w hh1 hw1 h1 h2
  have e5 : warp ⟨n, c, h, w⟩ ⟨n, 2, h, w⟩ = .ok ⟨n, c, h, w⟩ := by
    rw [warp, if_neg (by simp), if_neg (by simp only; omega)]
  have e6 := ((C109_compensation_partial m.compensation training hc ⟨n, c, h, w⟩ ⟨n, c, h, w⟩ ⟨n, 2, h, w⟩ hh1
    hw1).2 hcl).1 ⟨rfl, rfl, rfl, rfl, rfl, rfl, hci.symm, hh.2, hw.2⟩
  obtain ⟨s2, e7, e8, e9⟩ := code_matched _ _ _ _ hre training n h w hh1 hw1 h3 h4
  rw [hco] at e6
  simp only [Model.forward, e1, e2, e3, e4, e5, e6, e7, e8, e9, bind, Except.bind, broadcast_self]
  rfl

/-- **C109.** `DVC(coder_channels)` for any number of channels, training or not: it runs exactly on pairs of images of
the same shape with three channels and at least 16 rows and columns; flow, estimate and residual have the size of the
images, and the probabilities are those of latents with `coder_channels` channels and a sixteenth of the size. -/
theorem C109_default (coderChannels : ℕ) (training : Bool) (s s' : Shape) (hh : 1 ≤ s.h) (hw : 1 ≤ s.w) :
    (s = s' ∧ s.c = 3 ∧ 16 ≤ s.h ∧ 16 ≤ s.w →
      (Model.default coderChannels).forward training s s' =
        .ok { flow := ⟨s.n, 2, s.h, s.w⟩, image2 := s, residual := s
              flowProbabilities := ⟨s.n, coderChannels, s.h ⌈/⌉ 16, s.w ⌈/⌉ 16⟩
              residualProbabilities := ⟨s.n, coderChannels, s.h ⌈/⌉ 16, s.w ⌈/⌉ 16⟩ }) ∧
    (¬ (s = s' ∧ s.c = 3 ∧ 16 ≤ s.h ∧ 16 ≤ s.w) →
      ∃ x, (Model.default coderChannels).forward training s s' = .error x) := by
  constructor
  · rintro ⟨rfl, hc, h1, h2⟩
    obtain ⟨n, c, h, w⟩ := s
    dsimp only at hc h1 h2
    subst hc
    have := C109_parts_partial (Model.default coderChannels) training n 3 h w (by simp [Model.default])
      (by simp [Model.default]) ⟨by decide, rfl, Or.inl rfl⟩ (by simp [Model.default]) (by simp [Model.default]) rfl
      rfl
      (by constructor <;> simp [Model.default]) (by constructor <;> simp [Model.default]) (Or.inl rfl) (Or.inl rfl)
      (Or.inl rfl) (Or.inl rfl) (by simp [Model.default]; omega) (by simp [Model.default]; omega)
    exact this
  · intro h
    obtain ⟨x, hx⟩ := (C109_flow_partial (Model.default coderChannels).estimator training
      (by simp [Model.default]) (by simp [Model.default]) s s' hh hw).2 (by
        rintro ⟨h1, h2, h3, h4, h5, _⟩
        apply h
        refine ⟨h1, ?_, h2, h3⟩
        change 8 = s.c + s.c + 2 at h5
        omega)
    refine ⟨x, ?_⟩
    rw [Model.forward, hx]
    rfl

/-- **C109.** A model of the default size on frames of 1080 rows. -/
example : (Model.default 128).forward false ⟨2, 3, 1080, 1920⟩ ⟨2, 3, 1080, 1920⟩ =
      .ok ⟨⟨2, 2, 1080, 1920⟩, ⟨2, 3, 1080, 1920⟩, ⟨2, 3, 1080, 1920⟩, ⟨2, 128, 68, 120⟩, ⟨2, 128, 68, 120⟩⟩ :=
  (C109_default 128 false ⟨2, 3, 1080, 1920⟩ ⟨2, 3, 1080, 1920⟩ (by decide) (by decide)).1 (by decide)

/-- **C109.** Parts with batch normalisation, two and three levels, strides of three and images of four channels. -/
example :
    ({ estimator := { inChannels := 10, filterCounts := [8, 1], kernel := 3, levels := 2 }
       motionEncoder :=
        { inChannels := 2, outChannels := 5, filterChannels := 7, stride := 3, layers := 2, useGdn := false }
       motionBottleneck := 5
       motionDecoder := { inChannels := 5, outChannels := 2, filterChannels := 6, stride := 3, layers := 2 }
       compensation := { inChannels := 10, modelChannels := 4, outChannels := 4, kernel := 5, levels := 3 }
       residualEncoder := { inChannels := 4, outChannels := 9, kernel := 1, stride := 1, layers := 1 }
       residualBottleneck := 9
       residualDecoder := { inChannels := 9, outChannels := 4, kernel := 1, stride := 1, layers := 1 } } :
        Model).forward true ⟨2, 4, 4, 11⟩ ⟨2, 4, 4, 11⟩ =
      .ok ⟨⟨2, 2, 4, 11⟩, ⟨2, 4, 4, 11⟩, ⟨2, 4, 4, 11⟩, ⟨2, 5, 1, 2⟩, ⟨2, 9, 4, 11⟩⟩ := by
  refine (C109_parts_partial _ true 2 4 4 11 rfl (by simp) ⟨by simp, rfl, Or.inr rfl⟩ rfl (by simp) rfl rfl
    (by constructor <;> simp) (by constructor <;> simp) (Or.inr (Or.inr le_rfl)) (Or.inl rfl) (Or.inl rfl)
    (Or.inl rfl) (by simp) (by simp)).trans ?_
  decide +kernel

/-- **C109 (negation).** Frames of one channel: an estimator that is built for them as the documentation says, with the channels
of two images and a flow, fails on every pair of frames, because the first flow is cut from the channels of the
image. -/
theorem C109_violated_grey (e : Estimator) (training : Bool) (hk : e.kernel % 2 = 1) (hl : 1 ≤ e.levels)
    (n h w : ℕ) (hh : 1 ≤ h) (hw : 1 ≤ w) : ∃ x, e.flow training ⟨n, 1, h, w⟩ ⟨n, 1, h, w⟩ = .error x :=
  (C109_flow_partial e training hk hl ⟨n, 1, h, w⟩ ⟨n, 1, h, w⟩ hh hw).2 fun h => absurd h.2.2.2.1 (by simp)

/-- **C109 (negation).** A batch normalisation instead of GDN: an encoder with any channels, odd kernel, stride from
two and two or more layers fails in training on a single image of as many rows and columns as its stride. -/
theorem C109_violated_norm (k : Coder) (hk : k.kernel % 2 = 1) (hs : 2 ≤ k.stride) (hl : 2 ≤ k.layers)
    (hg : k.useGdn = false) :
    k.encode true ⟨1, k.inChannels, k.stride, k.stride⟩ = .error .value := by
  obtain ⟨m, hm⟩ : ∃ m, k.layers - 1 = m + 1 := ⟨k.layers - 2, by omega⟩
  rw [Coder.encode, Coder.encoder, hm, Coder.encoderFrom, List.cons_append, encodeLoop,
    conv_apply true k.inChannels k.filterChannels k.kernel k.stride k.useGdn
      ⟨1, k.inChannels, k.stride, k.stride⟩ hk (by omega) rfl (by dsimp only; omega) (by dsimp only; omega)]
  have e : k.stride ⌈/⌉ k.stride = 1 := by
    rw [Nat.ceilDiv_eq_add_pred_div]
    have : k.stride + k.stride - 1 = (k.stride - 1) + k.stride := by omega
    rw [this, Nat.add_div_right _ (by omega), Nat.div_eq_of_lt (by omega)]
  simp only [e, bind, Except.bind, Coder.norm, hg, Bool.false_eq_true, if_false, List.cons_append, encodeLoop,
    Layer.apply, mul_one, and_self, if_true]

/-! ### Trainable values -/

/-- **C109.** The number of trainable values of an encoder: the kernels of all convolutions, the biases of the last
and, with GDN, of the others, and two vectors or a matrix and a vector per normalisation. There is none after the last
convolution. -/
theorem C109_parameters (k : Coder) (hl : 1 ≤ k.layers) :
    (k.encoder.map Layer.parameters).sum =
        (if k.layers = 1 then k.outChannels * k.inChannels
          else k.filterChannels * k.inChannels + (k.layers - 2) * (k.filterChannels * k.filterChannels)
            + k.outChannels * k.filterChannels) * (k.kernel * k.kernel)
          + k.outChannels
          + (k.layers - 1) * (if k.useGdn then k.filterChannels + (k.filterChannels * k.filterChannels
              + k.filterChannels) else 2 * k.filterChannels) := by
  have norm : (k.norm.map Layer.parameters).sum =
      if k.useGdn then k.filterChannels * k.filterChannels + k.filterChannels else 2 * k.filterChannels := by
    unfold Coder.norm
    split_ifs <;> simp [Layer.parameters]; omega
  have gen : ∀ m, (((k.encoderFrom m k.filterChannels)).map Layer.parameters).sum =
      (m * (k.filterChannels * k.filterChannels) + k.outChannels * k.filterChannels) * (k.kernel * k.kernel)
        + k.outChannels
        + m * (if k.useGdn then k.filterChannels + (k.filterChannels * k.filterChannels
              + k.filterChannels) else 2 * k.filterChannels) := by
    intro m
    induction m with
    | zero => simp [Coder.encoderFrom, Layer.parameters]; ring
    | succ m ih =>
      rw [Coder.encoderFrom, List.cons_append, List.map_cons, List.sum_cons, List.map_append, List.sum_append, ih,
        norm, Layer.parameters]
      split_ifs <;> ring
  rw [Coder.encoder]
  rcases hm : k.layers - 1 with _ | m
  · have : k.layers = 1 := by omega
    simp [this, Coder.encoderFrom, Layer.parameters]
    ring
  · have h1 : k.layers ≠ 1 := by omega
    have h2 : k.layers - 2 = m := by omega
    rw [if_neg h1, h2, Coder.encoderFrom, List.cons_append, List.map_cons, List.sum_cons, List.map_append,
      List.sum_append, gen, norm, Layer.parameters]
    split_ifs <;> ring

/-- **C109.** A decoder with the channels of an encoder exchanged has as many trainable kernel values, with its own
biases: the formula of the encoder with the roles of the channels as given. -/
theorem C109_parameters_decoder (k : Coder) :
    (k.decoder.map Layer.parameters).sum = (k.encoder.map Layer.parameters).sum := by
  have gen : ∀ m c, (((k.decoderFrom m c)).map Layer.parameters).sum =
      (((k.encoderFrom m c)).map Layer.parameters).sum := by
    intro m
    induction m with
    | zero => intro c; simp [Coder.decoderFrom, Coder.encoderFrom, Layer.parameters, mul_comm c]
    | succ m ih =>
      intro c
      rw [Coder.decoderFrom, Coder.encoderFrom]
      simp only [List.cons_append, List.map_cons, List.map_append, List.sum_cons, List.sum_append, ih,
        Layer.parameters, mul_comm c]
  exact gen _ _

/-- **C109.** The number of trainable values of one level of the flow estimator: per stage a kernel for every pair of a
channel of the stage before and a filter, and a bias per filter. -/
theorem C109_parameters_estimator (e : Estimator) :
    (e.level.map Layer.parameters).sum =
      (List.zipWith (· * ·) (e.inChannels :: e.filterCounts) e.filterCounts).sum * (e.kernel * e.kernel) +
        e.filterCounts.sum := by
  have gen : ∀ (l : List ℕ) (c : ℕ), ((levelLayers e.kernel c l).map Layer.parameters).sum =
      (List.zipWith (· * ·) (c :: l) l).sum * (e.kernel * e.kernel) + l.sum := by
    intro l
    induction l with
    | nil => intro c; simp [levelLayers]
    | cons a rest ih =>
      intro c
      rw [levelLayers.eq_def]
      dsimp only
      cases rest with
      | nil => simp [Layer.parameters]; ring
      | cons b rest =>
        simp only [List.map_cons, List.sum_cons, ih, Layer.parameters, List.zipWith_cons_cons, if_true]
        ring
  exact gen _ _

/-- The level of the default estimator has 240050 trainable values. -/
example : (({} : Estimator).level.map Layer.parameters).sum = 240050 := by decide +kernel

end Verif.Models.DvcNets
