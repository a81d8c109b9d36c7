import Verif.Vct.EntropyLemmas
import Verif.Vct.PropsPatcher

/-
C25 and C26: autoregressive coding of one latent.
-/
namespace Verif.Vct

open Verif.Tensor

variable {S : Type}

theorem tokensOf_length (t : Tensor ℝ) (P n C : Nat) : (tokensOf t P n C).length = n := by simp [tokensOf]

theorem tokensOf_mem (t : Tensor ℝ) (P n C : Nat) : ∀ tok ∈ tokensOf t P n C, tok.length = P * C := by
  intro tok h
  simp only [tokensOf, List.mem_map] at h
  obtain ⟨i, _, rfl⟩ := h
  simp

theorem flat_lt {P C p ch : Nat} (hp : p < P) (hc : ch < C) : p * C + ch < P * C := by
  calc p * C + ch < p * C + C := by omega
    _ = (p + 1) * C := by ring
    _ ≤ P * C := Nat.mul_le_mul_right _ hp

theorem tokensOf_get (t : Tensor ℝ) (P n C i p ch : Nat) (hi : i < n) (hp : p < P) (hc : ch < C) :
    ((tokensOf t P n C).getD i []).getD (p * C + ch) 0 = t.get [p, i, ch] := by
  have h := flat_lt hp hc
  have e : (tokensOf t P n C).getD i [] = (List.range (P * C)).map fun k => t.get [k / C, i, k % C] := by
    rw [List.getD_eq_getElem _ _ (by simp [tokensOf, hi])]
    simp only [tokensOf, List.getElem_map, List.getElem_range]
  rw [e, List.getD_eq_getElem _ _ (by simpa using h)]
  simp only [List.getElem_map, List.getElem_range]
  rw [Nat.mul_comm p C, Nat.mul_add_div (by omega), Nat.mul_add_mod, Nat.mod_eq_of_lt hc,
    Nat.div_eq_of_lt hc, Nat.add_zero]

theorem ofTokens_get (P n C : Nat) (b : Buf) (p i ch : Nat) (hp : p < P) (hi : i < n) (hc : ch < C) :
    (ofTokens P n C b).get [p, i, ch] = (b.getD i []).getD (p * C + ch) 0 :=
  get_ofFn _ _ _ ⟨hp, hi, hc, trivial⟩

theorem quant1_int (x m : ℝ) : ∃ k : ℤ, quant1 x m = k ∧ |(k : ℝ) - x| ≤ 1 / 2 := by
  refine ⟨roundHalfEven (x - roundHalfEven m) + roundHalfEven m, by simp [quant1], ?_⟩
  have := roundHalfEven_near (x - roundHalfEven m)
  push_cast
  rw [show (roundHalfEven (x - ↑(roundHalfEven m)) : ℝ) + ↑(roundHalfEven m) - x =
    ↑(roundHalfEven (x - ↑(roundHalfEven m))) - (x - ↑(roundHalfEven m)) by ring]
  exact this

/-- Patching, coding the tokens and un-patching, in one statement. -/
theorem compress_spec {c : BnCfg} (hc : c.Ok) {e : Coder S} (he : e.Lossless (c.numMeans * c.numScales))
    (w C H W D : Nat) (hw : 0 < w) (hC : 0 < C) (hH : 0 < H) (hW : 0 < W) (lH : Legal w H) (lW : Legal w W)
    (x : Tensor ℝ) (net : Net)
    (hn : net.ShapeOk (w ^ 2) (ceilDiv H w * ceilDiv W w * C)) :
    ∃ (st : EncSt S) (r : Tensor ℝ), st.strings.length = w ^ 2 ∧
      decode c e net w C H W none st.strings = .ok r ∧
      compress c e net w C H W D x true = .ok ⟨r, st.strings, st.means, st.scales⟩ ∧
      compress c e net w C H W D x false = .ok ⟨roundTensor x, st.strings, st.means, st.scales⟩ ∧
      r.shape = [1, C, H, W] ∧
      (∀ ch y z, ch < C → y < H → z < W → ∃ m : ℝ,
        (∃ (B : Buf) (i k : Nat), B.length = w ^ 2 ∧ (∀ t ∈ B, t.length = ceilDiv H w * ceilDiv W w * C) ∧
          i < w ^ 2 ∧ k < ceilDiv H w * ceilDiv W w * C ∧ m = ((net.means B).getD i []).getD k 0) ∧ r.get [0, ch, y, z] = quant1 (x.get [0, ch, y, z]) m) := by
  have lH' := (legal_iff _ _ hw hH).1 lH
  have lW' := (legal_iff _ _ hw hW).1 lW
  have gH := ceilDiv_mul_ge H w hw
  have gW := ceilDiv_mul_ge W w hw
  have pH := ceilDiv_pos H w hw hH
  have pW := ceilDiv_pos W w hw hW
  obtain ⟨t, ht, hts, htg⟩ := patch_spec w x 1 C H W w hw hH hW le_rfl (by simp) (by simpa using lH')
    (by simpa using lW')
  obtain ⟨f, hf, hfs, _⟩ := patch_spec w (⟨[1, C, H, W], fun _ => 1⟩ : Tensor ℝ) 1 C H W w hw hH hW le_rfl
    (by simp) (by simpa using lH') (by simpa using lW')
  set nH := ceilDiv H w with hnH
  set nW := ceilDiv W w with hnW
  rw [Nat.one_mul] at hts hfs
  have hP : t.shape.getD 0 0 = nH * nW := by rw [hts]; rfl
  have hPf : f.shape.getD 0 0 = nH * nW := by rw [hfs]; rfl
  obtain ⟨st, hst, q1, q2, q3, q4, q5, q6⟩ := encode_spec (D := nH * nW * D) hc he (Nat.pow_pos hw) hn
    (tokensOf_length t (nH * nW) (w ^ 2) C) (tokensOf_mem t (nH * nW) (w ^ 2) C)
  obtain ⟨r, hr, hrs, hrg⟩ := unpatch_spec w (ofTokens (nH * nW) (w ^ 2) C st.quantized) 1 C nH nW (some (H, W)) hw
    hC pH pW (by rw [Nat.one_mul]; rfl)
  have hrs' : r.shape = [1, C, H, W] := by
    rw [hrs]; simp only [min_eq_left gH, min_eq_left gW]
  refine ⟨st, r, q3, ?_, ?_, ?_, hrs', ?_⟩
  · simp only [decode, hf, liftP, hPf, q5, hr]
  · have hd : decode c e net w C H W (some (st.means, st.scales)) st.strings = .ok r := by
      simp only [decode, hf, liftP, hPf, q6, hr]
    simp only [compress, ht, liftP, hP, hst, if_true, hd, hr]
    rw [if_pos ⟨rfl, fun _ _ => rfl⟩]
  · simp only [compress, ht, liftP, hP, hst, Bool.false_eq_true, if_false]
  · intro ch y z hch hy hz
    have ey := Nat.div_add_mod y w
    have ez := Nat.div_add_mod z w
    rw [Nat.mul_comm] at ey ez
    have my := Nat.mod_lt y hw
    have mz := Nat.mod_lt z hw
    have dy : y / w < nH := Nat.div_lt_of_lt_mul (by rw [Nat.mul_comm]; omega)
    have dz : z / w < nW := Nat.div_lt_of_lt_mul (by rw [Nat.mul_comm]; omega)
    have hin : InRange r.shape [0, ch, y, z] := by rw [hrs']; exact ⟨by omega, hch, hy, hz, trivial⟩
    have h1 := hrg 0 ch (y / w) (y % w) (z / w) (z % w) (by omega) hch dy dz my mz
      (by rw [ey, ez]; exact hin)
    have h2 := htg 0 (y / w) (z / w) (y % w) (z % w) ch (by omega) dy dz my mz hch
    rw [ey, ez] at h1 h2
    have hp : (0 * nH + y / w) * nW + z / w < nH * nW := by
      rw [Nat.zero_mul, Nat.zero_add]; exact flat_lt dy dz
    have hi : y % w * w + z % w < w ^ 2 := by rw [pow_two]; exact flat_lt my mz
    set p := (0 * nH + y / w) * nW + z / w with hpd
    set i := y % w * w + z % w with hid
    rw [ofTokens_get _ _ _ _ _ _ _ hp hi hch] at h1
    obtain ⟨⟨B, b1, b2, _, b4, _⟩, hm, hq⟩ := q4 i hi
    have hk := flat_lt hp hch
    have hlen : ((tokensOf t (nH * nW) (w ^ 2) C).getD i []).length = nH * nW * C :=
      tokensOf_mem t _ _ _ _ (getD_mem _ _ _ (by rw [tokensOf_length]; exact hi))
    refine ⟨(st.means.getD i []).getD (p * C + ch) 0, ⟨B, i, _, b1, b2, hi, hk, by rw [b4]⟩, ?_⟩
    rw [h1, hq]
    have hxt := tokensOf_get t (nH * nW) (w ^ 2) C i p ch hi hp hch
    rw [List.getD_eq_getElem _ _ (by rw [List.length_zipWith]; omega), List.getElem_zipWith,
      List.getD_eq_getElem _ _ (show p * C + ch < (st.means.getD i []).length by omega)]
    rw [List.getD_eq_getElem _ _ (by omega)] at hxt
    rw [hxt, h2]
    simp only [Nat.sub_self, Nat.zero_div, Int.natCast_zero, Int.sub_zero]
    rw [reflect_id H y hy, reflect_id W z hz]

/-- **C25.**  For every network (a function of the buffer, causal or not, that keeps its shape), every lossless
symbol coder, every latent and every size for which the patcher can pad: `compress` with the real decode
succeeds, its strings number one per token, decoding them by re-running the network on the partly decoded
buffer consumes all strings and gives the same latent, and every entry of that latent is an integer
within one half of the input. -/
theorem C25_lossless {c : BnCfg} (hc : c.Ok) {e : Coder S} (he : e.Lossless (c.numMeans * c.numScales))
    (w C H W D : Nat) (hw : 0 < w) (hC : 0 < C) (hH : 0 < H) (hW : 0 < W) (lH : Legal w H) (lW : Legal w W)
    (x : Tensor ℝ) (net : Net)
    (hn : net.ShapeOk (w ^ 2) (ceilDiv H w * ceilDiv W w * C)) :
    ∃ out, compress c e net w C H W D x true = .ok out ∧ out.strings.length = w ^ 2 ∧
      decode c e net w C H W none out.strings = .ok out.latent ∧
      out.latent.shape = [1, C, H, W] ∧
      ∀ ch y z, ch < C → y < H → z < W →
        ∃ k : ℤ, out.latent.get [0, ch, y, z] = k ∧ |(k : ℝ) - x.get [0, ch, y, z]| ≤ 1 / 2 := by
  obtain ⟨st, r, h1, h2, h3, _, h5, h6⟩ := compress_spec (D := D) hc he w C H W hw hC hH hW lH lW x net hn
  refine ⟨_, h3, h1, h2, h5, ?_⟩
  intro ch y z a b d
  obtain ⟨m, _, hm⟩ := h6 ch y z a b d
  obtain ⟨k, k1, k2⟩ := quant1_int (x.get [0, ch, y, z]) m
  exact ⟨k, by rw [← k1, ← hm], k2⟩

/-- The strings alone do not carry the means and scales of the encoder; the decoder computes the same ones:
decoding with those of the encoder (`use_output_from_encode=True`) gives the same tokens as with its own. -/
theorem C25_same_parameters {c : BnCfg} (hc : c.Ok) {e : Coder S} (he : e.Lossless (c.numMeans * c.numScales))
    {net : Net} {n K D : Nat} (hpos : 0 < n) (hn : net.ShapeOk n K) {latent : Buf} (hl : latent.length = n)
    (hlK : ∀ t ∈ latent, t.length = K) :
    let st := encodeTokens c e net K D latent
    decodeTokens c e net none n K st.strings = .ok st.quantized ∧
    decodeTokens c e net (some (st.means, st.scales)) n K st.strings = .ok st.quantized := by
  obtain ⟨st, h, _, _, _, _, h5, h6⟩ := encode_spec (D := D) hc he hpos hn hl hlK
  rw [h]
  exact ⟨h5, h6⟩

/-- The prediction for token `j` depends only on the tokens before `j`. -/
def Net.Causal (net : Net) (n K : Nat) : Prop :=
  ∀ (A B : Buf) (j : Nat), A.length = n → B.length = n → (∀ t ∈ A, t.length = K) → (∀ t ∈ B, t.length = K) →
    j < n → (∀ k, k < j → A.getD k [] = B.getD k []) →
    (net.means A).getD j [] = (net.means B).getD j [] ∧ (net.scales A).getD j [] = (net.scales B).getD j []

/-- For a causal network the sequential predictions of the encoder are those of a single pass over the
finished latent, as used in training and in `validate_causal`. -/
theorem C25_single_pass {c : BnCfg} (hc : c.Ok) {e : Coder S} (he : e.Lossless (c.numMeans * c.numScales))
    {net : Net} {n K D : Nat} (hpos : 0 < n) (hn : net.ShapeOk n K) (hca : net.Causal n K) {latent : Buf}
    (hl : latent.length = n) (hlK : ∀ t ∈ latent, t.length = K) :
    let st := encodeTokens c e net K D latent
    ∀ j, j < n → st.means.getD j [] = (net.means st.quantized).getD j [] ∧
      st.scales.getD j [] = (net.scales st.quantized).getD j [] := by
  obtain ⟨st, h, h1, h2, _, h4, _⟩ := encode_spec (D := D) hc he hpos hn hl hlK
  rw [h]
  intro st j hj
  obtain ⟨⟨B, b1, b2, b3, b4, b5⟩, _⟩ := h4 j hj
  obtain ⟨a, b⟩ := hca B st.quantized j b1 h1 b2 h2 hj b3
  exact ⟨b4.trans a, b5.1.trans b⟩

/-! A concrete case: a coder that stores the symbols, and a network that is not causal and predicts from the
whole buffer. -/

/-- Stores the symbols as they are. -/
def plainCoder : Coder (List ℤ) := ⟨fun syms _ => syms, fun s _ => s⟩

theorem plainCoder_lossless (N : Nat) : plainCoder.Lossless N := fun _ _ _ _ => rfl

/-- Adds the first entry of the last token to everything. -/
noncomputable def exampleNet : Net :=
  ⟨fun b => b.map (·.map (· + ((b.getLastD []).headD 0) / 7)), fun b => b, fun _ => []⟩

theorem exampleNet_shape (n K : Nat) : exampleNet.ShapeOk n K := by
  intro b h1 h2
  refine ⟨by simp [exampleNet, h1], ?_, h1, h2⟩
  intro t ht
  simp only [exampleNet, List.mem_map] at ht
  obtain ⟨a, ha, rfl⟩ := ht
  simp [h2 a ha]

/-- C25 is not vacuous: window 4, a 5 × 7 latent with 3 channels, the network above. -/
example (x : Tensor ℝ) : ∃ out, compress defaultBn plainCoder exampleNet 4 3 5 7 2 x true = .ok out ∧
    decode defaultBn plainCoder exampleNet 4 3 5 7 none out.strings = .ok out.latent := by
  obtain ⟨out, h1, _, h2, _⟩ := C25_lossless defaultBn_ok (plainCoder_lossless _) 4 3 5 7 2 (by decide) (by decide)
    (by decide) (by decide) ((legal_iff _ _ (by decide) (by decide)).2 (by decide))
    ((legal_iff _ _ (by decide) (by decide)).2 (by decide)) x exampleNet (exampleNet_shape _ _)
  exact ⟨out, h1, h2⟩

/-! ### C26 -/

/-- The full property: `compress` returns the same latent with and without the real decode. -/
def SkipDecode : Prop :=
  ∀ (c : BnCfg) (S : Type) (e : Coder S) (net : Net) (w C H W D : Nat) (x : Tensor ℝ) (out out' : CompressOut S),
    c.Ok → e.Lossless (c.numMeans * c.numScales) → x.shape = [1, C, H, W] →
    compress c e net w C H W D x true = .ok out → compress c e net w C H W D x false = .ok out' →
    Same out.latent out'.latent

/-- Predicts mean 1 everywhere. -/
noncomputable def meanOne : Net := ⟨fun b => b.map (·.map fun _ => 1), fun b => b, fun _ => []⟩

theorem meanOne_shape (n K : Nat) : meanOne.ShapeOk n K := by
  intro b h1 h2
  refine ⟨by simp [meanOne, h1], ?_, h1, h2⟩
  intro t ht
  simp only [meanOne, List.mem_map] at ht
  obtain ⟨a, ha, rfl⟩ := ht
  simp [h2 a ha]

theorem round_half : roundHalfEven (1 / 2) = 0 := by
  have h : ⌊(1 / 2 : ℝ)⌋ = 0 := by rw [Int.floor_eq_iff]; norm_num
  unfold roundHalfEven
  rw [h]; norm_num

theorem round_neg_half : roundHalfEven (-(1 / 2)) = 0 := by
  have h : ⌊(-(1 / 2) : ℝ)⌋ = -1 := by rw [Int.floor_eq_iff]; norm_num
  unfold roundHalfEven
  rw [h]; norm_num

/-- **C26 is violated by the code.**  With the real decode a value is rounded after subtracting the rounded
mean, without it directly; ties go to even, so the results differ for values half way between integers
when the rounded mean is odd.  Witness: one pixel of value 1/2 with predicted mean 1 is decoded as 1,
but returned as 0 when the decode is skipped. -/
theorem C26_violated : ¬ SkipDecode := by
  intro h
  set x : Tensor ℝ := ⟨[1, 1, 1, 1], fun _ => 1 / 2⟩ with hx
  have hL : Legal 1 1 := (legal_iff _ _ (by decide) (by decide)).2 (by decide)
  have hb : ceilDiv 1 1 * ceilDiv 1 1 * 1 = 1 := by decide
  obtain ⟨st, r, h1, h2, h3, h4, h5, h6⟩ := compress_spec (D := 0) defaultBn_ok (plainCoder_lossless _) 1 1 1 1
    (by decide) (by decide) (by decide) (by decide) hL hL x meanOne (meanOne_shape _ _)
  have hs := h _ _ _ _ _ _ _ _ _ x _ _ defaultBn_ok (plainCoder_lossless _) rfl h3 h4
  have hg := hs.2 [0, 0, 0, 0] (by rw [h5]; exact ⟨by decide, by decide, by decide, by decide, trivial⟩)
  obtain ⟨m, ⟨B, i, k, b1, b2, hi, hk, hm⟩, hr⟩ := h6 0 0 0 (by decide) (by decide) (by decide)
  have hm1 : m = 1 := by
    rw [hm]
    have l1 : (B.getD i []).length = 1 := by rw [b2 _ (getD_mem _ _ _ (by omega)), hb]
    have e : (meanOne.means B).getD i [] = (B.getD i []).map (fun _ => 1) := by
      simp only [meanOne]
      rw [List.getD_eq_getElem _ _ (by rw [List.length_map]; omega), List.getElem_map,
        List.getD_eq_getElem _ _ (by omega)]
    rw [e, List.getD_eq_getElem _ _ (by rw [List.length_map]; omega), List.getElem_map]
  have hx0 : x.get [0, 0, 0, 0] = 1 / 2 := rfl
  have hr1 : roundHalfEven (1 : ℝ) = 1 := by
    have := roundHalfEven_int 1
    rwa [Int.cast_one] at this
  rw [hr, hx0, hm1, quant1, hr1, show (1 / 2 : ℝ) - ((1 : ℤ) : ℝ) = -(1 / 2) by norm_num, round_neg_half] at hg
  have : (roundTensor x).get [0, 0, 0, 0] = 0 := by
    show ((roundHalfEven (1 / 2) : ℤ) : ℝ) = 0
    rw [round_half]; norm_num
  rw [this] at hg
  norm_num at hg

/-- **C26, what holds.**  If no entry of the latent lies exactly half way between two integers, the latent
returned is the same with and without the real decode; the strings are the same in any case, and the
two latents never differ by more than one.  (Missing: ties.) -/
theorem C26_partial {c : BnCfg} (hc : c.Ok) {e : Coder S} (he : e.Lossless (c.numMeans * c.numScales))
    (w C H W D : Nat) (hw : 0 < w) (hC : 0 < C) (hH : 0 < H) (hW : 0 < W) (lH : Legal w H) (lW : Legal w W)
    (x : Tensor ℝ) (hx : x.shape = [1, C, H, W]) (net : Net)
    (hn : net.ShapeOk (w ^ 2) (ceilDiv H w * ceilDiv W w * C)) :
    ∃ out out', compress c e net w C H W D x true = .ok out ∧ compress c e net w C H W D x false = .ok out' ∧
      out.strings = out'.strings ∧
      (∀ idx, InRange x.shape idx → |out.latent.get idx - out'.latent.get idx| ≤ 1) ∧
      ((∀ idx, InRange x.shape idx → ∀ k : ℤ, x.get idx ≠ k + 1 / 2) → Same out.latent out'.latent) := by
  obtain ⟨st, r, h1, h2, h3, h4, h5, h6⟩ := compress_spec (D := D) hc he w C H W hw hC hH hW lH lW x net hn
  have hrt : ∀ idx, (roundTensor x).get idx = (roundHalfEven (x.get idx) : ℝ) := fun _ => rfl
  refine ⟨_, _, h3, h4, rfl, ?_, ?_⟩
  · intro idx hidx
    rw [hx] at hidx
    match idx, hidx with
    | [b, ch, y, z], ⟨hb, hch, hy, hz, _⟩ =>
      have hb0 : b = 0 := by omega
      subst hb0
      obtain ⟨m, _, hr⟩ := h6 ch y z hch hy hz
      show |r.get _ - (roundTensor x).get _| ≤ 1
      rw [hr, hrt]
      obtain ⟨k, k1, k2⟩ := quant1_int (x.get [0, ch, y, z]) m
      have k3 := abs_le.1 (roundHalfEven_near (x.get [0, ch, y, z]))
      rw [abs_le] at k2
      rw [k1, abs_le]
      constructor <;> linarith
  · intro hnt
    refine ⟨by show r.shape = x.shape; rw [h5, hx], ?_⟩
    intro idx hidx
    have hidx' : InRange [1, C, H, W] idx := by rw [← h5]; exact hidx
    match idx, hidx' with
    | [b, ch, y, z], ⟨hb, hch, hy, hz, _⟩ =>
      have hb0 : b = 0 := by omega
      subst hb0
      obtain ⟨m, _, hr⟩ := h6 ch y z hch hy hz
      show r.get _ = (roundTensor x).get _
      rw [hr, hrt, quant1]
      have hne := hnt [0, ch, y, z] (by rw [hx]; exact ⟨by omega, hch, hy, hz, trivial⟩)
      have h7 := roundHalfEven_add_int (x.get [0, ch, y, z]) (-roundHalfEven m) (by
        intro h8
        exact hne ⌊x.get [0, ch, y, z]⌋ (by linarith))
      push_cast at h7
      rw [sub_eq_add_neg, h7]
      push_cast
      ring

/-- C26_partial is not vacuous: all entries 0.3. -/
example : ∃ out out', compress defaultBn plainCoder exampleNet 4 3 5 7 2 ⟨[1, 3, 5, 7], fun _ => 3 / 10⟩ true = .ok out ∧
    compress defaultBn plainCoder exampleNet 4 3 5 7 2 ⟨[1, 3, 5, 7], fun _ => 3 / 10⟩ false = .ok out' ∧
    Same out.latent out'.latent := by
  obtain ⟨out, out', h1, h2, _, _, h3⟩ := C26_partial defaultBn_ok (plainCoder_lossless _) 4 3 5 7 2 (by decide)
    (by decide) (by decide) (by decide) ((legal_iff _ _ (by decide) (by decide)).2 (by decide))
    ((legal_iff _ _ (by decide) (by decide)).2 (by decide)) ⟨[1, 3, 5, 7], fun _ => 3 / 10⟩ rfl exampleNet
    (exampleNet_shape _ _)
  refine ⟨out, out', h1, h2, h3 ?_⟩
  intro idx _ k hk
  have hk' : (3 / 10 : ℝ) = k + 1 / 2 := hk
  have : (10 * k : ℝ) = -2 := by linarith
  have : 10 * k = -2 := by exact_mod_cast this
  omega

end Verif.Vct
