import Verif.Vct.Settings
import Verif.Vct.PropsPatcher

/-!
# C110: the settings of the video entropy model
-/

namespace Verif.Vct.Settings

open Verif.Vct

/-! ### Lemmas -/

theorem patch_count {stride p n : ℕ} (hs : 0 < stride) (h1 : stride ≤ p) (h2 : (p - stride) % 2 = 0) (hn : 0 < n) :
    (if p = stride then ceilDiv n stride * stride / p
      else ((p - stride) / 2 + n + (ceilDiv n stride * stride - n + (p - stride) / 2) - p) / stride + 1) =
      ceilDiv n stride := by
  have g := ceilDiv_mul_ge n stride hs
  have g0 := ceilDiv_pos n stride hs hn
  split_ifs with h
  · subst h; exact Nat.mul_div_cancel _ hs
  · have e : (p - stride) / 2 + n + (ceilDiv n stride * stride - n + (p - stride) / 2) - p =
        (ceilDiv n stride - 1) * stride := by
      rw [Nat.sub_mul, one_mul]; omega
    rw [e, Nat.mul_div_cancel _ hs]; omega

theorem patchShape_ok {stride p : ℕ} {x : Latent} (hs : 0 < stride) (h1 : stride ≤ p) (h2 : (p - stride) % 2 = 0)
    (hH : 0 < x.H) (hW : 0 < x.W) (h3 : ceilDiv x.H stride * stride - x.H + (p - stride) / 2 < x.H)
    (h4 : ceilDiv x.W stride * stride - x.W + (p - stride) / 2 < x.W) :
    patchShape stride x p =
      .ok (⟨x.B * ceilDiv x.H stride * ceilDiv x.W stride, p ^ 2, x.C⟩, ceilDiv x.H stride, ceilDiv x.W stride) := by
  unfold patchShape
  rw [if_neg (by omega), if_neg (by omega), if_neg (by omega)]
  dsimp only
  rw [if_pos ⟨by omega, by omega, by omega, by omega⟩, patch_count hs h1 h2 hH, patch_count hs h1 h2 hW,
    Nat.mul_div_cancel _ hs, Nat.mul_div_cancel _ hs]

theorem patchShape_pad {stride p : ℕ} {x : Latent} (hs : 0 < stride) (h1 : stride ≤ p) (h2 : (p - stride) % 2 = 0)
    (h3 : ¬ (ceilDiv x.H stride * stride - x.H + (p - stride) / 2 < x.H ∧
      ceilDiv x.W stride * stride - x.W + (p - stride) / 2 < x.W)) :
    patchShape stride x p = .error .pad := by
  unfold patchShape
  rw [if_neg (by omega), if_neg (by omega), if_neg (by omega)]
  dsimp only
  rw [if_neg (by omega)]

theorem linear_ok {i o : ℕ} {x : Seq} (h : x.c = i) : linear i o x = .ok ⟨x.b, x.n, o⟩ := by simp [linear, h]

theorem mlp_ok {d e : ℕ} {x : Seq} (h : x.c = d) : mlp d e x = .ok x := by
  simp only [mlp, linear_ok h, bind, Except.bind]
  rw [linear_ok (show (⟨x.b, x.n, e * d⟩ : Seq).c = e * d from rfl), ← h]

theorem layerNorm_ok {d : ℕ} {x : Seq} (h : x.c = d) : layerNorm d x = .ok x := by simp [layerNorm, h]

theorem linear_same {d : ℕ} {x : Seq} (h : x.c = d) : linear d d x = .ok x := by rw [linear_ok h, ← h]

theorem attention_self {d : ℕ} {x : Seq} {mask : Option ℕ} (h : x.c = d) (hm : mask = none ∨ mask = some x.n) :
    attention d x x mask = .ok x := by
  unfold attention
  rw [if_neg (by simpa using h), if_neg (by simp), if_neg (by simpa using h), if_neg (by simp)]
  rcases hm with rfl | rfl
  · exact linear_same h
  · simp only [if_true]; exact linear_same h

theorem block_encoder {d e : ℕ} {x : Seq} (h : x.c = d) : block d e none none x = .ok x := by
  simp only [block, Option.isSome, Bool.false_and, Bool.false_eq_true, if_false, layerNorm_ok h, bind, Except.bind,
    attention_self h (.inl rfl), mlp_ok h, Option.getD_none]

theorem blocks_encoder {d e : ℕ} {x : Seq} (h : x.c = d) : ∀ n, blocks d e none none n x = .ok x
  | 0 => rfl
  | n + 1 => by simp only [blocks, block_encoder h, bind, Except.bind]; exact blocks_encoder h n

theorem block_decoder {d e : ℕ} {x y : Seq} (h : x.c = d) (hc : y.c = d) (hb : y.b = x.b) :
    block d e (some x.n) (some y) x = if y.n % x.n = 0 then .ok x else .error .assertion := by
  simp only [block, Option.isSome, Option.isNone, Bool.and_false, Bool.false_eq_true, if_false, layerNorm_ok h, bind,
    Except.bind, attention_self h (.inr rfl), mlp_ok h, Option.getD_some]
  unfold attention
  rw [if_neg (by simpa using h)]
  by_cases hn : y.n % x.n = 0
  · rw [if_neg (by simpa using hn), if_neg (by simpa using hc), if_neg (by simpa using hb), if_pos hn]
    simp only [linear_same h, layerNorm_ok h, mlp_ok h]
  · rw [if_pos hn, if_neg hn]

theorem blocks_decoder {d e : ℕ} {x y : Seq} (h : x.c = d) (hc : y.c = d) (hb : y.b = x.b) :
    ∀ n, blocks d e (some x.n) (some y) n x = if n = 0 ∨ y.n % x.n = 0 then .ok x else .error .assertion
  | 0 => by simp [blocks]
  | n + 1 => by
    simp only [blocks, block_decoder h hc hb, bind, Except.bind]
    by_cases hn : y.n % x.n = 0
    · simp only [hn, if_true, or_true]
      rw [blocks_decoder h hc hb n]; simp [hn]
    · simp [hn]

theorem head_ok {d o : ℕ} {x : Seq} (h : x.c = d) : head d o x = .ok ⟨x.b, x.n, o⟩ := by
  simp only [head, linear_same h, bind, Except.bind, linear_ok h]

/-! ### Construction -/

/-- Whether a call returned. -/
def Returns {α : Type} (r : Except Err α) : Prop := ∃ a, r = .ok a

theorem buildBlocks_iff {d h : ℕ} (hd : 0 < d) {p : ℚ} : ∀ n, Returns (buildBlocks d h p n) ↔
    n = 0 ∨ (0 < h ∧ h ∣ d ∧ 0 ≤ p ∧ p ≤ 1)
  | 0 => by simp [Returns, buildBlocks]
  | n + 1 => by
    have ih := buildBlocks_iff (h := h) hd (p := p) n
    have ha : buildAttention d h p = .ok () ↔ (0 < h ∧ h ∣ d ∧ 0 ≤ p ∧ p ≤ 1) := by
      unfold buildAttention buildDropout
      by_cases h0 : h = 0
      · simp [h0]
      · by_cases h1 : d % h = 0
        · have h2 : ¬ d / h = 0 := by
            have := Nat.div_pos (Nat.le_of_dvd hd (Nat.dvd_of_mod_eq_zero h1)) (Nat.pos_of_ne_zero h0)
            omega
          simp only [h0, h1, h2, if_false, ne_eq, not_true]
          have := Nat.dvd_of_mod_eq_zero h1
          have := Nat.pos_of_ne_zero h0
          split_ifs with hp <;> simp <;> [skip; push Not at hp] <;> grind
        · simp only [h0, h1, if_false, ne_eq, not_false_eq_true, if_true]
          simp only [reduceCtorEq, false_iff, not_and]
          intro _ h3
          exact absurd (Nat.mod_eq_zero_of_dvd h3) h1
    simp only [Nat.add_eq_zero_iff, one_ne_zero, and_false, false_or]
    by_cases hA : buildAttention d h p = .ok ()
    · have hA' := ha.1 hA
      have hD : buildDropout p = .ok () := by
        unfold buildDropout; rw [if_neg]; push Not; exact hA'.2.2
      have hB : buildBlocks d h p (n + 1) = buildBlocks d h p n := by
        simp only [buildBlocks, buildBlock, hA, hD, bind, Except.bind]
      rw [hB, ih]
      exact ⟨fun _ => hA', fun _ => .inr hA'⟩
    · constructor
      · rintro ⟨a, hr⟩
        exfalso
        simp only [buildBlocks, buildBlock, bind, Except.bind] at hr
        cases hx : buildAttention d h p with
        | ok u => exact hA (by rw [hx])
        | error e => rw [hx] at hr; simp at hr
      · intro h; exact absurd (ha.2 h) hA

theorem buildTransformer_iff {d h : ℕ} (hd : 0 < d) {p : ℚ} (n : ℕ) : Returns (buildTransformer n d h p) ↔
    (0 ≤ p ∧ p ≤ 1) ∧ (n = 0 ∨ (0 < h ∧ h ∣ d)) := by
  unfold buildTransformer
  by_cases hp : 0 ≤ p ∧ p ≤ 1
  · have hD : buildDropout p = .ok () := by unfold buildDropout; rw [if_neg]; push Not; exact hp
    simp only [hD, bind, Except.bind]
    rw [buildBlocks_iff hd]
    tauto
  · have hD : buildDropout p = .error .value := by
      unfold buildDropout; rw [if_pos]
      by_contra h
      push Not at h
      exact hp h
    simp only [hD, bind, Except.bind, Returns]
    simp [hp]

theorem returns_bind {α : Type} (a : Except Err Unit) (b : Except Err α) :
    Returns (do a; b) ↔ Returns a ∧ Returns b := by
  cases a with
  | error e => simp [Returns, bind, Except.bind]
  | ok u => simp [Returns, bind, Except.bind]

/-- **C110, construction.**  The constructor accepts exactly the settings whose encoder window is at least the decoder
window, with a channel, with probabilities as dropout rates, and, if there is any layer, with heads that divide the
width. -/
theorem C110_construct (s : Config) (hd : 0 < s.dModel) :
    Returns (construct s) ↔
      s.windowDec ≤ s.windowEnc ∧ 0 < s.numChannels ∧ (0 ≤ s.dropEnc ∧ s.dropEnc ≤ 1) ∧
        (0 ≤ s.dropDec ∧ s.dropDec ≤ 1) ∧
        (s.layersSep + s.layersJoint + s.layersDec ≠ 0 → 0 < s.numHead ∧ s.numHead ∣ s.dModel) := by
  unfold construct
  by_cases hw : s.windowEnc < s.windowDec
  · rw [if_pos hw]
    simp only [Returns, reduceCtorEq, exists_false, false_iff]
    intro h; omega
  · rw [if_neg hw]
    rw [returns_bind, returns_bind, returns_bind, returns_bind, buildTransformer_iff hd, buildTransformer_iff hd,
      buildTransformer_iff hd]
    have he : Returns (buildEmbedding s.numChannels) ↔ 0 < s.numChannels := by
      unfold buildEmbedding Returns
      split_ifs with h <;> simp <;> omega
    rw [he]
    have h0 : s.layersSep + s.layersJoint + s.layersDec ≠ 0 ↔
      ¬ (s.layersSep = 0 ∧ s.layersJoint = 0 ∧ s.layersDec = 0) := by omega
    rw [h0]
    have hw' : s.windowDec ≤ s.windowEnc := by omega
    tauto

/-- The default settings are accepted. -/
example : construct defaults = .ok () := by decide +kernel

/-! ### Coding a latent -/

/-- The side of a latent allows reflection padding up to the next multiple of the decoder window and on to the encoder
window around it. -/
def Fits (dec enc n : ℕ) : Prop :=
  ∀ k, n ≤ k * dec → (∀ j, n ≤ j * dec → k ≤ j) → k * dec - n + (enc - dec) / 2 < n

theorem fits_iff {dec enc n : ℕ} (hs : 0 < dec) :
    Fits dec enc n ↔ ceilDiv n dec * dec - n + (enc - dec) / 2 < n := by
  have g := ceilDiv_mul_ge n dec hs
  constructor
  · intro h
    exact h (ceilDiv n dec) g (fun j hj => ceilDiv_least n dec hs j hj)
  · intro h k hk hmin
    have h1 : k ≤ ceilDiv n dec := hmin _ g
    have h2 : ceilDiv n dec ≤ k := ceilDiv_least n dec hs k hk
    obtain rfl : k = ceilDiv n dec := le_antisymm h1 h2
    exact h

/-- Settings as anyone means them: the windows are not empty and the model has a width. -/
structure Proper (s : Config) : Prop where
  dec : 0 < s.windowDec
  width : 0 < s.dModel

theorem processPrevious_eq {s : Config} {x : Latent} (hp : Proper s) (hw : s.windowDec ≤ s.windowEnc)
    (hC : x.C = s.numChannels) (hH : 0 < x.H) (hW : 0 < x.W) :
    processPrevious s x =
      if (s.windowEnc - s.windowDec) % 2 ≠ 0 then .error .value
      else if ceilDiv x.H s.windowDec * s.windowDec - x.H + (s.windowEnc - s.windowDec) / 2 < x.H ∧
          ceilDiv x.W s.windowDec * s.windowDec - x.W + (s.windowEnc - s.windowDec) / 2 < x.W then
        .ok ⟨x.B * ceilDiv x.H s.windowDec * ceilDiv x.W s.windowDec, s.windowEnc ^ 2, s.dModel⟩
      else .error .pad := by
  unfold processPrevious
  by_cases hm : (s.windowEnc - s.windowDec) % 2 = 0
  · rw [if_neg (by simpa using hm)]
    split_ifs with hf
    · rw [patchShape_ok hp.dec hw hm hH hW hf.1 hf.2]
      simp only [bind, Except.bind]
      rw [linear_ok hC]
      simp only [layerNorm, position, if_true, and_self, transformer]
      exact blocks_encoder (x := ⟨_, _, s.dModel⟩) rfl _
    · rw [patchShape_pad hp.dec hw hm hf]
      rfl
  · rw [if_pos hm]
    have : patchShape s.windowDec x s.windowEnc = .error .value := by
      unfold patchShape
      rw [if_neg (by omega), if_pos hm]
    rw [this]
    rfl

/-- **C110, processing a latent.**  With an accepted setting, processing a latent of the right channels returns exactly
if the windows differ by an even number and both sides can be padded; the result is one sequence of the encoder window's
size per decoder window. -/
theorem C110_process_partial (s : Config) (x : Latent) (hp : Proper s) (hc : Returns (construct s))
    (hC : x.C = s.numChannels) (hH : 0 < x.H) (hW : 0 < x.W) :
    (Returns (processPrevious s x) ↔
      Even (s.windowEnc - s.windowDec) ∧ Fits s.windowDec s.windowEnc x.H ∧ Fits s.windowDec s.windowEnc x.W) ∧
    ∀ y, processPrevious s x = .ok y → y.n = s.windowEnc ^ 2 ∧ y.c = s.dModel ∧
      ∃ nH nW, y.b = x.B * nH * nW ∧ (∀ j, x.H ≤ j * s.windowDec ↔ nH ≤ j) ∧ (∀ j, x.W ≤ j * s.windowDec ↔ nW ≤ j) := by
  have hw := ((C110_construct s hp.width).1 hc).1
  rw [processPrevious_eq hp hw hC hH hW, fits_iff hp.dec, fits_iff hp.dec, Nat.even_iff]
  constructor
  · split_ifs with h1 h2
    · simp [Returns, h1]
    · simp [Returns, h2, not_not.1 h1]
    · simp [Returns, h2]
  · intro y hy
    split_ifs at hy with h1 h2
    cases hy
    refine ⟨rfl, rfl, _, _, rfl, fun j => ⟨fun h => ceilDiv_least _ _ hp.dec _ h, fun h => ?_⟩,
      fun j => ⟨fun h => ceilDiv_least _ _ hp.dec _ h, fun h => ?_⟩⟩
    · exact (ceilDiv_mul_ge _ _ hp.dec).trans (Nat.mul_le_mul_right _ h)
    · exact (ceilDiv_mul_ge _ _ hp.dec).trans (Nat.mul_le_mul_right _ h)

theorem processAll_replicate {s : Config} {x : Latent} {y : Seq} (h : processPrevious s x = .ok y) :
    ∀ k, processAll s (List.replicate k x) = .ok (List.replicate k y)
  | 0 => rfl
  | k + 1 => by
    rw [List.replicate_succ, processAll, h]
    simp only [bind, Except.bind, processAll_replicate h k]
    rfl

theorem encodedSeqs_replicate {α : Type} (y : α) (n k : ℕ) (h1 : 1 ≤ k) (h2 : k ≤ n) :
    Pipe.encodedSeqs n (List.replicate k y) = List.replicate (if n = 2 ∨ n = 3 then n else k) y := by
  unfold Pipe.encodedSeqs
  rw [List.length_replicate]
  by_cases hlt : k < n
  · rw [if_pos hlt]
    by_cases h22 : n = 2
    · subst h22
      obtain rfl : k = 1 := by omega
      simp [List.replicate]
    · rw [if_neg h22]
      by_cases h3 : n = 3
      · subst h3
        have : k = 1 ∨ k = 2 := by omega
        rcases this with rfl | rfl <;> simp [List.replicate]
      · rw [if_neg h3, if_neg (by tauto)]
  · rw [if_neg hlt]
    obtain rfl : k = n := by omega
    split_ifs <;> rfl

theorem catSeqs_replicate (y : Seq) (k : ℕ) (h : 0 < k) :
    catSeqs (List.replicate k y) = .ok ⟨y.b, k * y.n, y.c⟩ := by
  obtain ⟨m, rfl⟩ : ∃ m, k = m + 1 := ⟨k - 1, by omega⟩
  rw [List.replicate_succ, catSeqs, if_pos (by simp), List.map_replicate, List.sum_replicate, nsmul_eq_mul,
    Nat.succ_mul, add_comm]
  rfl

theorem ceilDiv_pos' {n s : ℕ} (hs : 0 < s) (hn : 0 < n) : 0 < ceilDiv n s := ceilDiv_pos n s hs hn

/-- The forward pass on `k` previous latents whose processed form is `y`, for a latent whose padding is legal. -/
theorem forward_eq {s : Config} {x : Latent} {b : ℕ} (hp : Proper s) (hC : x.C = s.numChannels) (hH : 0 < x.H)
    (hW : 0 < x.W) (h3 : ceilDiv x.H s.windowDec * s.windowDec - x.H < x.H)
    (h4 : ceilDiv x.W s.windowDec * s.windowDec - x.W < x.W) {m : ℕ} (prev : List Seq) (hm : 0 < m)
    (hb : b = x.B * ceilDiv x.H s.windowDec * ceilDiv x.W s.windowDec)
    (hprev : Pipe.encodedSeqs s.contextLen prev = List.replicate m ⟨b, s.windowEnc ^ 2, s.dModel⟩)
    (henc : 0 < s.windowEnc) :
    forward s prev x =
      if m = s.contextLen ∧ (s.layersDec = 0 ∨ m * s.windowEnc ^ 2 % s.windowDec ^ 2 = 0) then
        .ok (x, ⟨b, s.windowDec ^ 2, s.numChannels⟩, ⟨x.B, s.dModel, x.H, x.W⟩)
      else .error .assertion := by
  subst hb
  have gH := ceilDiv_mul_ge x.H s.windowDec hp.dec
  have gW := ceilDiv_mul_ge x.W s.windowDec hp.dec
  have pH := ceilDiv_pos x.H s.windowDec hp.dec hH
  have pW := ceilDiv_pos x.W s.windowDec hp.dec hW
  have hpos : 0 < ceilDiv x.H s.windowDec * ceilDiv x.W s.windowDec := Nat.mul_pos pH pW
  have hpatch := patchShape_ok (x := x) (p := s.windowDec) hp.dec le_rfl (by simp) hH hW (by simpa using h3)
    (by simpa using h4)
  unfold forward
  rw [hprev]
  obtain ⟨m', rfl⟩ : ∃ m', m = m' + 1 := ⟨m - 1, by omega⟩
  simp only [List.replicate_succ, ne_eq, not_true, if_false, hpatch, bind, Except.bind, hC]
  rw [← List.replicate_succ, catSeqs_replicate _ _ hm]
  simp only [transformerOutput, ne_eq, not_true, if_false, startSym, true_or, if_true, bind, Except.bind,
    linear_ok, layerNorm, position, and_true, and_self]
  have hsq : 0 < s.windowEnc ^ 2 := by positivity
  have hiff : (m' + 1) * s.windowEnc ^ 2 = s.windowEnc ^ 2 * s.contextLen ↔ m' + 1 = s.contextLen := by
    rw [Nat.mul_comm]; exact ⟨fun h => Nat.eq_of_mul_eq_mul_left hsq h, fun h => by rw [h]⟩
  by_cases hml : m' + 1 = s.contextLen
  · rw [if_pos (hiff.2 hml)]
    simp only [transformer]
    rw [blocks_encoder (d := s.dModel) (x := ⟨_, _, s.dModel⟩) rfl]
    simp only [ne_eq, not_true, if_false]
    have hdec := blocks_decoder (d := s.dModel) (e := s.mlpExpansion)
      (x := ⟨x.B * ceilDiv x.H s.windowDec * ceilDiv x.W s.windowDec, s.windowDec ^ 2, s.dModel⟩)
      (y := ⟨x.B * ceilDiv x.H s.windowDec * ceilDiv x.W s.windowDec, (m' + 1) * s.windowEnc ^ 2, s.dModel⟩)
      rfl rfl rfl s.layersDec
    dsimp only at hdec
    rw [hdec]
    by_cases hdv : s.layersDec = 0 ∨ (m' + 1) * s.windowEnc ^ 2 % s.windowDec ^ 2 = 0
    · rw [if_pos hdv, if_pos ⟨hml, hdv⟩]
      have hu : ∀ c, unpatchShape s.windowDec
          ⟨x.B * ceilDiv x.H s.windowDec * ceilDiv x.W s.windowDec, s.windowDec ^ 2, c⟩ (ceilDiv x.H s.windowDec)
          (ceilDiv x.W s.windowDec) x.H x.W = .ok ⟨x.B, c, x.H, x.W⟩ := by
        intro c
        unfold unpatchShape
        dsimp only
        rw [if_neg (by simp), if_neg, Nat.mul_assoc, Nat.mul_div_cancel _ hpos, min_eq_left gH, min_eq_left gW]
        rw [Nat.mul_assoc, Nat.mul_mod_left]
        push Not
        exact ⟨by omega, rfl⟩
      simp only [head_ok, hu, pure, Except.pure, ← hC, not_true, if_false]
    · rw [if_neg hdv, if_neg (by tauto)]
  · rw [if_neg (by rw [hiff]; exact hml), if_neg (by tauto)]

/-- **C110, coding a latent (the part that holds).**  For every accepted setting, every latent of the right channels and
every number `k` of previous latents of its shape, from one to the context length: processing them and calling the model
returns exactly if the windows differ by an even number, both sides can be padded, the context is full or the context
length is 2 or 3, and (if the decoder has layers) the tokens of the context are a multiple of those of a decoder window.
Then the perturbed latent has the shape of the latent, the features have its sides and batch, and there is one likelihood
per channel and token. -/
theorem C110_code_partial (s : Config) (x : Latent) (k : ℕ) (hp : Proper s) (hc : Returns (construct s))
    (hC : x.C = s.numChannels) (hH : 0 < x.H) (hW : 0 < x.W) (h1 : 1 ≤ k) (hk : k ≤ s.contextLen) :
    (Returns (code s (List.replicate k x) x) ↔
      Even (s.windowEnc - s.windowDec) ∧ Fits s.windowDec s.windowEnc x.H ∧ Fits s.windowDec s.windowEnc x.W ∧
        (k = s.contextLen ∨ s.contextLen = 2 ∨ s.contextLen = 3) ∧
        (0 < s.layersDec → s.windowDec ^ 2 ∣ s.contextLen * s.windowEnc ^ 2)) ∧
    ∀ out lik feat, code s (List.replicate k x) x = .ok (out, lik, feat) →
      out = x ∧ feat = ⟨x.B, s.dModel, x.H, x.W⟩ ∧ lik.n = s.windowDec ^ 2 ∧ lik.c = s.numChannels ∧
        ∃ nH nW, lik.b = x.B * nH * nW ∧ (∀ j, x.H ≤ j * s.windowDec ↔ nH ≤ j) ∧
          (∀ j, x.W ≤ j * s.windowDec ↔ nW ≤ j) := by
  have hw := ((C110_construct s hp.width).1 hc).1
  have hproc := processPrevious_eq hp hw hC hH hW
  by_cases hok : Even (s.windowEnc - s.windowDec) ∧ Fits s.windowDec s.windowEnc x.H ∧ Fits s.windowDec s.windowEnc x.W
  · have hok' := hok
    rw [fits_iff hp.dec, fits_iff hp.dec, Nat.even_iff] at hok
    rw [if_neg (by simpa using hok.1), if_pos hok.2] at hproc
    have hfw := forward_eq (s := s) (x := x) hp hC hH hW (by omega) (by omega)
      (m := if s.contextLen = 2 ∨ s.contextLen = 3 then s.contextLen else k)
      (List.replicate k ⟨x.B * ceilDiv x.H s.windowDec * ceilDiv x.W s.windowDec, s.windowEnc ^ 2, s.dModel⟩)
      (by split_ifs <;> omega) rfl (encodedSeqs_replicate _ _ _ h1 hk) (by have := hp.dec; omega)
    have hcode : code s (List.replicate k x) x = forward s
      (List.replicate k ⟨x.B * ceilDiv x.H s.windowDec * ceilDiv x.W s.windowDec, s.windowEnc ^ 2, s.dModel⟩) x := by
      unfold code
      rw [processAll_replicate hproc]
      rfl
    rw [hcode, hfw]
    have hcond : ((if s.contextLen = 2 ∨ s.contextLen = 3 then s.contextLen else k) = s.contextLen ∧
        (s.layersDec = 0 ∨
          (if s.contextLen = 2 ∨ s.contextLen = 3 then s.contextLen else k) * s.windowEnc ^ 2 % s.windowDec ^ 2 = 0)) ↔
        (k = s.contextLen ∨ s.contextLen = 2 ∨ s.contextLen = 3) ∧
        (0 < s.layersDec → s.windowDec ^ 2 ∣ s.contextLen * s.windowEnc ^ 2) := by
      rw [Nat.dvd_iff_mod_eq_zero]
      have hz : (0 < s.layersDec → s.contextLen * s.windowEnc ^ 2 % s.windowDec ^ 2 = 0) ↔
          (s.layersDec = 0 ∨ s.contextLen * s.windowEnc ^ 2 % s.windowDec ^ 2 = 0) := by
        rw [Nat.pos_iff_ne_zero]; tauto
      rw [hz]
      split_ifs with h23
      · simp [h23]
      · constructor
        · rintro ⟨h, h'⟩
          rw [h] at h'
          exact ⟨.inl h, h'⟩
        · rintro ⟨h | h, h'⟩
          · exact ⟨h, by rw [h]; exact h'⟩
          · exact absurd h h23
    generalize (if s.contextLen = 2 ∨ s.contextLen = 3 then s.contextLen else k) = m at hcond ⊢
    refine ⟨?_, ?_⟩
    · rw [← and_assoc, ← and_assoc, and_assoc (a := Even _)]
      rw [show (Even (s.windowEnc - s.windowDec) ∧ Fits s.windowDec s.windowEnc x.H ∧
        Fits s.windowDec s.windowEnc x.W) = True from eq_true hok', true_and, ← hcond]
      split_ifs with h
      · exact ⟨fun _ => h, fun _ => ⟨_, rfl⟩⟩
      · exact ⟨fun ⟨_, h'⟩ => by simp at h', fun h' => absurd h' h⟩
    · intro out lik feat h
      split_ifs at h with hcnd
      cases h
      refine ⟨rfl, rfl, rfl, rfl, _, _, rfl, fun j => ⟨fun h => ceilDiv_least _ _ hp.dec _ h, fun h => ?_⟩,
        fun j => ⟨fun h => ceilDiv_least _ _ hp.dec _ h, fun h => ?_⟩⟩
      · exact (ceilDiv_mul_ge _ _ hp.dec).trans (Nat.mul_le_mul_right _ h)
      · exact (ceilDiv_mul_ge _ _ hp.dec).trans (Nat.mul_le_mul_right _ h)
  · have herr : ∃ e, code s (List.replicate k x) x = .error e := by
      obtain ⟨k', rfl⟩ : ∃ k', k = k' + 1 := ⟨k - 1, by omega⟩
      have hx : ∃ e, processPrevious s x = .error e := by
        rw [hproc]
        rw [fits_iff hp.dec, fits_iff hp.dec, Nat.even_iff] at hok
        split_ifs with h5 h6
        · exact ⟨_, rfl⟩
        · exact absurd ⟨not_not.1 h5, h6⟩ hok
        · exact ⟨_, rfl⟩
      obtain ⟨e, he⟩ := hx
      refine ⟨e, ?_⟩
      unfold code
      rw [List.replicate_succ, processAll, he]
      rfl
    obtain ⟨e, he⟩ := herr
    rw [he]
    constructor
    · simp only [Returns, reduceCtorEq, exists_false, false_iff]
      rintro ⟨h5, h6, h7, _⟩
      exact hok ⟨h5, h6, h7⟩
    · intro _ _ _ h; simp at h

/-- **C110 for the default settings**: with one or two previous latents, a latent can be coded exactly if each side is 4
or at least 6. -/
theorem C110_default (B H W k : ℕ) (hH : 0 < H) (hW : 0 < W) (h1 : 1 ≤ k) (h2 : k ≤ 2) :
    Returns (code defaults (List.replicate k ⟨B, 192, H, W⟩) ⟨B, 192, H, W⟩) ↔
      (H = 4 ∨ 6 ≤ H) ∧ (W = 4 ∨ 6 ≤ W) := by
  have h := (C110_code_partial defaults ⟨B, 192, H, W⟩ k ⟨by decide, by decide⟩ ⟨(), by decide +kernel⟩ rfl hH hW h1 h2).1
  rw [h, fits_iff (by decide), fits_iff (by decide)]
  have e : Even (defaults.windowEnc - defaults.windowDec) := by decide
  have e2 : (0 < defaults.layersDec → defaults.windowDec ^ 2 ∣ defaults.contextLen * defaults.windowEnc ^ 2) := by
    intro _; decide
  have e3 : k = defaults.contextLen ∨ defaults.contextLen = 2 ∨ defaults.contextLen = 3 := .inr (.inl rfl)
  have e4 : ∀ n : ℕ, 0 < n → (ceilDiv n defaults.windowDec * defaults.windowDec - n +
      (defaults.windowEnc - defaults.windowDec) / 2 < n ↔ (n = 4 ∨ 6 ≤ n)) := by
    intro n hn
    show (n + 4 - 1) / 4 * 4 - n + (8 - 4) / 2 < n ↔ _
    omega
  rw [e4 H hH, e4 W hW]
  exact ⟨fun h => ⟨h.2.1, h.2.2.1⟩, fun h => ⟨e, h.1, h.2, e3, e2⟩⟩

/-- A setting that is accepted but of no use for any latent. -/
def Useless (s : Config) : Prop :=
  Returns (construct s) ∧ Proper s ∧ ∀ (x : Latent) (k : ℕ), x.C = s.numChannels → 0 < x.H → 0 < x.W → 1 ≤ k →
    k ≤ s.contextLen → ¬ Returns (code s (List.replicate k x) x)

/-- **C110 fails.**  The constructor accepts windows that differ by an odd number and windows of which the tokens do not
fit, e.g. 7 with 4 and 6 with 4 in otherwise default settings: then no latent at all can be coded. -/
theorem C110_violated_windows :
    Useless { defaults with windowEnc := 7 } ∧ Useless { defaults with windowEnc := 6 } := by
  constructor
  · refine ⟨⟨(), by decide +kernel⟩, ⟨by decide, by decide⟩, fun x k hC hH hW h1 h2 => ?_⟩
    rw [(C110_code_partial _ x k ⟨by decide, by decide⟩ ⟨(), by decide +kernel⟩ hC hH hW h1 h2).1]
    rintro ⟨h, -⟩
    revert h; decide
  · refine ⟨⟨(), by decide +kernel⟩, ⟨by decide, by decide⟩, fun x k hC hH hW h1 h2 => ?_⟩
    rw [(C110_code_partial _ x k ⟨by decide, by decide⟩ ⟨(), by decide +kernel⟩ hC hH hW h1 h2).1]
    rintro ⟨-, -, -, -, h⟩
    have := h (by decide)
    revert this; decide

/-- **C110 fails for longer contexts.**  With any context length from 4 on, an accepted setting can never code a latent
with fewer previous latents than that, so never the first frames of a video. -/
theorem C110_violated_context (s : Config) (hp : Proper s) (hc : Returns (construct s)) (h4 : 4 ≤ s.contextLen)
    (x : Latent) (hC : x.C = s.numChannels) (hH : 0 < x.H) (hW : 0 < x.W) (k : ℕ) (h1 : 1 ≤ k) (hk : k < s.contextLen) :
    ¬ Returns (code s (List.replicate k x) x) := by
  rw [(C110_code_partial s x k hp hc hC hH hW h1 hk.le).1]
  rintro ⟨-, -, -, h, -⟩
  omega

/-- With a full context of four it can: the hypotheses above are met by a setting that is otherwise fine. -/
example : Returns (code { defaults with contextLen := 4 } (List.replicate 4 ⟨1, 192, 8, 8⟩) ⟨1, 192, 8, 8⟩) :=
  ⟨(⟨1, 192, 8, 8⟩, ⟨4, 16, 192⟩, ⟨1, 768, 8, 8⟩), by decide +kernel⟩

/-- **C110 fails for a context of another shape.**  Only the product of batch and windows is compared: two latents of one
window are accepted as the past of one latent of two windows. -/
theorem C110_violated_shape :
    code defaults [⟨2, 192, 4, 4⟩] ⟨1, 192, 4, 8⟩ =
      .ok (⟨1, 192, 4, 8⟩, ⟨2, 16, 192⟩, ⟨1, 768, 4, 8⟩) := by
  decide +kernel

theorem mem_encodedSeqs {α : Type} (n : ℕ) (l : List α) (y : α) (h : y ∈ l) : y ∈ Pipe.encodedSeqs n l := by
  unfold Pipe.encodedSeqs
  split_ifs with h1 h2 h3 h4
  · exact List.mem_append_left _ h
  · simp [h]
  · subst h3
    rcases l with _ | ⟨a, _ | ⟨b, _ | ⟨c, l⟩⟩⟩
    · exact absurd h (by simp)
    · simp at h4
    · simp only [List.mem_cons, List.not_mem_nil, or_false] at h
      rcases h with rfl | rfl <;> simp
    · simp at h1; omega
  · exact h
  · exact h

/-- **C110, contexts that are refused (the part that holds).**  When the forward pass returns, every processed previous
latent has as many sequences as the latent has windows in all its batch, and the width of the model. -/
theorem C110_context_partial (s : Config) (prev : List Seq) (x : Latent) (hd : 0 < s.windowDec) (hH : 0 < x.H)
    (hW : 0 < x.W) {r : Latent × Seq × Latent} (h : forward s prev x = .ok r) (y : Seq) (hy : y ∈ prev) :
    y.c = s.dModel ∧
      ∃ nH nW, y.b = x.B * nH * nW ∧ (∀ j, x.H ≤ j * s.windowDec ↔ nH ≤ j) ∧ (∀ j, x.W ≤ j * s.windowDec ↔ nW ≤ j) := by
  have hm := mem_encodedSeqs s.contextLen prev y hy
  unfold forward at h
  cases hs : Pipe.encodedSeqs s.contextLen prev with
  | nil => rw [hs] at hm; exact absurd hm (by simp)
  | cons first rest =>
    rw [hs] at hm h
    simp only [bind, Except.bind] at h
    split_ifs at h with hc
    by_cases hf : ceilDiv x.H s.windowDec * s.windowDec - x.H < x.H ∧ ceilDiv x.W s.windowDec * s.windowDec - x.W < x.W
    · rw [patchShape_ok (x := x) (p := s.windowDec) hd le_rfl (by simp) hH hW (by simpa using hf.1)
        (by simpa using hf.2)] at h
      dsimp only at h
      split_ifs at h with h2 h3 h4
      have hb : x.B * ceilDiv x.H s.windowDec * ceilDiv x.W s.windowDec = first.b := not_not.1 h3
      have hyb : y.b = first.b ∧ y.c = first.c := by
        unfold catSeqs at h
        dsimp only at h
        split_ifs at h with h5
        · rcases List.mem_cons.1 hm with rfl | hm
          · exact ⟨rfl, rfl⟩
          · have := List.all_eq_true.1 h5 y hm
            simpa using this
      refine ⟨by rw [hyb.2]; exact not_not.1 hc, _, _, by rw [hyb.1, ← hb], fun j => ⟨fun h => ceilDiv_least _ _ hd _ h,
        fun h => ?_⟩, fun j => ⟨fun h => ceilDiv_least _ _ hd _ h, fun h => ?_⟩⟩
      · exact (ceilDiv_mul_ge _ _ hd).trans (Nat.mul_le_mul_right _ h)
      · exact (ceilDiv_mul_ge _ _ hd).trans (Nat.mul_le_mul_right _ h)
    · rw [patchShape_pad (x := x) (p := s.windowDec) hd le_rfl (by simp) (by simpa using hf)] at h
      simp at h

/-- A second previous latent with other sides is refused. -/
example : code defaults [⟨1, 192, 8, 8⟩, ⟨1, 192, 8, 12⟩] ⟨1, 192, 8, 8⟩ = .error .runtime := by decide +kernel

/-! ### Agreement with the model of the patcher -/

/-- The shapes used here are those of the tensors that the model of the patcher computes. -/
theorem patchShape_patch {R : Type} [CommSemiring R] {stride p : ℕ} (x : Latent) (t : Tensor R) (hs : 0 < stride)
    (hH : 0 < x.H) (hW : 0 < x.W) :
    match patch stride t x.B x.C x.H x.W p with
    | .ok (r, nH, nW) => ∃ q : Seq, patchShape stride x p = .ok (q, nH, nW) ∧ r.shape = [q.b, q.n, q.c]
    | .error _ => ∃ e, patchShape stride x p = .error e := by
  by_cases h1 : stride ≤ p
  · by_cases h2 : (p - stride) % 2 = 0
    · by_cases h3 : ceilDiv x.H stride * stride - x.H + (p - stride) / 2 < x.H ∧
          ceilDiv x.W stride * stride - x.W + (p - stride) / 2 < x.W
      · obtain ⟨r, hr, hsh, -⟩ := patch_spec stride t x.B x.C x.H x.W p hs hH hW h1 h2 h3.1 h3.2
        rw [hr, patchShape_ok hs h1 h2 hH hW h3.1 h3.2]
        exact ⟨_, rfl, hsh⟩
      · have : patch stride t x.B x.C x.H x.W p = .error .pad := by
          unfold patch padPatch padReflect
          rw [if_neg (by omega), if_neg (by omega)]
          dsimp only
          rw [if_neg (by omega)]
          rfl
        rw [this, patchShape_pad hs h1 h2 h3]
        exact ⟨_, rfl⟩
    · have : patch stride t x.B x.C x.H x.W p = .error .value := by
        unfold patch padPatch
        rw [if_neg (by omega), if_pos h2]
        rfl
      rw [this]
      refine ⟨.value, ?_⟩
      unfold patchShape
      rw [if_neg (by omega), if_pos h2]
  · have : patch stride t x.B x.C x.H x.W p = .error .value := by
      unfold patch padPatch
      rw [if_pos (by omega)]
      rfl
    rw [this]
    refine ⟨.value, ?_⟩
    unfold patchShape
    rw [if_pos (by omega)]

end Verif.Vct.Settings
