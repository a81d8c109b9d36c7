import Verif.Models.VqVaeNet
import Verif.Models.PropsVqVae
import Verif.Layers.PropsLatentTree
import Mathlib.Tactic.Positivity
import Mathlib.Tactic.FieldSimp

/-!
# C134: what an image of the VQ-VAE autoencoder depends on

Specification: `SameImage`.
-/

namespace Verif.Models.VqVaeNet

open Verif Verif.Functional Verif.Models.VqVae
open Verif.Models.HificNet (ConvW NormW conv2d channelNorm2d zeroPadded)
open Verif.Layers

/-! ### Specification -/

/-- Image `b` of the batch `x` and image `b'` of the batch `x'` are the same in the first `C` channels. -/
def SameImage (C : ℕ) (x : Image ℝ) (b : ℕ) (x' : Image ℝ) (b' : ℕ) : Prop :=
  x.height = x'.height ∧ x.width = x'.width ∧
    ∀ c < C, ∀ i < x.height, ∀ j < x.width, x.pix b c i j = x'.pix b' c i j

/-- Image `b` of the first output and image `b'` of the second have the same indices, if any. -/
def SameIndices (o : Output) (b : ℕ) (o' : Output) (b' : ℕ) : Prop :=
  o.size = o'.size ∧
    match o.indices, o'.indices with
    | none, none => True
    | some f, some f' => ∀ i < o.size.1, ∀ j < o.size.2, f (b, i, j) = f' (b', i, j)
    | _, _ => False

/-! ### Layers -/

/-- The same in all channels. -/
def Same (x : Image ℝ) (b : ℕ) (x' : Image ℝ) (b' : ℕ) : Prop := ∀ C, SameImage C x b x' b'

section Layers

variable {x x' y y' : Image ℝ} {b b' : ℕ}

theorem same_iff : Same x b x' b' ↔ x.height = x'.height ∧ x.width = x'.width ∧
    ∀ c, ∀ i < x.height, ∀ j < x.width, x.pix b c i j = x'.pix b' c i j :=
  ⟨fun h => ⟨(h 0).1, (h 0).2.1, fun c => (h (c + 1)).2.2 c (Nat.lt_succ_self c)⟩,
    fun h _ => ⟨h.1, h.2.1, fun c _ => h.2.2 c⟩⟩

theorem zeroPadded_same {C : ℕ} (h : SameImage C x b x' b') (c : ℕ) (hc : c < C) (i j : ℤ) :
    zeroPadded x b c i j = zeroPadded x' b' c i j := by
  obtain ⟨h1, h2, h3⟩ := h
  unfold zeroPadded
  rw [← h1, ← h2]
  split
  · exact h3 c hc _ (by omega) _ (by omega)
  · rfl

theorem conv_same (cin k s p : ℕ) (w : ConvW) (h : SameImage cin x b x' b') :
    Same (conv2d cin k s p w x) b (conv2d cin k s p w x') b' := by
  rw [same_iff]
  refine ⟨by simp only [conv2d, h.1], by simp only [conv2d, h.2.1], fun o i _ j _ => ?_⟩
  simp only [conv2d]
  congr 1
  refine Finset.sum_congr rfl fun c hc => Finset.sum_congr rfl fun di _ => Finset.sum_congr rfl fun dj _ => ?_
  rw [zeroPadded_same h c (Finset.mem_range.1 hc)]

theorem swish_same (h : Same x b x' b') : Same (swish x) b (swish x') b' := by
  rw [same_iff] at *
  obtain ⟨h1, h2, h3⟩ := h
  refine ⟨h1, h2, fun c i hi j hj => ?_⟩
  simp only [swish]
  rw [h3 c i hi j hj]

theorem groupMean_same (h : Same x b x' b') (size g : ℕ) : groupMean size x b g = groupMean size x' b' g := by
  obtain ⟨h1, h2, h3⟩ := same_iff.1 h
  unfold groupMean
  rw [← h1, ← h2]
  congr 1
  refine Finset.sum_congr rfl fun k _ => Finset.sum_congr rfl fun i hi => Finset.sum_congr rfl fun j hj => ?_
  exact h3 _ _ (Finset.mem_range.1 hi) _ (Finset.mem_range.1 hj)

theorem groupVar_same (h : Same x b x' b') (size g : ℕ) : groupVar size x b g = groupVar size x' b' g := by
  have hm := groupMean_same h size g
  obtain ⟨h1, h2, h3⟩ := same_iff.1 h
  unfold groupVar
  rw [← h1, ← h2, ← hm]
  congr 1
  refine Finset.sum_congr rfl fun k _ => Finset.sum_congr rfl fun i hi => Finset.sum_congr rfl fun j hj => ?_
  rw [h3 _ _ (Finset.mem_range.1 hi) _ (Finset.mem_range.1 hj)]

theorem norm_same (n : VqVae.Norm) (channels : ℕ) (w : NormW) (h : Same x b x' b') :
    Same (norm n channels w x) b (norm n channels w x') b' := by
  cases n with
  | group =>
    have hm := groupMean_same h
    have hv := groupVar_same h
    rw [same_iff] at *
    obtain ⟨h1, h2, h3⟩ := h
    refine ⟨h1, h2, fun c i hi j hj => ?_⟩
    simp only [norm, groupNorm]
    rw [h3 c i hi j hj, hm, hv]
  | channel =>
    rw [same_iff] at *
    obtain ⟨h1, h2, h3⟩ := h
    refine ⟨h1, h2, fun c i hi j hj => ?_⟩
    simp only [norm, channelNorm2d]
    have : (fun k : Fin channels => x.pix b k i j) = fun k : Fin channels => x'.pix b' k i j :=
      funext fun k => h3 _ _ hi _ hj
    rw [this]
  | channelLast => exact h
  | other => exact h

theorem add_same (h : Same x b x' b') (hy : Same y b y' b') (e1 : y.height = x.height) (e2 : y.width = x.width) :
    Same (add x y) b (add x' y') b' := by
  rw [same_iff] at *
  obtain ⟨h1, h2, h3⟩ := h
  refine ⟨h1, h2, fun c i hi j hj => ?_⟩
  have hi' : i < x.height := hi
  have hj' : j < x.width := hj
  simp only [add]
  rw [h3 c i hi' j hj', hy.2.2 c i (by omega) j (by omega)]

theorem norm_size (n : VqVae.Norm) (channels : ℕ) (w : NormW) (x : Image ℝ) :
    (norm n channels w x).height = x.height ∧ (norm n channels w x).width = x.width := by
  cases n <;> exact ⟨rfl, rfl⟩

theorem conv3_size (cin : ℕ) (w : ConvW) (x : Image ℝ) (hx : 0 < x.height ∧ 0 < x.width) :
    (conv2d cin 3 1 1 w x).height = x.height ∧ (conv2d cin 3 1 1 w x).width = x.width := by
  simp only [conv2d, Hific.conv]
  omega

theorem conv1_size (cin : ℕ) (w : ConvW) (x : Image ℝ) (hx : 0 < x.height ∧ 0 < x.width) :
    (conv2d cin 1 1 0 w x).height = x.height ∧ (conv2d cin 1 1 0 w x).width = x.width := by
  simp only [conv2d, Hific.conv]
  omega

theorem resBlock_size (n : VqVae.Norm) (cin cout : ℕ) (w : ResW) (x : Image ℝ) (hx : 0 < x.height ∧ 0 < x.width) :
    (resBlock n cin cout w x).height = x.height ∧ (resBlock n cin cout w x).width = x.width := by
  unfold resBlock
  simp only [add]
  split
  · exact conv1_size _ _ _ hx
  · exact ⟨rfl, rfl⟩

theorem attnBlock_size (n : VqVae.Norm) (c : ℕ) (w : AttnW) (x : Image ℝ) :
    (attnBlock n c w x).height = x.height ∧ (attnBlock n c w x).width = x.width := ⟨rfl, rfl⟩

theorem resBlock_same (n : VqVae.Norm) (cin cout : ℕ) (w : ResW) (hx : 0 < x.height ∧ 0 < x.width)
    (h : Same x b x' b') : Same (resBlock n cin cout w x) b (resBlock n cin cout w x') b' := by
  unfold resBlock
  dsimp only
  have s1 := swish_same (norm_same n cin w.norm1 h)
  have s2 := conv_same cin 3 1 1 w.conv1 (s1 cin)
  have s3 := swish_same (norm_same n cout w.norm2 s2)
  have s4 := conv_same cout 3 1 1 w.conv2 (s3 cout)
  have e1 := norm_size n cin w.norm1 x
  have c1 := conv3_size cin w.conv1 (swish (norm n cin w.norm1 x)) (by simp only [swish, e1]; exact hx)
  have e2 := norm_size n cout w.norm2 (conv2d cin 3 1 1 w.conv1 (swish (norm n cin w.norm1 x)))
  have hsw : ∀ y : Image ℝ, (swish y).height = y.height ∧ (swish y).width = y.width := fun _ => ⟨rfl, rfl⟩
  have c2 := conv3_size cout w.conv2 (swish (norm n cout w.norm2 (conv2d cin 3 1 1 w.conv1 (swish (norm n cin w.norm1 x)))))
    (by rw [(hsw _).1, (hsw _).2, e2.1, e2.2, c1.1, c1.2, (hsw _).1, (hsw _).2, e1.1, e1.2]; exact hx)
  rw [(hsw _).1, (hsw _).2, e2.1, e2.2, c1.1, c1.2, (hsw _).1, (hsw _).2, e1.1, e1.2] at c2
  split
  · have k := conv1_size cin w.shortcut x hx
    exact add_same (conv_same cin 1 1 0 w.shortcut (h cin)) s4 (by rw [c2.1, k.1]) (by rw [c2.2, k.2])
  · exact add_same h s4 c2.1 c2.2

theorem attention_same (c : ℕ) (w : Norm.Xca 1 c) (hn : Same x b x' b') :
    Same (attention c w x) b (attention c w x') b' := by
  obtain ⟨H, W, f⟩ := x
  obtain ⟨H', W', f'⟩ := x'
  rw [same_iff] at hn ⊢
  obtain ⟨h1, h2, h3⟩ := hn
  dsimp only at h1 h2 h3
  subst h1 h2
  refine ⟨rfl, rfl, fun k i hi j hj => ?_⟩
  have : (fun (t : Fin (H * W)) (_ : Fin 1) (k : Fin c) => f b k (t / W) (t % W)) =
      fun (t : Fin (H * W)) (_ : Fin 1) (k : Fin c) => f' b' k (t / W) (t % W) := by
    funext t _ k
    have hW : 0 < W := by
      have : j < W := hj
      omega
    exact h3 _ _ (Nat.div_lt_of_lt_mul (lt_of_lt_of_eq t.2 (Nat.mul_comm _ _))) _ (Nat.mod_lt _ hW)
  simp only [attention]
  split
  · rw [this]
  · rfl

theorem attnBlock_same (n : VqVae.Norm) (c : ℕ) (w : AttnW) (h : Same x b x' b') :
    Same (attnBlock n c w x) b (attnBlock n c w x') b' :=
  add_same h (attention_same c _ (norm_same n c w.norm h)) (norm_size n c w.norm x).1 (norm_size n c w.norm x).2

theorem upsample_same (withConv : Bool) (w : ConvW) (c : ℕ) (h : Same x b x' b') :
    Same (upsample withConv w c x) b (upsample withConv w c x') b' := by
  unfold upsample
  dsimp only
  have : Same ⟨2 * x.height, 2 * x.width, fun b c i j => x.pix b c (i / 2) (j / 2)⟩ b
      ⟨2 * x'.height, 2 * x'.width, fun b c i j => x'.pix b c (i / 2) (j / 2)⟩ b' := by
    rw [same_iff] at *
    obtain ⟨h1, h2, h3⟩ := h
    refine ⟨by simp only [h1], by simp only [h2], fun c i hi j hj => ?_⟩
    dsimp only at hi hj ⊢
    exact h3 c _ (by omega) _ (by omega)
  split
  · exact conv_same c 3 1 1 w (this c)
  · exact this

theorem downsample_same (withConv : Bool) (w : ConvW) (c : ℕ)
    (hs : withConv = false → 2 ≤ x.height ∧ 2 ≤ x.width) (h : Same x b x' b') :
    Same (downsample withConv w c x) b (downsample withConv w c x') b' := by
  unfold downsample
  split
  · refine conv_same c 3 2 0 w ⟨by simp only [(h 0).1], by simp only [(h 0).2.1], fun c _ i _ j _ => ?_⟩
    exact zeroPadded_same (h (c + 1)) c (Nat.lt_succ_self c) _ _
  · rename_i hc
    have hs' := hs (by simpa using hc)
    rw [same_iff] at *
    obtain ⟨h1, h2, h3⟩ := h
    refine ⟨by simp only [h1], by simp only [h2], fun c i hi j hj => ?_⟩
    dsimp only at hi hj ⊢
    congr 1
    refine Finset.sum_congr rfl fun di hdi => Finset.sum_congr rfl fun dj hdj => ?_
    rw [Finset.mem_range] at hdi hdj
    exact h3 c _ (by omega) _ (by omega)

end Layers

/-! ### Networks -/

/-- The image has the height and width of the shape. -/
def HasSize (x : Image ℝ) (s : Shape) : Prop := x.height = s.h ∧ x.width = s.w

theorem bind_ok {ε α β : Type} {a : Except ε α} {f : α → Except ε β} {r : β} (h : (a >>= f) = .ok r) :
    ∃ y, a = .ok y ∧ f y = .ok r := by
  cases a with
  | error e => cases h
  | ok y => exact ⟨y, rfl, h⟩

section Sizes

variable {x : Image ℝ} {s s' : Shape}

theorem conv_hasSize {cin cout k st p : ℕ} (h : VqVae.conv cin cout k st p s = .ok s') (hx : HasSize x s) (w : ConvW) :
    HasSize (conv2d cin k st p w x) s' := by
  unfold VqVae.conv at h
  split at h
  · cases h
  · cases h
    exact ⟨by simp only [conv2d, Hific.conv, hx.1], by simp only [conv2d, Hific.conv, hx.2]⟩

theorem keep_eq {n : VqVae.Norm} {c : ℕ} (h : keep n c s = .ok s') : s' = s := by
  unfold keep at h
  split at h
  · cases h
  · split at h
    · cases h; rfl
    · cases h

theorem norm_hasSize (n : VqVae.Norm) (c : ℕ) (w : NormW) (hx : HasSize x s) : HasSize (norm n c w x) s := by
  cases n <;> exact hx

theorem conv3_pos {cin cout : ℕ} (h : VqVae.conv cin cout 3 1 1 s = .ok s') : 0 < s.h ∧ 0 < s.w := by
  unfold VqVae.conv at h
  split at h
  · cases h
  · omega

theorem resBlock_hasSize {n : VqVae.Norm} {cin cout : ℕ} (h : VqVae.resBlock n cin cout s = .ok s') (hx : HasSize x s)
    (w : ResW) : HasSize (resBlock n cin cout w x) s' ∧ 0 < x.height ∧ 0 < x.width := by
  unfold VqVae.resBlock at h
  obtain ⟨s1, e1, h⟩ := bind_ok h
  obtain ⟨s2, e2, h⟩ := bind_ok h
  obtain ⟨s3, e3, h⟩ := bind_ok h
  obtain ⟨s4, e4, h⟩ := bind_ok h
  have k1 := keep_eq e1
  subst k1
  have hp := conv3_pos e2
  have hpos : 0 < x.height ∧ 0 < x.width := by rw [hx.1, hx.2]; exact hp
  refine ⟨?_, hpos⟩
  have hadd : ∀ {u v : Shape}, VqVae.add u v = .ok s' → s' = u := by
    intro u v h
    unfold VqVae.add at h
    split at h
    · rename_i e
      cases h
      exact e.symm
    · cases h
  unfold resBlock HasSize
  simp only [add]
  dsimp only at h
  by_cases hc : cin ≠ cout
  · rw [if_pos hc] at h ⊢
    obtain ⟨s5, e5, h⟩ := bind_ok h
    rw [hadd h]
    exact conv_hasSize e5 hx _
  · rw [if_neg hc] at h ⊢
    obtain ⟨s5, e5, h⟩ := bind_ok h
    cases e5
    rw [hadd h]
    exact hx

theorem attnBlock_hasSize {n : VqVae.Norm} {c : ℕ} (h : VqVae.attnBlock n c s = .ok s') (hx : HasSize x s) (w : AttnW) :
    HasSize (attnBlock n c w x) s' := by
  unfold VqVae.attnBlock at h
  obtain ⟨s1, e1, h⟩ := bind_ok h
  have k1 := keep_eq e1
  subst k1
  unfold VqVae.add at h
  rw [if_pos rfl] at h
  cases h
  exact hx

theorem upsample_hasSize {withConv : Bool} {c : ℕ} (h : VqVae.upsample withConv c s = .ok s') (hx : HasSize x s) (w : ConvW) :
    HasSize (upsample withConv w c x) s' := by
  unfold VqVae.upsample at h
  unfold upsample
  dsimp only at h ⊢
  split at h
  · rename_i hc
    rw [if_pos hc]
    exact conv_hasSize h ⟨by simp only [hx.1], by simp only [hx.2]⟩ w
  · rename_i hc
    rw [if_neg hc]
    cases h
    exact ⟨by simp only [hx.1], by simp only [hx.2]⟩

theorem downsample_hasSize {withConv : Bool} {c : ℕ} (h : VqVae.downsample withConv c s = .ok s') (hx : HasSize x s)
    (w : ConvW) :
    HasSize (downsample withConv w c x) s' ∧ (withConv = false → 2 ≤ x.height ∧ 2 ≤ x.width) := by
  unfold VqVae.downsample at h
  unfold downsample
  split at h
  · rename_i hc
    rw [if_pos hc]
    exact ⟨conv_hasSize h ⟨by simp only [hx.1], by simp only [hx.2]⟩ w, fun h => by simp [h] at hc⟩
  · rename_i hc
    rw [if_neg hc]
    split at h
    · cases h
    · cases h
      refine ⟨⟨by simp only [hx.1], by simp only [hx.2]⟩, fun _ => ?_⟩
      rw [hx.1, hx.2]
      omega

end Sizes

section Nets

variable {x x' : Image ℝ} {b b' : ℕ} {s s' : Shape}

theorem runBlocks_spec {n : VqVae.Norm} {hasAttn : Bool} (res : ℕ → ResW) (attn : ℕ → AttnW) (bs : List (ℕ × ℕ)) :
    ∀ (as : List ℕ) (k : ℕ) (x : Image ℝ) (s : Shape), (hasAttn = false → as = []) →
      VqVae.runBlocks n hasAttn bs as s = .ok s' → HasSize x s →
      HasSize (runBlocks n res attn k bs as x) s' ∧
        ∀ (x' : Image ℝ), Same x b x' b' → Same (runBlocks n res attn k bs as x) b (runBlocks n res attn k bs as x') b' := by
  induction bs with
  | nil =>
    intro as k x s _ h hx
    cases h
    exact ⟨hx, fun _ h => h⟩
  | cons a bs ih =>
    intro as k x s ha h hx
    unfold VqVae.runBlocks at h
    obtain ⟨s1, e1, h⟩ := bind_ok h
    have hr := resBlock_hasSize e1 hx (res k)
    dsimp only at h
    cases as with
    | nil =>
      have h : VqVae.runBlocks n hasAttn bs [] s1 = .ok s' := by
        cases hasAttn with
        | false => exact h
        | true => cases h
      have := ih [] (k + 1) _ s1 (fun _ => rfl) h hr.1
      exact ⟨this.1, fun x' hx' => this.2 _ (resBlock_same n _ _ _ hr.2 hx')⟩
    | cons c as =>
      have hA : hasAttn = true := by
        cases hasAttn with
        | false => cases ha rfl
        | true => rfl
      subst hA
      rw [if_pos rfl] at h
      obtain ⟨s2, e2, h⟩ := bind_ok h
      have hat := attnBlock_hasSize e2 hr.1 (attn k)
      have := ih as (k + 1) _ s2 (fun h => by cases h) h hat
      exact ⟨this.1, fun x' hx' => this.2 _ (attnBlock_same n _ _ (resBlock_same n _ _ _ hr.2 hx'))⟩

theorem runLevels_spec {n : VqVae.Norm} (w : NetW) (rsShape : ℕ → Shape → Except VqVae.Err Shape)
    (rs : ConvW → ℕ → Image ℝ → Image ℝ)
    (hrs : ∀ (v : ConvW) (c : ℕ) (x : Image ℝ) (s s' : Shape), rsShape c s = .ok s' → HasSize x s → HasSize (rs v c x) s' ∧
      ∀ x' : Image ℝ, Same x b x' b' → Same (rs v c x) b (rs v c x') b') (ls : List Level) :
    ∀ (k : ℕ) (x : Image ℝ) (s : Shape), VqVae.runLevels n rsShape ls s = .ok s' → HasSize x s →
      HasSize (runLevels n w rs k ls x) s' ∧
        ∀ x' : Image ℝ, Same x b x' b' → Same (runLevels n w rs k ls x) b (runLevels n w rs k ls x') b' := by
  induction ls with
  | nil =>
    intro k x s h hx
    cases h
    exact ⟨hx, fun _ h => h⟩
  | cons l ls ih =>
    intro k x s h hx
    unfold VqVae.runLevels at h
    obtain ⟨s1, e1, h⟩ := bind_ok h
    have hb := runBlocks_spec (b := b) (b' := b') (w.res k) (w.attn k) l.block l.attn 0 x s
      (by intro h; simpa using h) e1 hx
    unfold runLevels
    cases hl : l.resample with
    | none =>
      rw [hl] at h
      have := ih (k + 1) _ _ h hb.1
      exact ⟨this.1, fun x' hx' => this.2 _ (hb.2 _ hx')⟩
    | some c =>
      rw [hl] at h
      obtain ⟨s2, e2, h⟩ := bind_ok h
      have hd := hrs (w.resample k) c _ s1 s2 e2 hb.1
      have := ih (k + 1) _ _ h hd.1
      exact ⟨this.1, fun x' hx' => this.2 _ (hd.2 _ (hb.2 _ hx'))⟩

theorem mid_spec {n : VqVae.Norm} {c : ℕ} (w : NetW) (h : VqVae.mid n c s = .ok s') (hx : HasSize x s) :
    HasSize (mid n c w x) s' ∧ ∀ x' : Image ℝ, Same x b x' b' → Same (mid n c w x) b (mid n c w x') b' := by
  unfold VqVae.mid at h
  obtain ⟨s1, e1, h⟩ := bind_ok h
  obtain ⟨s2, e2, h⟩ := bind_ok h
  have h1 := resBlock_hasSize e1 hx w.mid1
  have h2 := attnBlock_hasSize e2 h1.1 w.midAttn
  have h3 := resBlock_hasSize h h2 w.mid2
  exact ⟨h3.1, fun x' hx' => resBlock_same n c c _ h3.2 (attnBlock_same n c _ (resBlock_same n c c _ h1.2 hx'))⟩

theorem encode_spec {cfg : Config} {net : Net} (w : NetW) (h : VqVae.encode cfg net s = .ok s') (hx : HasSize x s) :
    HasSize (encode cfg net w x) s' ∧ ∀ x' : Image ℝ, SameImage cfg.inChannels x b x' b' →
      Same (encode cfg net w x) b (encode cfg net w x') b' := by
  unfold VqVae.encode at h
  obtain ⟨s1, e1, h⟩ := bind_ok h
  obtain ⟨s2, e2, h⟩ := bind_ok h
  obtain ⟨s3, e3, h⟩ := bind_ok h
  obtain ⟨s4, e4, h⟩ := bind_ok h
  have h1 := conv_hasSize e1 hx w.convIn
  have h2 := runLevels_spec (b := b) (b' := b') w _ (downsample cfg.withConv)
    (fun v c x s s' e hx => ⟨(downsample_hasSize e hx v).1, fun x' hx' =>
      downsample_same _ v c (downsample_hasSize e hx v).2 hx'⟩) net.levels 0 _ _ e2 h1
  have h3 := mid_spec (b := b) (b' := b') w e3 h2.1
  rw [keep_eq e4] at h
  unfold encode
  refine ⟨conv_hasSize h (show HasSize (swish _) s3 from norm_hasSize (blockNorm cfg) net.c w.normOut h3.1) w.convOut,
    fun x' hx' => ?_⟩
  exact conv_same _ 3 1 1 _ (swish_same (norm_same _ _ _ (h3.2 _ (h2.2 _ (conv_same _ 3 1 1 _ hx')))) _)

theorem decode_spec {cfg : Config} {net : Net} (w : NetW) (h : VqVae.decode cfg net s = .ok s') (hx : HasSize x s) :
    HasSize (decode cfg net w x) s' ∧ ∀ x' : Image ℝ, SameImage cfg.embedDim x b x' b' →
      Same (decode cfg net w x) b (decode cfg net w x') b' := by
  unfold VqVae.decode at h
  obtain ⟨s1, e1, h⟩ := bind_ok h
  obtain ⟨s2, e2, h⟩ := bind_ok h
  obtain ⟨s3, e3, h⟩ := bind_ok h
  obtain ⟨s4, e4, h⟩ := bind_ok h
  have h1 := conv_hasSize e1 hx w.convIn
  have h2 := mid_spec (b := b) (b' := b') w e2 h1
  have h3 := runLevels_spec (b := b) (b' := b') w _ (upsample cfg.withConv)
    (fun v c x s s' e hx => ⟨upsample_hasSize e hx v, fun x' hx' => upsample_same _ v c hx'⟩) net.levels 0 _ _ e3 h2.1
  rw [keep_eq e4] at h
  unfold decode
  refine ⟨conv_hasSize h (show HasSize (swish _) s3 from norm_hasSize (lastNorm cfg) net.c w.normOut h3.1) w.convOut,
    fun x' hx' => ?_⟩
  exact conv_same _ 3 1 1 _ (swish_same (norm_same _ _ _ (h3.2 _ (h2.2 _ (conv_same _ 3 1 1 _ hx')))) _)

end Nets

/-! ### The bottleneck acts on each pixel separately -/

section Pull

open LatentTree

variable {P Q : Type}

def pullLat (f : Q → P) (l : Lat P) : Lat Q := ⟨l.dim, fun q => l.val (f q)⟩

/-- The record at some pixels, without the byte count. -/
def pullRec (f : Q → P) (r : Record P) : Record Q where
  latent := r.latent.map (pullLat f)
  prequantized := r.prequantized.map (pullLat f)
  numBytes := none
  indices := r.indices.map (· ∘ f)

def pull (f : Q → P) (h : Heap P) : Heap Q := h.map (pullRec f)

theorem getLatent_pull (f : Q → P) (h : Heap P) (r : ℕ) : getLatent (pull f h) r = (getLatent h r).map (pullLat f) := by
  unfold getLatent pull
  rw [List.getElem?_map]
  cases h[r]? <;> rfl

theorem pull_setLatent (f : Q → P) (h : Heap P) (r : ℕ) (l : Lat P) :
    pull f (setLatent h r l) = setLatent (pull f h) r (pullLat f l) := by
  apply List.ext_getElem?
  intro j
  rw [getElem?_setLatent]
  unfold pull
  rw [List.getElem?_map, getElem?_setLatent, List.getElem?_map]
  split
  · cases h[j]? <;> rfl
  · rfl

theorem pullLat_id (l : Lat P) : pullLat id l = l := rfl

theorem normLat_pull (f : Q → P) (l : Lat P) : normLat (pullLat f l) = pullLat f (normLat l) := rfl

theorem call_pull (f : Q → P) (c : LatentTree.Conv) (l : Option (Lat P)) :
    c.call (l.map (pullLat f)) = (c.call l).map (pullLat f) := by
  cases l with
  | none => rfl
  | some l =>
    by_cases h : l.dim = c.inDim
    · have h' : (pullLat f l).dim = c.inDim := h
      simp only [Option.map_some, LatentTree.Conv.call, dif_pos h, dif_pos h']
      rfl
    · have h' : ¬ (pullLat f l).dim = c.inDim := h
      simp only [Option.map_some, LatentTree.Conv.call, dif_neg h, dif_neg h']
      rfl

theorem lat_of_pull {f : Q → P} {g : Heap Q} {h : Heap P} (e : pull id g = pull f h) (r : ℕ) :
    getLatent g r = (getLatent h r).map (pullLat f) := by
  have h1 := getLatent_pull id g r
  rw [e, getLatent_pull] at h1
  rw [h1]
  cases getLatent g r <;> rfl

theorem forward_pull (fl : ℝ → ℝ) (s s' : ℕ) (t : Tree) (f : Q → P) (g : Heap Q) (h : Heap P) (r : ℕ)
    (e : pull id g = pull f h) : (LatentTree.forward fl s' t g r).1 = (LatentTree.forward fl s t h r).1 ∧
      pull id (LatentTree.forward fl s' t g r).2 = pull f (LatentTree.forward fl s t h r).2 := by
  induction t generalizing g h r with
  | quantize K d cb =>
    have hl := lat_of_pull e r
    have hlen : g.length = h.length := by simpa [pull] using congrArg List.length e
    unfold LatentTree.forward
    rw [hl]
    cases hh : getLatent h r with
    | none => exact ⟨rfl, e⟩
    | some l =>
      dsimp only [Option.map_some]
      by_cases hd : l.dim = d
      · have hd' : (pullLat f l).dim = d := hd
        rw [dif_pos hd, dif_pos hd']
        refine ⟨by rw [hlen], ?_⟩
        dsimp only
        unfold pull
        rw [List.map_append, List.map_append]
        congr 1
      · have hd' : ¬ (pullLat f l).dim = d := hd
        rw [dif_neg hd, dif_neg hd']
        exact ⟨rfl, e⟩
  | normalizeOnly =>
    have hl := lat_of_pull e r
    unfold LatentTree.forward
    rw [hl]
    cases hh : getLatent h r with
    | none => exact ⟨rfl, e⟩
    | some l =>
      dsimp only [Option.map_some]
      refine ⟨rfl, ?_⟩
      rw [pull_setLatent, pull_setLatent, e, normLat_pull, pullLat_id]
  | normalize child ih =>
    have hl := lat_of_pull e r
    unfold LatentTree.forward
    rw [hl]
    cases hh : getLatent h r with
    | none => exact ⟨rfl, e⟩
    | some l =>
      dsimp only [Option.map_some]
      exact ih _ _ r (by rw [pull_setLatent, pull_setLatent, e, normLat_pull, pullLat_id])
  | projectOnly i o =>
    have hl := lat_of_pull e r
    unfold LatentTree.forward
    rw [hl, call_pull]
    cases h1 : i.call (getLatent h r) with
    | error x => exact ⟨rfl, e⟩
    | ok l =>
      dsimp only [Except.map]
      have := call_pull f o (some l)
      rw [Option.map_some] at this
      rw [this]
      cases h2 : o.call (some l) with
      | error x => exact ⟨rfl, e⟩
      | ok l' =>
        dsimp only [Except.map]
        exact ⟨rfl, by rw [pull_setLatent, pull_setLatent, e, pullLat_id]⟩
  | project i o child ih =>
    have hl := lat_of_pull e r
    unfold LatentTree.forward
    rw [hl, call_pull]
    cases h1 : i.call (getLatent h r) with
    | error x => exact ⟨rfl, e⟩
    | ok l =>
      dsimp only [Except.map]
      have hi := ih (setLatent g r (pullLat f l)) (setLatent h r l) r
        (by rw [pull_setLatent, pull_setLatent, e, pullLat_id])
      rcases h2 : LatentTree.forward fl s' child (setLatent g r (pullLat f l)) r with ⟨r1, g1⟩
      rcases h3 : LatentTree.forward fl s child (setLatent h r l) r with ⟨r2, k1⟩
      rw [h2, h3] at hi
      obtain ⟨hi1, hi2⟩ := hi
      dsimp only at hi1 hi2
      subst hi1
      cases r1 with
      | error x => exact ⟨rfl, hi2⟩
      | ok r' =>
        dsimp only
        rw [lat_of_pull hi2, call_pull]
        cases h4 : o.call (getLatent k1 r') with
        | error x => exact ⟨rfl, hi2⟩
        | ok l' =>
          dsimp only [Except.map]
          exact ⟨rfl, by rw [pull_setLatent, pull_setLatent, hi2, pullLat_id]⟩

end Pull

/-! ### The autoencoder -/

/-- The pixels of image `b`. -/
def pixels (H W b : ℕ) (q : { q : ℕ × ℕ // q.1 < H ∧ q.2 < W }) : Pixel := (b, q.1.1, q.1.2)

theorem pullLat_toLat {C : ℕ} {z z' : Image ℝ} {b b' : ℕ} (h : SameImage C z b z' b') :
    pullLat (pixels z.height z.width b) (toLat C z) = pullLat (pixels z.height z.width b') (toLat C z') := by
  unfold pullLat toLat pixels
  congr 1
  funext q k
  exact h.2.2 k k.2 _ q.2.1 _ q.2.2

theorem bottleneck_same {C : ℕ} {z z' : Image ℝ} {b b' : ℕ} (fl : ℝ → ℝ) (n n' : ℕ) (t : Option LatentTree.Tree)
    (h : SameImage C z b z' b') :
    (∃ e, runBottleneck fl n t C z = .error e ∧ runBottleneck fl n' t C z' = .error e) ∨
      ∃ r r', runBottleneck fl n t C z = .ok r ∧ runBottleneck fl n' t C z' = .ok r' ∧
        pullRec (pixels z.height z.width b) r = pullRec (pixels z.height z.width b') r' := by
  have hrec : pullRec (pixels z.height z.width b) ({ latent := some (toLat C z) } : LatentTree.Record Pixel) =
      pullRec (pixels z.height z.width b') { latent := some (toLat C z') } := by
    simp only [pullRec, Option.map_some, Option.map_none, pullLat_toLat h]
  unfold runBottleneck
  cases t with
  | none => exact Or.inr ⟨_, _, rfl, rfl, hrec⟩
  | some t =>
    dsimp only
    have e1 := forward_pull fl (n * z.height * z.width) 0 t (pixels z.height z.width b)
      (pull (pixels z.height z.width b) [{ latent := some (toLat C z) }]) [{ latent := some (toLat C z) }] 0 rfl
    have e2 := forward_pull fl (n' * z'.height * z'.width) 0 t (pixels z.height z.width b')
      (pull (pixels z.height z.width b) [{ latent := some (toLat C z) }]) [{ latent := some (toLat C z') }] 0
      (by
        unfold pull
        rw [List.map_singleton, List.map_singleton, List.map_singleton, hrec]
        rfl)
    rcases h1 : LatentTree.forward fl (n * z.height * z.width) t [{ latent := some (toLat C z) }] 0 with ⟨r1, k1⟩
    rcases h2 : LatentTree.forward fl (n' * z'.height * z'.width) t [{ latent := some (toLat C z') }] 0 with ⟨r2, k2⟩
    rw [h1] at e1
    rw [h2] at e2
    have hr : r1 = r2 := e1.1.symm.trans e2.1
    have hk : pull (pixels z.height z.width b) k1 = pull (pixels z.height z.width b') k2 := e1.2.symm.trans e2.2
    subst hr
    cases r1 with
    | error e => exact Or.inl ⟨_, rfl, rfl⟩
    | ok r =>
      refine Or.inr ⟨_, _, rfl, rfl, ?_⟩
      have := congrArg (fun l => l[r]?) hk
      simp only [pull, List.getElem?_map] at this
      cases ha : k1[r]? with
      | none =>
        rw [ha] at this
        cases hb : k2[r]? with
        | none => rfl
        | some v => rw [hb] at this; cases this
      | some u =>
        rw [ha] at this
        cases hb : k2[r]? with
        | none => rw [hb] at this; cases this
        | some v =>
          rw [hb] at this
          simpa using this

theorem ofLat_same {H W b b' : ℕ} {l l' : LatentTree.Lat Pixel} (h : pullLat (pixels H W b) l = pullLat (pixels H W b') l') :
    Same (ofLat H W l) b (ofLat H W l') b' := by
  obtain ⟨d, v⟩ := l
  obtain ⟨d', v'⟩ := l'
  have hd : d = d' := congrArg LatentTree.Lat.dim h
  subst hd
  rw [same_iff]
  refine ⟨rfl, rfl, fun c i hi j hj => ?_⟩
  unfold pullLat at h
  injection h with _ h
  simp only [ofLat]
  split
  · rename_i hc
    exact congrFun (congrFun h ⟨(i, j), hi, hj⟩) ⟨c, hc⟩
  · rfl

theorem pad_ok {cfg : Config} {x y : Image ℝ} (h : padded cfg x = .ok y) {b b' C : ℕ} {x' : Image ℝ}
    (hx : SameImage C x b x' b') : ∃ y', padded cfg x' = .ok y' ∧ SameImage C y b y' b' := by
  obtain ⟨h1, h2, h3⟩ := hx
  unfold padded at h ⊢
  rw [← h1, ← h2]
  dsimp only at h ⊢
  split at h
  · rename_i hc
    rw [if_pos hc]
    unfold padEnd at h ⊢
    rw [← h1, ← h2]
    split at h
    · rename_i y0 hy
      cases h
      split at hy
      · rename_i ha
        cases hy
        rw [if_pos ha]
        refine ⟨_, rfl, rfl, rfl, fun c hcC i hi j hj => ?_⟩
        simp only [Bool.and_eq_true, PadMode.allowed, decide_eq_true_eq] at ha
        have key : ∀ {m p i : ℕ}, p < m → i < m + p → ∃ i', PadMode.reflect.source m i = some i' ∧ i' < m := by
          intro m p i hp hi
          by_cases hlt : i < m
          · exact ⟨i, by simp only [PadMode.source, if_pos hlt], hlt⟩
          · exact ⟨2 * (m - 1) - i, by simp only [PadMode.source, if_neg hlt], by omega⟩
        obtain ⟨i', e1, hi'⟩ := key ha.1 hi
        obtain ⟨j', e2, hj'⟩ := key ha.2 hj
        simp only [e1, e2]
        exact h3 c hcC _ hi' _ hj'
      · cases hy
    · cases h
  · rename_i hc
    rw [if_neg hc]
    cases h
    exact ⟨_, rfl, h1, h2, h3⟩

theorem checked_ok {r : Except VqVae.Err Shape} {u : Unit} (h : checked r = .ok u) : ∃ s, r = .ok s := by
  unfold checked at h
  split at h
  · exact ⟨_, rfl⟩
  · cases h

theorem encode_ok {m : Codec} {n : ℕ} {x z : Image ℝ} (h : m.encode n x = .ok z) :
    z = VqVaeNet.encode m.cfg m.layers.enc m.encW x ∧
      ∃ s, VqVae.encode m.cfg m.layers.enc ⟨n, m.cfg.inChannels, x.height, x.width⟩ = .ok s := by
  unfold Codec.encode at h
  obtain ⟨u, e, h⟩ := bind_ok h
  cases h
  exact ⟨rfl, checked_ok e⟩

theorem decode_ok {m : Codec} {n H W : ℕ} {l : LatentTree.Lat Pixel} {y : Image ℝ} (h : m.decode n H W l = .ok y) :
    y = VqVaeNet.decode m.cfg m.layers.dec m.decW (ofLat H W l) ∧
      ∃ s, VqVae.decode m.cfg m.layers.dec ⟨n, l.dim, H, W⟩ = .ok s := by
  unfold Codec.decode at h
  obtain ⟨u, e, h⟩ := bind_ok h
  cases h
  exact ⟨rfl, checked_ok e⟩

/-- **C134, images of a batch are independent.** In evaluation mode, for all configurations, weights and bottlenecks: if an
image occurs in two batches, of whatever sizes and at whatever places, and both are processed, then its
reconstruction and its indices are the same in both. -/
theorem C134_batch (m : Codec) (fl : ℝ → ℝ) {n n' b b' : ℕ} {x x' : Image ℝ} {o o' : Output}
    (h : m.forward fl n x = .ok o) (h' : m.forward fl n' x' = .ok o') (hx : SameImage m.cfg.inChannels x b x' b') :
    SameImage m.cfg.outCh o.image b o'.image b' ∧ SameIndices o b o' b' := by
  unfold Codec.forward at h h'
  obtain ⟨y, p, h⟩ := bind_ok h
  obtain ⟨z, e, h⟩ := bind_ok h
  obtain ⟨r, q, h⟩ := bind_ok h
  obtain ⟨i, d, h⟩ := bind_ok h
  obtain ⟨y', p', h'⟩ := bind_ok h'
  obtain ⟨z', e', h'⟩ := bind_ok h'
  obtain ⟨r', q', h'⟩ := bind_ok h'
  obtain ⟨i', d', h'⟩ := bind_ok h'
  cases h
  cases h'
  obtain ⟨y'', p'', hy⟩ := pad_ok p hx
  rw [p'] at p''
  cases p''
  obtain ⟨rfl, s, hs⟩ := encode_ok e
  obtain ⟨rfl, -⟩ := encode_ok e'
  have hz := (encode_spec (b := b) (b' := b') m.encW hs ⟨rfl, rfl⟩).2 y' hy
  generalize VqVaeNet.encode m.cfg m.layers.enc m.encW y = z at *
  generalize VqVaeNet.encode m.cfg m.layers.enc m.encW y' = z' at *
  have hz' := hz m.cfg.embedDim
  rcases bottleneck_same fl n n' m.bottleneck hz' with ⟨e, q1, -⟩ | ⟨r1, r2, q1, q2, hr⟩
  · rw [q] at q1; cases q1
  · rw [q] at q1
    rw [q'] at q2
    cases q1
    cases q2
    have hl : pullLat (pixels z.height z.width b) (r.latent.getD (toLat m.cfg.embedDim z)) =
        pullLat (pixels z.height z.width b') (r'.latent.getD (toLat m.cfg.embedDim z')) := by
      have hl := congrArg LatentTree.Record.latent hr
      simp only [pullRec] at hl
      cases h1 : r.latent with
      | none =>
        rw [h1] at hl
        cases h2 : r'.latent with
        | none => exact pullLat_toLat hz'
        | some v => rw [h2] at hl; cases hl
      | some u =>
        rw [h1] at hl
        cases h2 : r'.latent with
        | none => rw [h2] at hl; cases hl
        | some v =>
          rw [h2] at hl
          simpa using hl
    have hsz : z.height = z'.height ∧ z.width = z'.width := ⟨hz'.1, hz'.2.1⟩
    obtain ⟨rfl, s2, hs2⟩ := decode_ok d
    obtain ⟨rfl, -⟩ := decode_ok d'
    rw [← hsz.1, ← hsz.2]
    have hd := (decode_spec (b := b) (b' := b') m.decW hs2
      (⟨rfl, rfl⟩ : HasSize (ofLat z.height z.width _) _)).2 _ (ofLat_same hl _)
    obtain ⟨d1, d2, d3⟩ := hd m.cfg.outCh
    refine ⟨⟨?_, ?_, ?_⟩, ?_⟩
    · simp only [Image.crop, hx.1, d1]
    · simp only [Image.crop, hx.2.1, d2]
    · intro c hc i hi j hj
      simp only [Image.crop] at hi hj ⊢
      exact d3 c hc i (by omega) j (by omega)
    · refine ⟨rfl, ?_⟩
      have hi := congrArg LatentTree.Record.indices hr
      simp only [pullRec] at hi
      dsimp only
      cases h1 : r.indices with
      | none =>
        rw [h1] at hi
        cases h2 : r'.indices with
        | none => trivial
        | some v => rw [h2] at hi; cases hi
      | some u =>
        rw [h1] at hi
        cases h2 : r'.indices with
        | none => rw [h2] at hi; cases hi
        | some v =>
          rw [h2] at hi
          dsimp only
          intro i hi1 j hj1
          have := Option.some.inj hi
          exact congrFun this ⟨(i, j), hi1, hj1⟩

/-- **C134, the indices and the size are the image.** In exact arithmetic, with a quantiser in the bottleneck: two images with the same
indices and sizes, in whatever batches, have the same reconstruction. -/
theorem C134_receiver (m : Codec) {t : LatentTree.Tree} (ht : m.bottleneck = some t) (hb : LatentTree.Built t)
    (hf : LatentTree.Fits t m.cfg.embedDim) (hq : LatentTree.Quantizes t) {n n' b b' : ℕ} {x x' : Image ℝ} {o o' : Output}
    (h : m.forward id n x = .ok o) (h' : m.forward id n' x' = .ok o') (hi : SameIndices o b o' b')
    (hh : x.height = x'.height) (hw : x.width = x'.width) :
    SameImage m.cfg.outCh o.image b o'.image b' := by
  obtain ⟨K, dec, hdec⟩ := LatentTree.C119_determined_partial t m.cfg.embedDim hb hf hq
  have run : ∀ (n : ℕ) (x : Image ℝ) (o : Output), m.forward id n x = .ok o → ∃ (ix : Pixel → Fin (K + 1)),
      o.indices = some (fun p => (ix p : ℕ)) ∧
      (∃ s, VqVae.decode m.cfg m.layers.dec ⟨n, m.cfg.embedDim, o.size.1, o.size.2⟩ = .ok s) ∧
      o.image = (VqVaeNet.decode m.cfg m.layers.dec m.decW
        (ofLat o.size.1 o.size.2 ⟨m.cfg.embedDim, fun p => dec (ix p)⟩)).crop x.height x.width := by
    intro n x o h
    unfold Codec.forward at h
    obtain ⟨y, p, h⟩ := bind_ok h
    obtain ⟨z, e, h⟩ := bind_ok h
    obtain ⟨r, q, h⟩ := bind_ok h
    obtain ⟨i, d, h⟩ := bind_ok h
    cases h
    unfold runBottleneck at q
    rw [ht] at q
    dsimp only at q
    obtain ⟨k, rec, ix, f1, f2, f3, f4, f5, -⟩ := hdec Pixel (n * z.height * z.width)
      [{ latent := some (toLat m.cfg.embedDim z) }] 0 (toLat m.cfg.embedDim z).val rfl
    rw [f1] at q
    dsimp only at q
    rw [f3] at q
    simp only [Option.getD_some] at q
    cases q
    rw [f4] at d
    obtain ⟨rfl, s, hs⟩ := decode_ok d
    exact ⟨ix, f5, ⟨s, hs⟩, rfl⟩
  obtain ⟨ix, a1, ⟨s, a2⟩, a3⟩ := run n x o h
  obtain ⟨ix', b1, -, b3⟩ := run n' x' o' h'
  obtain ⟨e1, e2⟩ := hi
  rw [a1, b1] at e2
  dsimp only at e2
  rw [a3, b3, ← e1]
  have hl : pullLat (pixels o.size.1 o.size.2 b) ⟨m.cfg.embedDim, fun p => dec (ix p)⟩ =
      pullLat (pixels o.size.1 o.size.2 b') ⟨m.cfg.embedDim, fun p => dec (ix' p)⟩ := by
    unfold pullLat pixels
    congr 1
    funext q
    have := e2 q.1.1 q.2.1 q.1.2 q.2.2
    dsimp only
    rw [Fin.ext this]
  have hd := (decode_spec (b := b) (b' := b') m.decW a2
    (⟨rfl, rfl⟩ : HasSize (ofLat o.size.1 o.size.2 _) _)).2 _ (ofLat_same hl _)
  obtain ⟨d1, d2, d3⟩ := hd m.cfg.outCh
  refine ⟨?_, ?_, ?_⟩
  · simp only [Image.crop, hh, d1]
  · simp only [Image.crop, hw, d2]
  · intro c hc i hi j hj
    simp only [Image.crop] at hi hj ⊢
    exact d3 c hc i (by omega) j (by omega)

theorem padded_size {cfg : Config} {x : Image ℝ} {n c : ℕ} {s : Shape}
    (h : VqVae.padded cfg false ⟨n, c, x.height, x.width⟩ = .ok s) :
    ∃ y, padded cfg x = .ok y ∧ s = ⟨n, c, y.height, y.width⟩ := by
  unfold VqVae.padded at h
  unfold padded
  dsimp only at h ⊢
  split at h
  · rename_i hc
    rw [if_pos hc.2]
    unfold reflect at h
    split at h
    · rename_i ha
      cases h
      unfold padEnd
      rw [if_pos (by simpa [PadMode.allowed] using ha)]
      exact ⟨_, rfl, rfl⟩
    · cases h
  · rename_i hc
    rw [if_neg (fun hp => hc ⟨rfl, hp⟩)]
    cases h
    exact ⟨_, rfl, rfl⟩

/-- **C134, what is processed.** In evaluation mode every batch of nonempty images, unless their padding is too large for
reflection (or a group of the normalisation has only one value), is processed, if the bottleneck is made for latents of the
encoder: the reconstructions have the size of the images, and the latents are `⌈h/f⌉ × ⌈w/f⌉`. -/
theorem C134_processed (m : Codec) (S : Sensible m.cfg) (hb : build m.cfg = .ok m.layers)
    (ht : ∀ t, m.bottleneck = some t → LatentTree.Built t ∧ LatentTree.Fits t m.cfg.embedDim) {n f : ℕ} {x : Image ℝ}
    (hf : f = 2 ^ (m.cfg.chMult.length - 1)) (hn : 1 ≤ n) (hh : 1 ≤ x.height) (hw : 1 ≤ x.width)
    (ph : ceilDiv x.height f * f < 2 * x.height) (pw : ceilDiv x.width f * f < 2 * x.width)
    (he : Enough m.cfg n (ceilDiv x.height f) (ceilDiv x.width f)) :
    ∃ o, m.forward id n x = .ok o ∧ o.image.height = x.height ∧ o.image.width = x.width ∧
      o.size = (ceilDiv x.height f, ceilDiv x.width f) := by
  have hfw := C100_eval S hb hf hn hh hw ph pw he
  unfold VqVae.forward at hfw
  obtain ⟨s1, p, hfw⟩ := bind_ok hfw
  obtain ⟨s2, e, hfw⟩ := bind_ok hfw
  obtain ⟨s3, d, hfw⟩ := bind_ok hfw
  obtain ⟨rfl, hcrop⟩ := Prod.mk.inj (Except.ok.inj hfw)
  obtain ⟨y, hy, rfl⟩ := padded_size p
  have hz := (encode_spec (b := 0) (b' := 0) (x := y) m.encW e ⟨rfl, rfl⟩).1
  have henc : m.encode n y = .ok (VqVaeNet.encode m.cfg m.layers.enc m.encW y) := by
    unfold Codec.encode
    rw [e]
    rfl
  generalize VqVaeNet.encode m.cfg m.layers.enc m.encW y = z at *
  have hbn : ∃ r, runBottleneck id n m.bottleneck m.cfg.embedDim z = .ok r ∧
      (r.latent.getD (toLat m.cfg.embedDim z)).dim = m.cfg.embedDim := by
    unfold runBottleneck
    cases hm : m.bottleneck with
    | none => exact ⟨_, rfl, rfl⟩
    | some t =>
      obtain ⟨t1, t2⟩ := ht t hm
      dsimp only
      by_cases hq : LatentTree.Quantizes t
      · obtain ⟨K, dec, hdec⟩ := LatentTree.C119_determined_partial t m.cfg.embedDim t1 t2 hq
        obtain ⟨k, rec, ix, f1, f2, f3, f4, -⟩ := hdec Pixel (n * z.height * z.width)
          [{ latent := some (toLat m.cfg.embedDim z) }] 0 (toLat m.cfg.embedDim z).val rfl
        rw [f1]
        dsimp only
        rw [f3]
        exact ⟨_, rfl, by simp only [Option.getD_some, f4]⟩
      · obtain ⟨k, v, f1, -, f3⟩ := LatentTree.C119_same id (n * z.height * z.width) t m.cfg.embedDim t1 t2 hq
          [{ latent := some (toLat m.cfg.embedDim z) }] 0 (toLat m.cfg.embedDim z).val rfl
        rw [f1]
        refine ⟨_, rfl, ?_⟩
        unfold LatentTree.getLatent at f3
        cases hk : k[0]? with
        | none => rw [hk] at f3; cases f3
        | some rec =>
          rw [hk] at f3
          have : rec.latent = some ⟨m.cfg.embedDim, v⟩ := f3
          simp only [Option.getD_some, this]
  obtain ⟨r, hr, hd⟩ := hbn
  generalize hl : r.latent.getD (toLat m.cfg.embedDim z) = l at *
  obtain ⟨dim, v⟩ := l
  dsimp only at hd
  subst hd
  have hdec : m.decode n z.height z.width ⟨_, v⟩ =
      .ok (VqVaeNet.decode m.cfg m.layers.dec m.decW (ofLat z.height z.width ⟨_, v⟩)) := by
    unfold Codec.decode
    rw [hz.1, hz.2]
    dsimp only
    rw [d]
    rfl
  have hi := (decode_spec (b := 0) (b' := 0) (x := ofLat z.height z.width ⟨_, v⟩) m.decW d
    ⟨hz.1, hz.2⟩).1
  have hfwd : m.forward id n x = .ok ⟨(VqVaeNet.decode m.cfg m.layers.dec m.decW (ofLat z.height z.width ⟨_, v⟩)).crop
      x.height x.width, (z.height, z.width), ⟨_, v⟩, r.indices⟩ := by
    unfold Codec.forward
    rw [hy]
    simp only [bind, Except.bind]
    rw [henc]
    dsimp only
    rw [hr]
    dsimp only
    rw [hl, hdec]
  refine ⟨_, hfwd, ?_⟩
  dsimp only [Image.crop]
  rw [hi.1, hi.2, hz.1, hz.2]
  unfold VqVae.crop at hcrop
  injection hcrop with _ _ c1 c2
  dsimp only at c1 c2
  exact ⟨by omega, by omega, rfl⟩

/-- **C134, the projector.** For images whose sides are multiples of the factor of the autoencoder, the projector
returns the indices that the autoencoder returns in evaluation mode. -/
theorem C134_project (m : Codec) (fl : ℝ → ℝ) {n f : ℕ} {x : Image ℝ} {o : Output}
    (hf : f = 2 ^ (m.cfg.chMult.length - 1)) (hh : f ∣ x.height) (hw : f ∣ x.width) (h : m.forward fl n x = .ok o) :
    m.project fl n x = .ok o.indices := by
  have f1 : 1 ≤ f := by rw [hf]; exact Nat.one_le_two_pow
  have key : ∀ k, f ∣ k → (Hific.vqvaePad f k).toNat = 0 := by
    intro k ⟨a, ha⟩
    unfold Hific.vqvaePad
    rw [ha]
    push_cast
    rw [show (f : ℤ) - (f * a - f) = f * (2 - a) by ring, Int.mul_emod_right]
    rfl
  unfold Codec.forward at h
  obtain ⟨y, p, h⟩ := bind_ok h
  obtain ⟨z, e, h⟩ := bind_ok h
  obtain ⟨r, q, h⟩ := bind_ok h
  obtain ⟨i, d, h⟩ := bind_ok h
  cases h
  unfold padded at p
  rw [show factor m.cfg = f from hf.symm] at p
  dsimp only at p
  rw [key _ hh, key _ hw, if_neg (by simp)] at p
  cases p
  unfold Codec.project
  rw [e]
  simp only [bind, Except.bind]
  rw [q]

/-! ### A pixel reaches everywhere -/

namespace Reach

/-- Copies the first channel to all. -/
def copyW : ConvW := ⟨fun _ c di dj => if c = 0 ∧ di = 1 ∧ dj = 1 then 1 else 0, fun _ => 0⟩

def zeroW : ConvW := ⟨fun _ _ _ _ => 0, fun _ => 0⟩

def plainNorm : NormW := ⟨fun _ => 1, fun _ => 0⟩

def resW : ResW := ⟨plainNorm, zeroW, plainNorm, zeroW, zeroW⟩

def attnW : AttnW := ⟨plainNorm, fun _ => ⟨fun _ => 1, fun _ _ _ _ _ => 0, fun _ _ _ => 0, fun _ _ _ _ => 0, fun _ _ => 0⟩⟩

/-- All residual and attention blocks are the identity. -/
def netW : NetW := ⟨copyW, fun _ _ => resW, fun _ _ => attnW, fun _ => copyW, resW, attnW, resW, plainNorm, copyW⟩

def config : Config := ⟨16, 3, [1], 1, [16], true, 3, 256, 256, .group⟩

def codec : Codec :=
  ⟨config, ⟨⟨[⟨[(16, 16)], [], none⟩], 16⟩, ⟨[⟨[(16, 16), (16, 16)], [], none⟩], 16⟩⟩, netW, netW, none⟩

/-- A row of `N` pixels, the same in all channels and images. -/
def Line (N : ℕ) (v : ℕ → ℝ) (x : Image ℝ) : Prop :=
  x.height = 1 ∧ x.width = N ∧ ∀ b c, ∀ j < N, x.pix b c 0 j = v j

/-- A row of `N` pixels, the same in all images; only the first channel matters. -/
def First (N : ℕ) (v : ℕ → ℝ) (x : Image ℝ) : Prop :=
  x.height = 1 ∧ x.width = N ∧ ∀ b, ∀ j < N, x.pix b 0 0 j = v j

variable {N : ℕ} {v : ℕ → ℝ} {x : Image ℝ}

theorem Line.first (h : Line N v x) : First N v x := ⟨h.1, h.2.1, fun b => h.2.2 b 0⟩

theorem copy_line (hN : 1 ≤ N) (cin : ℕ) (hc : 1 ≤ cin) (h : First N v x) : Line N v (conv2d cin 3 1 1 copyW x) := by
  obtain ⟨h1, h2, h3⟩ := h
  refine ⟨by simp only [conv2d, Hific.conv, h1], by simp only [conv2d, Hific.conv, h2]; omega, fun b c j hj => ?_⟩
  simp only [conv2d, copyW, zero_add]
  rw [Finset.sum_eq_single 0, Finset.sum_eq_single 1, Finset.sum_eq_single 1]
  · simp only [and_self, if_true, one_mul]
    unfold zeroPadded
    rw [if_pos (by simp [h1, h2]; omega)]
    have : ((0 : ℤ) * 1 + 1 - 1).toNat = 0 ∧ ((j : ℤ) * 1 + 1 - 1).toNat = j := by omega
    simpa using h3 b j hj
  · intro k _ hk; simp [hk]
  · simp
  · intro k _ hk; simp [hk]
  · simp
  · intro k _ hk; simp [hk]
  · intro hk; simp at hk; omega

theorem zero_conv (cin k s p : ℕ) (x : Image ℝ) (b c i j : ℕ) : (conv2d cin k s p zeroW x).pix b c i j = 0 := by
  simp [conv2d, zeroW]

theorem res_line (h : Line N v x) : Line N v (resBlock .group 16 16 resW x) := by
  obtain ⟨h1, h2, h3⟩ := h
  refine ⟨h1, h2, fun b c j hj => ?_⟩
  simp only [resBlock, add, ne_eq, not_true_eq_false, if_false]
  rw [show resW.conv2 = zeroW from rfl, zero_conv, add_zero, h3 b c j hj]

theorem attn_line (h : Line N v x) : Line N v (attnBlock .group 16 attnW x) := by
  obtain ⟨h1, h2, h3⟩ := h
  refine ⟨h1, h2, fun b c j hj => ?_⟩
  simp only [attnBlock, add, attention, Norm.Xca.forward, attnW]
  rw [h3 b c j hj]
  simp

theorem mid_line (h : Line N v x) : Line N v (mid .group 16 netW x) := res_line (attn_line (res_line h))

/-- Normalisation and activation of a row, up to a positive factor. -/
theorem norm_line (h : Line N v x) : ∃ k > 0, Line N
    (fun j => ((v j - (∑ j ∈ Finset.range N, v j) / N) * k) *
      (1 / (1 + Real.exp (-((v j - (∑ j ∈ Finset.range N, v j) / N) * k)))))
    (swish (norm .group 16 plainNorm x)) := by
  obtain ⟨h1, h2, h3⟩ := h
  have hm : ∀ b g, groupMean 1 x b g = (∑ j ∈ Finset.range N, v j) / N := by
    intro b g
    unfold groupMean
    rw [h1, h2]
    simp only [Finset.sum_range_one, Nat.cast_one, one_mul]
    congr 1
    exact Finset.sum_congr rfl fun j hj => h3 _ _ _ (Finset.mem_range.1 hj)
  have hv : ∀ b g, groupVar 1 x b g = (∑ j ∈ Finset.range N, (v j - (∑ j ∈ Finset.range N, v j) / N) ^ 2) / N := by
    intro b g
    unfold groupVar
    rw [h1, h2]
    simp only [Finset.sum_range_one, Nat.cast_one, one_mul, hm]
    congr 1
    exact Finset.sum_congr rfl fun j hj => by rw [h3 _ _ _ (Finset.mem_range.1 hj)]
  refine ⟨1 / √((∑ j ∈ Finset.range N, (v j - (∑ j ∈ Finset.range N, v j) / N) ^ 2) / N + 1 / 1000000), ?_, h1, h2, ?_⟩
  · have : 0 ≤ (∑ j ∈ Finset.range N, (v j - (∑ j ∈ Finset.range N, v j) / N) ^ 2) / (N : ℝ) :=
      div_nonneg (Finset.sum_nonneg fun _ _ => sq_nonneg _) (Nat.cast_nonneg _)
    have := Real.sqrt_pos.2 (show 0 < (∑ j ∈ Finset.range N, (v j - (∑ j ∈ Finset.range N, v j) / N) ^ 2) / (N : ℝ) +
      1 / 1000000 by linarith)
    positivity
  · intro b c j hj
    simp only [swish, norm, groupNorm, plainNorm, one_mul, add_zero]
    rw [h3 b c j hj]
    simp only [show 16 / 16 = 1 from rfl, hm, hv, div_eq_mul_inv, one_mul]

theorem stage_line (hN : 1 ≤ N) (h : Line N v x) : ∃ k > 0, Line N
    (fun j => ((v j - (∑ j ∈ Finset.range N, v j) / N) * k) *
      (1 / (1 + Real.exp (-((v j - (∑ j ∈ Finset.range N, v j) / N) * k)))))
    (conv2d 16 3 1 1 copyW (swish (norm .group 16 plainNorm x))) := by
  obtain ⟨k, hk, hl⟩ := norm_line h
  exact ⟨k, hk, copy_line hN 16 (by norm_num) hl.first⟩

theorem swish_sign {u : ℝ} : (0 < u → 0 < u * (1 / (1 + Real.exp (-u)))) ∧ (u < 0 → u * (1 / (1 + Real.exp (-u))) < 0) := by
  have : 0 < 1 / (1 + Real.exp (-u)) := by positivity
  exact ⟨fun h => mul_pos h this, fun h => mul_neg_of_neg_of_pos h this⟩

/-- A row whose last pixel differs from the others remains one. -/
theorem last_differs {N : ℕ} (hN : 2 ≤ N) {v : ℕ → ℝ} {a d k : ℝ} (hk : 0 < k) (ha : ∀ j < N - 1, v j = a) (hd : v (N - 1) = d)
    (had : a < d) : ∃ a' d', a' < 0 ∧ 0 < d' ∧ ∀ j < N,
      ((v j - (∑ j ∈ Finset.range N, v j) / N) * k) *
        (1 / (1 + Real.exp (-((v j - (∑ j ∈ Finset.range N, v j) / N) * k)))) = if j = N - 1 then d' else a' := by
  have hs : ∑ j ∈ Finset.range N, v j = (N - 1) * a + d := by
    obtain ⟨M, rfl⟩ : ∃ M, N = M + 1 := ⟨N - 1, by omega⟩
    rw [Finset.sum_range_succ]
    simp only [Nat.add_sub_cancel] at ha hd
    rw [hd, Finset.sum_congr rfl (fun j hj => ha j (Finset.mem_range.1 hj)), Finset.sum_const, Finset.card_range]
    push_cast
    simp
  have hN' : (2 : ℝ) ≤ N := by exact_mod_cast hN
  have m1 : a - ((N - 1) * a + d) / N < 0 := by
    have : a - ((N - 1) * a + d) / N = (a - d) / N := by field_simp; ring
    rw [this]
    exact div_neg_of_neg_of_pos (by linarith) (by linarith)
  have m2 : 0 < d - ((N - 1) * a + d) / N := by
    have : d - ((N - 1) * a + d) / N = (N - 1) * (d - a) / N := by field_simp; ring
    rw [this]
    exact div_pos (mul_pos (by linarith) (by linarith)) (by linarith)
  refine ⟨_, _, swish_sign.2 (mul_neg_of_neg_of_pos m1 hk), swish_sign.1 (mul_pos m2 hk), fun j hj => ?_⟩
  rw [hs]
  by_cases hj' : j = N - 1
  · rw [if_pos hj', hj', hd]
  · rw [if_neg hj', ha j (by omega)]

theorem encode_line (hN : 1 ≤ N) (h : First N v x) : ∃ k > 0, Line N
    (fun j => ((v j - (∑ j ∈ Finset.range N, v j) / N) * k) *
      (1 / (1 + Real.exp (-((v j - (∑ j ∈ Finset.range N, v j) / N) * k)))))
    (VqVaeNet.encode config codec.layers.enc netW x) :=
  stage_line hN (mid_line (res_line (copy_line hN 3 (by norm_num) h)))

theorem decode_line (hN : 1 ≤ N) (h : First N v x) : ∃ k > 0, Line N
    (fun j => ((v j - (∑ j ∈ Finset.range N, v j) / N) * k) *
      (1 / (1 + Real.exp (-((v j - (∑ j ∈ Finset.range N, v j) / N) * k)))))
    (VqVaeNet.decode config codec.layers.dec netW x) :=
  stage_line hN (res_line (res_line (mid_line (copy_line hN 256 (by norm_num) h))))

theorem sensible : Sensible codec.cfg := ⟨by decide, by decide, by decide, by decide⟩

theorem built : build codec.cfg = .ok codec.layers := rfl

theorem image_line (hN : 2 ≤ N) (h : First N v x) : ∃ o k k', 0 < k ∧ 0 < k' ∧ codec.forward id 1 x = .ok o ∧
    let v' := fun j => ((v j - (∑ j ∈ Finset.range N, v j) / N) * k) *
      (1 / (1 + Real.exp (-((v j - (∑ j ∈ Finset.range N, v j) / N) * k))))
    ∀ j < N, o.image.pix 0 0 0 j = ((v' j - (∑ j ∈ Finset.range N, v' j) / N) * k') *
      (1 / (1 + Real.exp (-((v' j - (∑ j ∈ Finset.range N, v' j) / N) * k')))) := by
  obtain ⟨h1, h2, h3⟩ := h
  have hc : ∀ k, ceilDiv k 1 = k := fun k => by simp [ceilDiv]
  obtain ⟨o, ho, -⟩ := C134_processed codec sensible built (fun t ht => by cases ht) (n := 1) (f := 1) (x := x) rfl le_rfl
    (by omega) (by omega) (by rw [hc]; omega) (by rw [hc]; omega)
    (Or.inr (Or.inl (by rw [hc, hc, h1, h2]; omega)))
  obtain ⟨k, hk, hl⟩ := encode_line (N := N) (v := v) (x := x) (by omega) ⟨h1, h2, h3⟩
  have ho' := ho
  unfold Codec.forward at ho'
  obtain ⟨y, p, ho'⟩ := bind_ok ho'
  obtain ⟨z, e, ho'⟩ := bind_ok ho'
  obtain ⟨r, q, ho'⟩ := bind_ok ho'
  obtain ⟨i, d, ho'⟩ := bind_ok ho'
  have hy : y = x := by
    unfold padded at p
    have hp : ∀ n : ℕ, Hific.vqvaePad (factor codec.cfg) n = 0 := by
      intro n
      show ((1 : ℕ) - ((n : ℤ) - (1 : ℕ))) % ((1 : ℕ) : ℤ) = 0
      simp
    rw [hp, hp] at p
    simp at p
    exact p.symm
  subst hy
  obtain ⟨rfl, -⟩ := encode_ok e
  obtain ⟨rfl, -⟩ := decode_ok d
  have hq : r = { latent := some (toLat 256 (VqVaeNet.encode config codec.layers.enc netW y)) } := by
    have : runBottleneck id 1 codec.bottleneck codec.cfg.embedDim
      (VqVaeNet.encode codec.cfg codec.layers.enc codec.encW y) =
        .ok { latent := some (toLat 256 (VqVaeNet.encode config codec.layers.enc netW y)) } := rfl
    rw [this] at q
    exact (Except.ok.inj q).symm
  subst hq
  have hlat : First N (fun j => ((v j - (∑ j ∈ Finset.range N, v j) / N) * k) *
      (1 / (1 + Real.exp (-((v j - (∑ j ∈ Finset.range N, v j) / N) * k)))))
      (ofLat (VqVaeNet.encode config codec.layers.enc netW y).height
      (VqVaeNet.encode config codec.layers.enc netW y).width
      (toLat 256 (VqVaeNet.encode config codec.layers.enc netW y))) :=
    ⟨hl.1, hl.2.1, fun b j hj => by
      have hdim : 0 < (toLat 256 (VqVaeNet.encode config codec.layers.enc netW y)).dim := by norm_num [toLat]
      unfold ofLat
      dsimp only
      rw [dif_pos hdim]
      exact hl.2.2 b 0 j hj⟩
  obtain ⟨k', hk', hd⟩ := decode_line (by omega) hlat
  refine ⟨o, k, k', hk, hk', ho, fun j hj => ?_⟩
  have hoi := congrArg Output.image (Except.ok.inj ho')
  rw [← hoi]
  exact hd.2.2 0 0 j hj

end Reach

/-- **C134, a pixel reaches everywhere.** There is an autoencoder, of the normalisation that is the default, such that
for every distance a pixel that far away changes the reconstruction of a pixel: no part of an image can be coded without
the rest of the image. -/
theorem C134_global : ∃ m : Codec, Sensible m.cfg ∧ build m.cfg = .ok m.layers ∧ m.cfg.norm = .group ∧
    ∀ N, 2 ≤ N → ∃ (x x' : Image ℝ) (o o' : Output), x.height = 1 ∧ x.width = N ∧ x'.height = 1 ∧ x'.width = N ∧
      (∀ b c i j, j ≠ N - 1 → x.pix b c i j = x'.pix b c i j) ∧ m.forward id 1 x = .ok o ∧ m.forward id 1 x' = .ok o' ∧
      o.image.pix 0 0 0 0 ≠ o'.image.pix 0 0 0 0 := by
  refine ⟨Reach.codec, Reach.sensible, Reach.built, rfl, fun N hN => ?_⟩
  let v : ℕ → ℝ := fun j => if j = N - 1 then 1 else 0
  obtain ⟨o, k, k', hk, hk', ho, hp⟩ := Reach.image_line (N := N) (v := fun _ => 0) (x := ⟨1, N, fun _ _ _ _ => 0⟩) hN
    ⟨rfl, rfl, fun _ _ _ => rfl⟩
  obtain ⟨o', l, l', hl, hl', ho', hp'⟩ := Reach.image_line (N := N) (v := v) (x := ⟨1, N, fun _ _ _ j => v j⟩) hN
    ⟨rfl, rfl, fun _ _ _ => rfl⟩
  refine ⟨_, _, o, o', rfl, rfl, rfl, rfl, fun b c i j hj => ?_, ho, ho', ?_⟩
  · simp [v, hj]
  · have z : o.image.pix 0 0 0 0 = 0 := by
      rw [hp 0 (by omega)]
      simp
    obtain ⟨a', d', ha, hd, hs⟩ := Reach.last_differs (N := N) hN (v := v) (a := 0) (d := 1) hl
      (fun j hj => by simp [v]; omega) (by simp [v]) one_pos
    obtain ⟨a'', d'', ha', hd', hs'⟩ := Reach.last_differs (N := N) hN (a := a') (d := d') hl'
      (fun j hj => (hs j (by omega)).trans (if_neg (by omega))) ((hs (N - 1) (by omega)).trans (if_pos rfl)) (ha.trans hd)
    rw [z, hp' 0 (by omega), hs' 0 (by omega), if_neg (by omega)]
    exact ha'.ne'

/-! ### Examples -/

/-- The hypotheses can be met: the default configuration with the bottleneck of the zoo (256 channels projected to 8,
normalised and quantised with 1024 entries), any weights, and images of 500 × 333. -/
example (w w' : NetW) (i o : LatentTree.Conv) (hi : i.inDim = 256 ∧ i.outDim = 8) (ho : o.inDim = 8 ∧ o.outDim = 256)
    (cb : Fin 1024 → Fin 8 → ℝ) (pix : ℕ → ℕ → ℕ → ℕ → ℝ) :
    ∃ m : Codec, m.cfg = defaults ∧ m.encW = w ∧ m.decW = w' ∧
      m.bottleneck = some (.project i o (.normalize (.quantize 1023 8 cb))) ∧
      ∃ r, m.forward id 2 ⟨500, 333, pix⟩ = .ok r ∧ r.size = (32, 21) := by
  obtain ⟨l, hl⟩ := (C100_build defaults_sensible).1 (by decide : (16 : ℕ) ∣ 128)
  obtain ⟨r, h1, -, -, h2⟩ := C134_processed
    ⟨defaults, l, w, w', some (.project i o (.normalize (.quantize 1023 8 cb)))⟩ defaults_sensible hl
    (fun t ht => by
      cases ht
      simp [LatentTree.Built, LatentTree.Fits, hi, ho, defaults])
    (n := 2) (f := 16) (x := ⟨500, 333, pix⟩) rfl (by decide) (by show 1 ≤ 500; decide) (by show 1 ≤ 333; decide)
    (by show ceilDiv 500 16 * 16 < 2 * 500; decide) (by show ceilDiv 333 16 * 16 < 2 * 333; decide)
    (Or.inr (Or.inl (by show 2 ≤ 2 * ceilDiv 500 16 * ceilDiv 333 16; decide)))
  exact ⟨_, rfl, rfl, rfl, rfl, r, h1, h2.trans (show (ceilDiv 500 16, ceilDiv 333 16) = _ by decide)⟩

/-- The two batches of one and two images, with the same image at different places. -/
example (f : ℕ → ℕ → ℕ → ℝ) : SameImage 3 ⟨500, 333, fun _ c i j => f c i j⟩ 0
    ⟨500, 333, fun b c i j => if b = 1 then f c i j else 0⟩ 1 :=
  ⟨rfl, rfl, fun _ _ _ _ _ _ => rfl⟩

end Verif.Models.VqVaeNet
