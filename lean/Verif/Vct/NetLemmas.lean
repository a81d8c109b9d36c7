import Verif.Vct.Net
import Verif.Models.PropsHificNet
import Verif.Vct.PropsAgree
import Mathlib.Tactic.Linarith

/-!
Lemmas for C133: how far the layers of the video codec look.
-/

namespace Verif.Vct.Net

open Verif Verif.Functional Verif.Models Verif.Models.HificNet

/-! ### Layers -/

theorem makeConv5_near {cin : ℕ} {S R y z e f : ℤ} (hS : 0 ≤ S) (w : ConvW) {x x' : Image ℝ} {b b' : ℕ}
    (hx : Pos x) (hx' : Pos x') (h : Near cin S (R + S * 2) y z (2 * e) (2 * f) x b x' b') (K : ℕ) :
    Near K (2 * S) R y z e f (makeConv cin 5 2 w x) b (makeConv cin 5 2 w x') b' := by
  have := conv_near (p := 2) (s := 2) (e := e) (f := f) (by norm_num) hS w hx hx' (by simpa using h) K
  simpa [makeConv] using this

theorem conv1_near {cin : ℕ} {S R y z e f : ℤ} (hS : 0 ≤ S) (w : ConvW) {x x' : Image ℝ} {b b' : ℕ}
    (hx : Pos x) (hx' : Pos x') (h : Near cin S R y z e f x b x' b') (K : ℕ) :
    Near K S R y z e f (HificNet.conv2d cin 1 1 0 w x) b (HificNet.conv2d cin 1 1 0 w x') b' := by
  have := conv_near (p := 0) (s := 1) (e := e) (f := f) (by norm_num) hS w hx hx' (by simpa using h) K
  simpa using this

theorem makeDeconv_near {cin : ℕ} {S R y z e f : ℤ} (hS : 0 ≤ S) (w : ConvW) {x x' : Image ℝ} {b b' : ℕ}
    (hx : Pos x) (hx' : Pos x') (h : Near cin (2 * S) (R + S * 2) y z e f x b x' b') (K : ℕ) :
    Near K S R y z (2 * e) (2 * f) (makeDeconv cin 5 2 w x) b (makeDeconv cin 5 2 w x') b' := by
  have := deconv_near (p := 2) (by norm_num) hS w hx hx' (by simpa using h) K
  simpa [makeDeconv] using this

theorem makeConv_pos (cin k s : ℕ) (w : ConvW) (x : Image ℝ) : Pos (makeConv cin k s w x) := conv_pos _ _ _ _ _ _

theorem makeDeconv_pos (cin : ℕ) (w : ConvW) (x : Image ℝ) : Pos (makeDeconv cin 5 2 w x) := deconv_pos cin 2 w x

theorem gdn_near {n : ℕ} {S R y z e f : ℤ} (inv : Bool) (w : GdnW) {x x' : Image ℝ} {b b' : ℕ} {K : ℕ}
    (h : Near (max K n) S R y z e f x b x' b') :
    Near K S R y z e f (gdn n inv w x) b (gdn n inv w x') b' := by
  intro i j hi hj
  obtain ⟨hf, hv⟩ := h i j hi hj
  refine ⟨hf, ?_⟩
  intro hin c hc
  unfold gdn
  dsimp only
  rw [hv hin c (lt_of_lt_of_le hc (le_max_left _ _))]
  congr 2
  · congr 2
    refine Finset.sum_congr rfl fun k hk => ?_
    rw [hv hin k (lt_of_lt_of_le (Finset.mem_range.1 hk) (le_max_right _ _))]
  · congr 3
    refine Finset.sum_congr rfl fun k hk => ?_
    rw [hv hin k (lt_of_lt_of_le (Finset.mem_range.1 hk) (le_max_right _ _))]

theorem gdn_pos {n : ℕ} {inv : Bool} {w : GdnW} {x : Image ℝ} (h : Pos x) : Pos (gdn n inv w x) := h

theorem leaky_near {K : ℕ} {S R y z e f : ℤ} {x x' : Image ℝ} {b b' : ℕ} (h : Near K S R y z e f x b x' b') :
    Near K S R y z e f (leakyRelu x) b (leakyRelu x') b' := by
  intro i j hi hj
  obtain ⟨hf, hv⟩ := h i j hi hj
  refine ⟨hf, ?_⟩
  intro hin c hc
  unfold leakyRelu
  dsimp only
  rw [hv hin c hc]

theorem gate_near {K : ℕ} {S R y z e f : ℤ} {x x' u u' : Image ℝ} {b b' : ℕ} (h : Near K S R y z e f x b x' b')
    (g : Near K S R y z e f u b u' b') (hu : u.height = x.height ∧ u.width = x.width) :
    Near K S R y z e f (gate x u) b (gate x' u') b' := by
  intro i j hi hj
  obtain ⟨hf, hv⟩ := h i j hi hj
  obtain ⟨-, gv⟩ := g i j hi hj
  refine ⟨hf, ?_⟩
  intro hin c hc
  unfold gate
  dsimp only
  have hin2 : InFrame u i j := by
    unfold InFrame
    rw [hu.1, hu.2]
    exact hin
  rw [hv hin c hc, gv hin2 c hc]

/-- Of one size. -/
def Same (x y : Image ℝ) : Prop := x.height = y.height ∧ x.width = y.width

theorem Same.trans {x y z : Image ℝ} (h : Same x y) (g : Same y z) : Same x z := ⟨h.1.trans g.1, h.2.trans g.2⟩

theorem Same.symm {x y : Image ℝ} (h : Same x y) : Same y x := ⟨h.1.symm, h.2.symm⟩

theorem Same.pos {x y : Image ℝ} (h : Same x y) (hy : Pos y) : Pos x := ⟨by rw [h.1]; exact hy.1, by rw [h.2]; exact hy.2⟩

theorem conv_same (cin p : ℕ) (w : ConvW) (x : Image ℝ) (hx : Pos x) :
    Same (HificNet.conv2d cin (2 * p + 1) 1 p w x) x := by
  have := hx.1
  have := hx.2
  unfold Same HificNet.conv2d Hific.conv
  dsimp only
  omega

theorem unit_same (N : ℕ) (w : UnitW) (x : Image ℝ) (hx : Pos x) : Same (residualUnit N w x) x := by
  have h0 : Same (makeConv N 1 1 w.conv0 x) x := conv_same N 0 w.conv0 x hx
  have h1 : Same (makeConv (N / 2) 3 1 w.conv1 (relu (makeConv N 1 1 w.conv0 x))) (makeConv N 1 1 w.conv0 x) :=
    conv_same (N / 2) 1 w.conv1 (relu (makeConv N 1 1 w.conv0 x)) (makeConv_pos N 1 1 w.conv0 x)
  have h2 := conv_same (N / 2) 0 w.conv2 (relu (makeConv (N / 2) 3 1 w.conv1 (relu (makeConv N 1 1 w.conv0 x))))
    (makeConv_pos (N / 2) 3 1 w.conv1 (relu (makeConv N 1 1 w.conv0 x)))
  exact Same.trans h2 (Same.trans h1 h0)

theorem unit_near {N : ℕ} {S R y z e f : ℤ} (hS : 0 ≤ S) (w : UnitW) {x x' : Image ℝ} {b b' : ℕ}
    (hx : Pos x) (hx' : Pos x') {K : ℕ} (h : Near (max K N) S (R + S) y z e f x b x' b') :
    Near K S R y z e f (residualUnit N w x) b (residualUnit N w x') b' := by
  unfold residualUnit
  dsimp only
  have hN : Near N S (R + S) y z e f x b x' b' := fun i j hi hj =>
    ⟨(h i j hi hj).1, fun hin c hc => (h i j hi hj).2 hin c (lt_of_lt_of_le hc (le_max_right _ _))⟩
  have hK : Near K S (R + S) y z e f x b x' b' := fun i j hi hj =>
    ⟨(h i j hi hj).1, fun hin c hc => (h i j hi hj).2 hin c (lt_of_lt_of_le hc (le_max_left _ _))⟩
  have h0 := relu_near (conv1_near hS w.conv0 hx hx' hN (N / 2))
  have h1 := relu_near (conv3_near (R := R) hS w.conv1 (relu_pos (conv_pos N 1 1 0 w.conv0 x))
    (relu_pos (conv_pos N 1 1 0 w.conv0 x')) (by rw [mul_one]; exact h0) (N / 2))
  have h2 := conv1_near hS w.conv2 (relu_pos (conv_pos (N / 2) 3 1 1 w.conv1 (relu (HificNet.conv2d N 1 1 0 w.conv0 x))))
    (relu_pos (conv_pos (N / 2) 3 1 1 w.conv1 (relu (HificNet.conv2d N 1 1 0 w.conv0 x')))) h1 K
  exact relu_near (add_near h2 (hK.mono (by linarith)) (Same.symm (unit_same N w x hx)))

theorem units_succ (N : ℕ) (w : ℕ → UnitW) (n : ℕ) (x : Image ℝ) :
    units N w (n + 1) x = residualUnit N (w n) (units N w n x) := by
  unfold units
  rw [List.range_succ, List.foldl_append]
  rfl

theorem units_same (N : ℕ) (w : ℕ → UnitW) (n : ℕ) (x : Image ℝ) (hx : Pos x) : Same (units N w n x) x := by
  induction n with
  | zero => exact ⟨rfl, rfl⟩
  | succ n ih =>
    rw [units_succ]
    exact (unit_same N (w n) _ (ih.pos hx)).trans ih

theorem units_pos (N : ℕ) (w : ℕ → UnitW) (n : ℕ) {x : Image ℝ} (hx : Pos x) : Pos (units N w n x) :=
  (units_same N w n x hx).pos hx

theorem units_near {N : ℕ} {S R y z e f : ℤ} (hS : 0 ≤ S) (w : ℕ → UnitW) (n : ℕ) {x x' : Image ℝ} {b b' : ℕ}
    (hx : Pos x) (hx' : Pos x') {K : ℕ} (h : Near (max K N) S (R + S * n) y z e f x b x' b') :
    Near K S R y z e f (units N w n x) b (units N w n x') b' := by
  induction n generalizing R K with
  | zero =>
    have h' : Near (max K N) S R y z e f x b x' b' := by simpa using h
    exact fun i j hi hj => ⟨(h' i j hi hj).1, fun hin c hc => (h' i j hi hj).2 hin c (lt_of_lt_of_le hc (le_max_left _ _))⟩
  | succ n ih =>
    rw [units_succ, units_succ]
    refine unit_near hS _ (units_pos N w n hx) (units_pos N w n hx') (ih ?_)
    have : R + S + S * (n : ℤ) = R + S * ((n + 1 : ℕ) : ℤ) := by push_cast; ring
    rw [this, max_assoc, max_self]
    exact h

theorem attention_same (N : ℕ) (w : AttentionW) (x : Image ℝ) (hx : Pos x) : Same (attentionBlock N w x) x :=
  units_same N w.unitsA 3 x hx

theorem attention_pos (N : ℕ) (w : AttentionW) {x : Image ℝ} (hx : Pos x) : Pos (attentionBlock N w x) :=
  (attention_same N w x hx).pos hx

theorem attention_near {N : ℕ} {S R y z e f : ℤ} (hS : 0 ≤ S) (w : AttentionW) {x x' : Image ℝ} {b b' : ℕ}
    (hx : Pos x) (hx' : Pos x') {K : ℕ} (h : Near (max K N) S (R + S * 3) y z e f x b x' b') :
    Near K S R y z e f (attentionBlock N w x) b (attentionBlock N w x') b' := by
  unfold attentionBlock
  dsimp only
  have hK : Near K S (R + S * 3) y z e f x b x' b' := fun i j hi hj =>
    ⟨(h i j hi hj).1, fun hin c hc => (h i j hi hj).2 hin c (lt_of_lt_of_le hc (le_max_left _ _))⟩
  have hN : Near (max N N) S (R + S * 3) y z e f x b x' b' := fun i j hi hj =>
    ⟨(h i j hi hj).1, fun hin c hc => (h i j hi hj).2 hin c (lt_of_lt_of_le hc (by simp))⟩
  have ha : Near K S R y z e f (units N w.unitsA 3 x) b (units N w.unitsA 3 x') b' :=
    units_near hS w.unitsA 3 hx hx' (by simpa using h)
  have hb : Near K S R y z e f (makeConv N 1 1 w.convB (units N w.unitsB 3 x)) b
      (makeConv N 1 1 w.convB (units N w.unitsB 3 x')) b' :=
    conv1_near hS w.convB (units_pos N w.unitsB 3 hx) (units_pos N w.unitsB 3 hx')
      (units_near hS w.unitsB 3 hx hx' (by simpa using hN)) K
  have hsb : Same (makeConv N 1 1 w.convB (units N w.unitsB 3 x)) x :=
    Same.trans (conv_same N 0 w.convB _ (units_pos N w.unitsB 3 hx)) (units_same N w.unitsB 3 x hx)
  refine add_near (gate_near ha hb (hsb.trans (units_same N w.unitsA 3 x hx).symm)) (hK.mono (by linarith)) ?_
  exact (units_same N w.unitsA 3 x hx).symm

/-! ### Transforms -/

theorem convGdnAnalysis_near {n : ℕ} {R y z e f : ℤ} (w : ConvGdnW) {x x' : Image ℝ} {b b' : ℕ} (hx : Pos x) (hx' : Pos x')
    (h : Near 3 1 (R + 30) y z (16 * e) (16 * f) x b x' b') (K : ℕ) :
    Near K 16 R y z e f (convGdnAnalysis n w x) b (convGdnAnalysis n w x') b' := by
  unfold convGdnAnalysis
  dsimp only
  have h0 : ∀ K, Near K 2 (R + 28) y z (8 * e) (8 * f) (gdn n false (w.gdn 0) (makeConv 3 5 2 (w.conv 0) x)) b
      (gdn n false (w.gdn 0) (makeConv 3 5 2 (w.conv 0) x')) b' := fun K =>
    gdn_near _ _ (makeConv5_near (S := 1) (by norm_num) _ hx hx' (by
      rw [show R + 28 + 1 * 2 = R + 30 by ring, show 2 * (8 * e) = 16 * e by ring, show 2 * (8 * f) = 16 * f by ring]
      exact h) _)
  have pu : Pos (gdn n false (w.gdn 0) (makeConv 3 5 2 (w.conv 0) x)) := gdn_pos (makeConv_pos _ _ _ _ _)
  have pu' : Pos (gdn n false (w.gdn 0) (makeConv 3 5 2 (w.conv 0) x')) := gdn_pos (makeConv_pos _ _ _ _ _)
  generalize gdn n false (w.gdn 0) (makeConv 3 5 2 (w.conv 0) x) = u at *
  generalize gdn n false (w.gdn 0) (makeConv 3 5 2 (w.conv 0) x') = u' at *
  have h1 : ∀ K, Near K 4 (R + 24) y z (4 * e) (4 * f) (gdn n false (w.gdn 1) (makeConv n 5 2 (w.conv 1) u)) b
      (gdn n false (w.gdn 1) (makeConv n 5 2 (w.conv 1) u')) b' := fun K =>
    gdn_near _ _ (makeConv5_near (S := 2) (by norm_num) _ pu pu' (by
      rw [show R + 24 + 2 * 2 = R + 28 by ring, show 2 * (4 * e) = 8 * e by ring, show 2 * (4 * f) = 8 * f by ring]
      exact h0 _) _)
  have pv : Pos (gdn n false (w.gdn 1) (makeConv n 5 2 (w.conv 1) u)) := gdn_pos (makeConv_pos _ _ _ _ _)
  have pv' : Pos (gdn n false (w.gdn 1) (makeConv n 5 2 (w.conv 1) u')) := gdn_pos (makeConv_pos _ _ _ _ _)
  generalize gdn n false (w.gdn 1) (makeConv n 5 2 (w.conv 1) u) = v at *
  generalize gdn n false (w.gdn 1) (makeConv n 5 2 (w.conv 1) u') = v' at *
  have h2 : ∀ K, Near K 8 (R + 16) y z (2 * e) (2 * f) (gdn n false (w.gdn 2) (makeConv n 5 2 (w.conv 2) v)) b
      (gdn n false (w.gdn 2) (makeConv n 5 2 (w.conv 2) v')) b' := fun K =>
    gdn_near _ _ (makeConv5_near (S := 4) (by norm_num) _ pv pv' (by
      rw [show R + 16 + 4 * 2 = R + 24 by ring, show 2 * (2 * e) = 4 * e by ring, show 2 * (2 * f) = 4 * f by ring]
      exact h1 _) _)
  exact makeConv5_near (S := 8) (by norm_num) (w.conv 3) (gdn_pos (makeConv_pos _ _ _ _ _))
    (gdn_pos (makeConv_pos _ _ _ _ _)) (by
      rw [show R + 8 * 2 = R + 16 by ring]
      exact h2 n) K

theorem convGdnSynthesis_near {n c : ℕ} {R y z e f : ℤ} (w : ConvGdnW) {x x' : Image ℝ} {b b' : ℕ} (hx : Pos x)
    (hx' : Pos x') (h : Near c 16 (R + 30) y z e f x b x' b') (K : ℕ) :
    Near K 1 R y z (16 * e) (16 * f) (convGdnSynthesis n c w x) b (convGdnSynthesis n c w x') b' := by
  unfold convGdnSynthesis
  dsimp only
  have h0 : ∀ K, Near K 8 (R + 14) y z (2 * e) (2 * f) (gdn n true (w.gdn 0) (makeDeconv c 5 2 (w.conv 0) x)) b
      (gdn n true (w.gdn 0) (makeDeconv c 5 2 (w.conv 0) x')) b' := fun K =>
    gdn_near _ _ (makeDeconv_near (S := 8) (by norm_num) _ hx hx' (by
      rw [show R + 14 + 8 * 2 = R + 30 by ring]
      exact h) _)
  have pu : Pos (gdn n true (w.gdn 0) (makeDeconv c 5 2 (w.conv 0) x)) := gdn_pos (makeDeconv_pos _ _ _)
  have pu' : Pos (gdn n true (w.gdn 0) (makeDeconv c 5 2 (w.conv 0) x')) := gdn_pos (makeDeconv_pos _ _ _)
  generalize gdn n true (w.gdn 0) (makeDeconv c 5 2 (w.conv 0) x) = u at *
  generalize gdn n true (w.gdn 0) (makeDeconv c 5 2 (w.conv 0) x') = u' at *
  have h1 : ∀ K, Near K 4 (R + 6) y z (2 * (2 * e)) (2 * (2 * f)) (gdn n true (w.gdn 1) (makeDeconv n 5 2 (w.conv 1) u)) b
      (gdn n true (w.gdn 1) (makeDeconv n 5 2 (w.conv 1) u')) b' := fun K =>
    gdn_near _ _ (makeDeconv_near (S := 4) (by norm_num) _ pu pu' (by
      rw [show R + 6 + 4 * 2 = R + 14 by ring]
      exact h0 _) _)
  have pv : Pos (gdn n true (w.gdn 1) (makeDeconv n 5 2 (w.conv 1) u)) := gdn_pos (makeDeconv_pos _ _ _)
  have pv' : Pos (gdn n true (w.gdn 1) (makeDeconv n 5 2 (w.conv 1) u')) := gdn_pos (makeDeconv_pos _ _ _)
  generalize gdn n true (w.gdn 1) (makeDeconv n 5 2 (w.conv 1) u) = v at *
  generalize gdn n true (w.gdn 1) (makeDeconv n 5 2 (w.conv 1) u') = v' at *
  have h2 : ∀ K, Near K 2 (R + 2) y z (2 * (2 * (2 * e))) (2 * (2 * (2 * f)))
      (gdn n true (w.gdn 2) (makeDeconv n 5 2 (w.conv 2) v)) b
      (gdn n true (w.gdn 2) (makeDeconv n 5 2 (w.conv 2) v')) b' := fun K =>
    gdn_near _ _ (makeDeconv_near (S := 2) (by norm_num) _ pv pv' (by
      rw [show R + 2 + 2 * 2 = R + 6 by ring]
      exact h1 _) _)
  have p3 : Pos (gdn n true (w.gdn 2) (makeDeconv n 5 2 (w.conv 2) v)) := gdn_pos (makeDeconv_pos _ _ _)
  have p3' : Pos (gdn n true (w.gdn 2) (makeDeconv n 5 2 (w.conv 2) v')) := gdn_pos (makeDeconv_pos _ _ _)
  have h3 := makeDeconv_near (cin := n) (S := 1) (R := R) (by norm_num) (w.conv 3) p3 p3' (by
      rw [show R + 1 * 2 = R + 2 by ring]
      exact h2 n) K
  rw [show 16 * e = 2 * (2 * (2 * (2 * e))) by ring, show 16 * f = 2 * (2 * (2 * (2 * f))) by ring]
  exact h3

theorem elicAnalysis_near {n : ℕ} {ch : ℕ → ℕ} (hch : ch 0 = 3) {R y z e f : ℤ} (w : ElicW) {x x' : Image ℝ} {b b' : ℕ}
    (hx : Pos x) (hx' : Pos x') (h : Near 3 1 (R + (90 + 14 * n)) y z (16 * e) (16 * f) x b x' b') (K : ℕ) :
    Near K 16 R y z e f (elicAnalysis n ch w x) b (elicAnalysis n ch w x') b' := by
  unfold elicAnalysis
  dsimp only
  have h0 : ∀ K, Near K 2 (R + 88 + 12 * n) y z (8 * e) (8 * f)
      (units (ch 1) (w.units 0) n (makeConv (ch 0) 5 2 (w.conv 0) x)) b
      (units (ch 1) (w.units 0) n (makeConv (ch 0) 5 2 (w.conv 0) x')) b' := fun K =>
    units_near (by norm_num) _ _ (makeConv_pos _ _ _ _ _) (makeConv_pos _ _ _ _ _)
      (makeConv5_near (S := 1) (by norm_num) _ hx hx' (by
      rw [show R + 88 + 12 * (n : ℤ) + 2 * n + 1 * 2 = R + (90 + 14 * n) by ring, show 2 * (8 * e) = 16 * e by ring,
        show 2 * (8 * f) = 16 * f by ring, hch]
      exact h) _)
  have pu : ∀ x, Pos (units (ch 1) (w.units 0) n (makeConv (ch 0) 5 2 (w.conv 0) x)) := fun x =>
    units_pos _ _ _ (makeConv_pos _ _ _ _ _)
  have pu1 := pu x
  have pu2 := pu x'
  generalize units (ch 1) (w.units 0) n (makeConv (ch 0) 5 2 (w.conv 0) x) = u at *
  generalize units (ch 1) (w.units 0) n (makeConv (ch 0) 5 2 (w.conv 0) x') = u' at *
  have h1 : ∀ K, Near K 4 (R + 84 + 8 * n) y z (4 * e) (4 * f)
      (units (ch 2) (w.units 1) n (makeConv (ch 1) 5 2 (w.conv 1) u)) b
      (units (ch 2) (w.units 1) n (makeConv (ch 1) 5 2 (w.conv 1) u')) b' := fun K =>
    units_near (by norm_num) _ _ (makeConv_pos _ _ _ _ _) (makeConv_pos _ _ _ _ _)
      (makeConv5_near (S := 2) (by norm_num) _ pu1 pu2 (by
      rw [show R + 84 + 8 * (n : ℤ) + 4 * n + 2 * 2 = R + 88 + 12 * n by ring, show 2 * (4 * e) = 8 * e by ring,
        show 2 * (4 * f) = 8 * f by ring]
      exact h0 _) _)
  have pv1 : Pos (units (ch 2) (w.units 1) n (makeConv (ch 1) 5 2 (w.conv 1) u)) :=
    units_pos _ _ _ (makeConv_pos _ _ _ _ _)
  have pv2 : Pos (units (ch 2) (w.units 1) n (makeConv (ch 1) 5 2 (w.conv 1) u')) :=
    units_pos _ _ _ (makeConv_pos _ _ _ _ _)
  generalize units (ch 2) (w.units 1) n (makeConv (ch 1) 5 2 (w.conv 1) u) = v at *
  generalize units (ch 2) (w.units 1) n (makeConv (ch 1) 5 2 (w.conv 1) u') = v' at *
  have h2 : ∀ K, Near K 4 (R + 72 + 8 * n) y z (4 * e) (4 * f) (attentionBlock (ch 2) (w.attn 0) v) b
      (attentionBlock (ch 2) (w.attn 0) v') b' := fun K =>
    attention_near (by norm_num) _ pv1 pv2 (by
      rw [show R + 72 + 8 * (n : ℤ) + 4 * 3 = R + 84 + 8 * n by ring]
      exact h1 _)
  have pa1 := attention_pos (ch 2) (w.attn 0) pv1
  have pa2 := attention_pos (ch 2) (w.attn 0) pv2
  generalize attentionBlock (ch 2) (w.attn 0) v = a at *
  generalize attentionBlock (ch 2) (w.attn 0) v' = a' at *
  have h3 : ∀ K, Near K 8 (R + 64) y z (2 * e) (2 * f)
      (units (ch 3) (w.units 2) n (makeConv (ch 2) 5 2 (w.conv 2) a)) b
      (units (ch 3) (w.units 2) n (makeConv (ch 2) 5 2 (w.conv 2) a')) b' := fun K =>
    units_near (by norm_num) _ _ (makeConv_pos _ _ _ _ _) (makeConv_pos _ _ _ _ _)
      (makeConv5_near (S := 4) (by norm_num) _ pa1 pa2 (by
      rw [show R + 64 + 8 * (n : ℤ) + 4 * 2 = R + 72 + 8 * n by ring, show 2 * (2 * e) = 4 * e by ring,
        show 2 * (2 * f) = 4 * f by ring]
      exact h2 _) _)
  have pb1 : Pos (units (ch 3) (w.units 2) n (makeConv (ch 2) 5 2 (w.conv 2) a)) :=
    units_pos _ _ _ (makeConv_pos _ _ _ _ _)
  have pb2 : Pos (units (ch 3) (w.units 2) n (makeConv (ch 2) 5 2 (w.conv 2) a')) :=
    units_pos _ _ _ (makeConv_pos _ _ _ _ _)
  generalize units (ch 3) (w.units 2) n (makeConv (ch 2) 5 2 (w.conv 2) a) = g at *
  generalize units (ch 3) (w.units 2) n (makeConv (ch 2) 5 2 (w.conv 2) a') = g' at *
  exact attention_near (by norm_num) _ (makeConv_pos _ _ _ _ _) (makeConv_pos _ _ _ _ _)
    (makeConv5_near (S := 8) (by norm_num) _ pb1 pb2 (by
      rw [show R + 16 * 3 + 8 * 2 = R + 64 by ring]
      exact h3 _) _)

theorem elicSynthesis_near {n : ℕ} {ch : ℕ → ℕ} {R y z e f : ℤ} (w : ElicW) {x x' : Image ℝ} {b b' : ℕ} (hx : Pos x)
    (hx' : Pos x') (h : Near (ch 0) 16 (R + (90 + 14 * n)) y z e f x b x' b') (K : ℕ) :
    Near K 1 R y z (16 * e) (16 * f) (elicSynthesis n ch w x) b (elicSynthesis n ch w x') b' := by
  unfold elicSynthesis
  dsimp only
  have h0 : Near (ch 0) 16 (R + 42 + 14 * n) y z e f (attentionBlock (ch 0) (w.attn 0) x) b
      (attentionBlock (ch 0) (w.attn 0) x') b' :=
    attention_near (by norm_num) _ hx hx' (by
      rw [show R + 42 + 14 * (n : ℤ) + 16 * 3 = R + (90 + 14 * n) by ring, max_self]
      exact h)
  have pa1 := attention_pos (ch 0) (w.attn 0) hx
  have pa2 := attention_pos (ch 0) (w.attn 0) hx'
  generalize attentionBlock (ch 0) (w.attn 0) x = a at *
  generalize attentionBlock (ch 0) (w.attn 0) x' = a' at *
  have h1 : ∀ K, Near K 8 (R + 26 + 6 * n) y z (2 * e) (2 * f)
      (units (ch 1) (w.units 0) n (makeDeconv (ch 0) 5 2 (w.conv 0) a)) b
      (units (ch 1) (w.units 0) n (makeDeconv (ch 0) 5 2 (w.conv 0) a')) b' := fun K =>
    units_near (by norm_num) _ _ (makeDeconv_pos _ _ _) (makeDeconv_pos _ _ _)
      (makeDeconv_near (S := 8) (by norm_num) _ pa1 pa2 (by
      rw [show R + 26 + 6 * (n : ℤ) + 8 * n + 8 * 2 = R + 42 + 14 * n by ring]
      exact h0) _)
  have pu1 : Pos (units (ch 1) (w.units 0) n (makeDeconv (ch 0) 5 2 (w.conv 0) a)) :=
    units_pos _ _ _ (makeDeconv_pos _ _ _)
  have pu2 : Pos (units (ch 1) (w.units 0) n (makeDeconv (ch 0) 5 2 (w.conv 0) a')) :=
    units_pos _ _ _ (makeDeconv_pos _ _ _)
  generalize units (ch 1) (w.units 0) n (makeDeconv (ch 0) 5 2 (w.conv 0) a) = u at *
  generalize units (ch 1) (w.units 0) n (makeDeconv (ch 0) 5 2 (w.conv 0) a') = u' at *
  have h2 : ∀ K, Near K 4 (R + 6 + 6 * n) y z (2 * (2 * e)) (2 * (2 * f))
      (attentionBlock (ch 2) (w.attn 1) (makeDeconv (ch 1) 5 2 (w.conv 1) u)) b
      (attentionBlock (ch 2) (w.attn 1) (makeDeconv (ch 1) 5 2 (w.conv 1) u')) b' := fun K =>
    attention_near (by norm_num) _ (makeDeconv_pos _ _ _) (makeDeconv_pos _ _ _)
      (makeDeconv_near (S := 4) (by norm_num) _ pu1 pu2 (by
      rw [show R + 6 + 6 * (n : ℤ) + 4 * 3 + 4 * 2 = R + 26 + 6 * n by ring]
      exact h1 _) _)
  have pv1 : Pos (attentionBlock (ch 2) (w.attn 1) (makeDeconv (ch 1) 5 2 (w.conv 1) u)) :=
    attention_pos _ _ (makeDeconv_pos _ _ _)
  have pv2 : Pos (attentionBlock (ch 2) (w.attn 1) (makeDeconv (ch 1) 5 2 (w.conv 1) u')) :=
    attention_pos _ _ (makeDeconv_pos _ _ _)
  generalize attentionBlock (ch 2) (w.attn 1) (makeDeconv (ch 1) 5 2 (w.conv 1) u) = v at *
  generalize attentionBlock (ch 2) (w.attn 1) (makeDeconv (ch 1) 5 2 (w.conv 1) u') = v' at *
  have h3 : ∀ K, Near K 4 (R + 6 + 2 * n) y z (2 * (2 * e)) (2 * (2 * f))
      (units (ch 2) (w.units 1) n v) b (units (ch 2) (w.units 1) n v') b' := fun K =>
    units_near (by norm_num) _ _ pv1 pv2 (by
      rw [show R + 6 + 2 * (n : ℤ) + 4 * n = R + 6 + 6 * n by ring]
      exact h2 _)
  have pg1 := units_pos (ch 2) (w.units 1) n pv1
  have pg2 := units_pos (ch 2) (w.units 1) n pv2
  generalize units (ch 2) (w.units 1) n v = g at *
  generalize units (ch 2) (w.units 1) n v' = g' at *
  have h4 : ∀ K, Near K 2 (R + 2) y z (2 * (2 * (2 * e))) (2 * (2 * (2 * f)))
      (units (ch 3) (w.units 2) n (makeDeconv (ch 2) 5 2 (w.conv 2) g)) b
      (units (ch 3) (w.units 2) n (makeDeconv (ch 2) 5 2 (w.conv 2) g')) b' := fun K =>
    units_near (by norm_num) _ _ (makeDeconv_pos _ _ _) (makeDeconv_pos _ _ _)
      (makeDeconv_near (S := 2) (by norm_num) _ pg1 pg2 (by
      rw [show R + 2 + 2 * (n : ℤ) + 2 * 2 = R + 6 + 2 * n by ring]
      exact h3 _) _)
  have pk1 : Pos (units (ch 3) (w.units 2) n (makeDeconv (ch 2) 5 2 (w.conv 2) g)) :=
    units_pos _ _ _ (makeDeconv_pos _ _ _)
  have pk2 : Pos (units (ch 3) (w.units 2) n (makeDeconv (ch 2) 5 2 (w.conv 2) g')) :=
    units_pos _ _ _ (makeDeconv_pos _ _ _)
  have h5 := makeDeconv_near (cin := ch 3) (S := 1) (R := R) (by norm_num) (w.conv 3) pk1 pk2 (by
      rw [show R + 1 * 2 = R + 2 by ring]
      exact h4 _) K
  rw [show 16 * e = 2 * (2 * (2 * (2 * e))) by ring, show 16 * f = 2 * (2 * (2 * (2 * f))) by ring]
  exact h5

theorem makeConv5_size (cin : ℕ) (w : ConvW) (x : Image ℝ) :
    (makeConv cin 5 2 w x).height = (x.height - 1) / 2 + 1 ∧ (makeConv cin 5 2 w x).width = (x.width - 1) / 2 + 1 := by
  unfold makeConv HificNet.conv2d Hific.conv
  dsimp only
  omega

theorem makeDeconv_size (cin : ℕ) (w : ConvW) {x : Image ℝ} (hx : Pos x) :
    (makeDeconv cin 5 2 w x).height = 2 * x.height ∧ (makeDeconv cin 5 2 w x).width = 2 * x.width := by
  have := hx.1
  have := hx.2
  unfold makeDeconv HificNet.convTranspose2d Hific.deconv
  dsimp only
  omega

/-- The size of the latent of an axis. -/
def latentSize (n : ℕ) : ℕ := ((((n - 1) / 2 + 1 - 1) / 2 + 1 - 1) / 2 + 1 - 1) / 2 + 1

theorem latentSize_eq (n : ℕ) (hn : 0 < n) : n ≤ 16 * latentSize n ∧ 16 * latentSize n ≤ n + 15 := by
  unfold latentSize
  omega

theorem elicAnalysis_size (n : ℕ) (ch : ℕ → ℕ) (wa : ElicW) (x : Image ℝ) :
    (elicAnalysis n ch wa x).height = latentSize x.height ∧ (elicAnalysis n ch wa x).width = latentSize x.width := by
  unfold elicAnalysis
  dsimp only
  have s1 := makeConv5_size (ch 0) (wa.conv 0) x
  have t1 := units_same (ch 1) (wa.units 0) n (makeConv (ch 0) 5 2 (wa.conv 0) x) (makeConv_pos _ _ _ _ _)
  generalize units (ch 1) (wa.units 0) n (makeConv (ch 0) 5 2 (wa.conv 0) x) = u at *
  have s2 := makeConv5_size (ch 1) (wa.conv 1) u
  have t2 := units_same (ch 2) (wa.units 1) n (makeConv (ch 1) 5 2 (wa.conv 1) u) (makeConv_pos _ _ _ _ _)
  have q2 := units_pos (ch 2) (wa.units 1) n (makeConv_pos (ch 1) 5 2 (wa.conv 1) u)
  generalize units (ch 2) (wa.units 1) n (makeConv (ch 1) 5 2 (wa.conv 1) u) = v at *
  have t3 := attention_same (ch 2) (wa.attn 0) v q2
  generalize attentionBlock (ch 2) (wa.attn 0) v = a at *
  have s3 := makeConv5_size (ch 2) (wa.conv 2) a
  have t4 := units_same (ch 3) (wa.units 2) n (makeConv (ch 2) 5 2 (wa.conv 2) a) (makeConv_pos _ _ _ _ _)
  generalize units (ch 3) (wa.units 2) n (makeConv (ch 2) 5 2 (wa.conv 2) a) = g at *
  have s4 := makeConv5_size (ch 3) (wa.conv 3) g
  have t5 := attention_same (ch 4) (wa.attn 1) (makeConv (ch 3) 5 2 (wa.conv 3) g) (makeConv_pos _ _ _ _ _)
  unfold Same at *
  unfold latentSize
  rw [t5.1, t5.2, s4.1, s4.2, t4.1, t4.2, s3.1, s3.2, t3.1, t3.2, t2.1, t2.2, s2.1, s2.2, t1.1, t1.2, s1.1, s1.2]
  exact ⟨rfl, rfl⟩

theorem analysis_size (tr : Transforms) {x : Image ℝ} :
    (tr.analysis x).height = latentSize x.height ∧ (tr.analysis x).width = latentSize x.width := by
  cases tr with
  | convGDN n c wa ws => exact ⟨rfl, rfl⟩
  | elic n ca cs wa ws =>
    unfold Transforms.analysis
    exact elicAnalysis_size n _ wa x

theorem analysis_pos (tr : Transforms) (x : Image ℝ) : Pos (tr.analysis x) := by
  have := analysis_size tr (x := x)
  unfold Pos
  rw [this.1, this.2]
  exact ⟨Nat.succ_pos _, Nat.succ_pos _⟩

theorem elicSynthesis_size (n : ℕ) (ch : ℕ → ℕ) (ws : ElicW) {x : Image ℝ} (hx : Pos x) :
    (elicSynthesis n ch ws x).height = 16 * x.height ∧ (elicSynthesis n ch ws x).width = 16 * x.width := by
  unfold elicSynthesis
  dsimp only
  have t0 := attention_same (ch 0) (ws.attn 0) x hx
  have p0 := attention_pos (ch 0) (ws.attn 0) hx
  generalize attentionBlock (ch 0) (ws.attn 0) x = a at *
  have s1 := makeDeconv_size (ch 0) (ws.conv 0) p0
  have t1 := units_same (ch 1) (ws.units 0) n (makeDeconv (ch 0) 5 2 (ws.conv 0) a) (makeDeconv_pos _ _ _)
  have p1 := units_pos (ch 1) (ws.units 0) n (makeDeconv_pos (ch 0) (ws.conv 0) a)
  generalize units (ch 1) (ws.units 0) n (makeDeconv (ch 0) 5 2 (ws.conv 0) a) = u at *
  have s2 := makeDeconv_size (ch 1) (ws.conv 1) p1
  have t2 := attention_same (ch 2) (ws.attn 1) (makeDeconv (ch 1) 5 2 (ws.conv 1) u) (makeDeconv_pos _ _ _)
  have p2 := attention_pos (ch 2) (ws.attn 1) (makeDeconv_pos (ch 1) (ws.conv 1) u)
  generalize attentionBlock (ch 2) (ws.attn 1) (makeDeconv (ch 1) 5 2 (ws.conv 1) u) = v at *
  have t3 := units_same (ch 2) (ws.units 1) n v p2
  have p3 := units_pos (ch 2) (ws.units 1) n p2
  generalize units (ch 2) (ws.units 1) n v = g at *
  have s4 := makeDeconv_size (ch 2) (ws.conv 2) p3
  have t4 := units_same (ch 3) (ws.units 2) n (makeDeconv (ch 2) 5 2 (ws.conv 2) g) (makeDeconv_pos _ _ _)
  have p4 := units_pos (ch 3) (ws.units 2) n (makeDeconv_pos (ch 2) (ws.conv 2) g)
  generalize units (ch 3) (ws.units 2) n (makeDeconv (ch 2) 5 2 (ws.conv 2) g) = k at *
  have s5 := makeDeconv_size (ch 3) (ws.conv 3) p4
  unfold Same at *
  rw [s5.1, s5.2, t4.1, t4.2, s4.1, s4.2, t3.1, t3.2, t2.1, t2.2, s2.1, s2.2, t1.1, t1.2, s1.1, s1.2, t0.1, t0.2]
  constructor <;> ring

theorem convGdnSynthesis_size (n c : ℕ) (ws : ConvGdnW) {x : Image ℝ} (hx : Pos x) :
    (convGdnSynthesis n c ws x).height = 16 * x.height ∧ (convGdnSynthesis n c ws x).width = 16 * x.width := by
  unfold convGdnSynthesis
  dsimp only
  have s1 := makeDeconv_size c (ws.conv 0) hx
  have p1 := gdn_pos (n := n) (inv := true) (w := ws.gdn 0) (makeDeconv_pos c (ws.conv 0) x)
  have t1 : Same (gdn n true (ws.gdn 0) (makeDeconv c 5 2 (ws.conv 0) x)) (makeDeconv c 5 2 (ws.conv 0) x) := ⟨rfl, rfl⟩
  generalize gdn n true (ws.gdn 0) (makeDeconv c 5 2 (ws.conv 0) x) = u at *
  have s2 := makeDeconv_size n (ws.conv 1) p1
  have p2 := gdn_pos (n := n) (inv := true) (w := ws.gdn 1) (makeDeconv_pos n (ws.conv 1) u)
  have t2 : Same (gdn n true (ws.gdn 1) (makeDeconv n 5 2 (ws.conv 1) u)) (makeDeconv n 5 2 (ws.conv 1) u) := ⟨rfl, rfl⟩
  generalize gdn n true (ws.gdn 1) (makeDeconv n 5 2 (ws.conv 1) u) = v at *
  have s3 := makeDeconv_size n (ws.conv 2) p2
  have p3 := gdn_pos (n := n) (inv := true) (w := ws.gdn 2) (makeDeconv_pos n (ws.conv 2) v)
  have t3 : Same (gdn n true (ws.gdn 2) (makeDeconv n 5 2 (ws.conv 2) v)) (makeDeconv n 5 2 (ws.conv 2) v) := ⟨rfl, rfl⟩
  generalize gdn n true (ws.gdn 2) (makeDeconv n 5 2 (ws.conv 2) v) = g at *
  have s4 := makeDeconv_size n (ws.conv 3) p3
  unfold Same at *
  rw [s4.1, s4.2, t3.1, t3.2, s3.1, s3.2, t2.1, t2.2, s2.1, s2.2, t1.1, t1.2, s1.1, s1.2]
  constructor <;> ring

theorem synthesis_size (tr : Transforms) {x : Image ℝ} (hx : Pos x) :
    (tr.synthesis x).height = 16 * x.height ∧ (tr.synthesis x).width = 16 * x.width := by
  cases tr with
  | convGDN n c wa ws =>
    unfold Transforms.synthesis
    exact convGdnSynthesis_size n c ws hx
  | elic n ca cs wa ws =>
    unfold Transforms.synthesis
    exact elicSynthesis_size n _ ws hx

/-! ### Padding and windows -/

/-- The padding of one axis of the frames: with reflection the padded part looks no further than the pixel's distance. -/
theorem pad_axis (F h h' : ℕ) (hF : F = 16 ∨ F = 1) (y R e : ℤ) (hy : 0 ≤ y ∧ y < h) (he : 16 ∣ e) (hR : 0 ≤ R)
    (hw : ∀ t, |t - y| ≤ R → ((0 ≤ t ∧ t < h) ↔ (0 ≤ t + e ∧ t + e < h')))
    (ha : padAmount F h < h) (ha' : padAmount F h' < h') (t : ℤ) (ht : |t - y| ≤ R) :
    ((0 ≤ t ∧ t < (h + padAmount F h : ℕ)) ↔ (0 ≤ t + e ∧ t + e < (h' + padAmount F h' : ℕ))) ∧
      ((0 ≤ t ∧ t < (h + padAmount F h : ℕ)) → ∃ r : ℤ, |r - y| ≤ R ∧ (0 ≤ r ∧ r < h) ∧
        reflect h t = r.toNat ∧ reflect h' (t + e) = (r + e).toNat) := by
  have h0 := hw y (by simpa using hR)
  have h1 := hw t ht
  have hp : ∀ n, padAmount F n = if F = 16 then (16 - n % 16) % 16 else 0 := by
    intro n
    rcases hF with rfl | rfl
    · rfl
    · unfold padAmount
      rw [if_neg (by norm_num)]
      omega
  rw [hp] at ha ha'
  rw [hp, hp]
  rw [abs_le] at ht
  have key : t < h ∨ (h' : ℤ) = h + e := by
    by_cases hth : t < h
    · exact Or.inl hth
    · right
      have a := hw h (by rw [abs_le]; omega)
      have b := hw (h - 1) (by rw [abs_le]; omega)
      omega
  constructor
  · rcases hF with rfl | rfl
    · simp only [if_true] at ha ha' ⊢
      omega
    · simp only [show ¬ (1 = 16) by norm_num, if_false] at ha ha' ⊢
      omega
  · intro hin
    by_cases hth : t < h
    · refine ⟨t, by rw [abs_le]; omega, by omega, ?_, ?_⟩
      · unfold reflect
        rw [if_neg (by omega), if_neg (by omega)]
      · unfold reflect
        rw [if_neg (by omega), if_neg (by omega)]
    · rcases hF with rfl | rfl
      · simp only [if_true] at ha ha' hin
        refine ⟨2 * (h - 1) - t, by rw [abs_le]; omega, by omega, ?_, ?_⟩
        · unfold reflect
          rw [if_neg (by omega), if_pos (by omega)]
        · unfold reflect
          rw [if_neg (by omega), if_pos (by omega)]
          congr 1
          omega
      · simp only [show ¬ (1 = 16) by norm_num, if_false] at hin
        omega

/-- The windows of one axis: the position of a token, seen from a position inside of its window of size four. -/
theorem window_axis (p m d : ℕ) (hp : p = 4 ∧ m = 0 ∧ d = 3 ∨ p = 8 ∧ m = 2 ∧ d = 5) (H H' : ℕ) (i e : ℤ)
    (hi : 0 ≤ i ∧ i < H) (hf : Fits H) (hf' : Fits H')
    (hw : ∀ t, |t - i| ≤ d → ((0 ≤ t ∧ t < H) ↔ (0 ≤ t + 4 * e ∧ t + 4 * e < H'))) (u : ℕ) (hu : u < p) :
    ∃ r : ℤ, |r - i| ≤ d ∧ (0 ≤ r ∧ r < H) ∧ reflect H ((i.toNat / 4 * 4 + u : ℕ) - (m : ℕ) : ℤ) = r.toNat ∧
      reflect H' (((i + 4 * e).toNat / 4 * 4 + u : ℕ) - (m : ℕ) : ℤ) = (r + 4 * e).toNat := by
  unfold Fits ceilDiv at hf hf'
  have h0 := hw i (by simp)
  obtain ⟨n, rfl⟩ := Int.eq_ofNat_of_zero_le hi.1
  obtain ⟨t, ht⟩ : ∃ t : ℤ, t = ((n / 4 * 4 + u : ℕ) - (m : ℕ) : ℤ) := ⟨_, rfl⟩
  have ht' : (((n : ℤ) + 4 * e).toNat / 4 * 4 + u : ℕ) - (m : ℕ) = t + 4 * e := by omega
  have hd : |t - n| ≤ d := by
    rw [abs_le]
    omega
  rw [Int.toNat_natCast, ← ht, ht']
  have h1 := hw t hd
  rw [abs_le] at hd
  by_cases c1 : t < 0
  · have a := hw (-1) (by rw [abs_le]; omega)
    have b := hw 0 (by rw [abs_le]; omega)
    refine ⟨-t, by rw [abs_le]; omega, by omega, ?_, ?_⟩
    · unfold reflect
      rw [if_pos c1]
    · unfold reflect
      rw [if_pos (by omega)]
      congr 1
      omega
  · by_cases c2 : (H : ℤ) ≤ t
    · have a := hw H (by rw [abs_le]; omega)
      have b := hw (H - 1) (by rw [abs_le]; omega)
      refine ⟨2 * (H - 1) - t, by rw [abs_le]; omega, by omega, ?_, ?_⟩
      · unfold reflect
        rw [if_neg c1, if_pos c2]
      · unfold reflect
        rw [if_neg (by omega), if_pos (by omega)]
        congr 1
        omega
    · refine ⟨t, by rw [abs_le]; omega, by omega, ?_, ?_⟩
      · unfold reflect
        rw [if_neg c1, if_neg c2]
      · unfold reflect
        rw [if_neg (by omega), if_neg (by omega)]

/-- The reflections of the patcher are possible. -/
def Ok (x : Image ℝ) : Prop := Fits x.height ∧ Fits x.width

theorem near_axes {C : ℕ} {S R y z e f : ℤ} {x x' : Image ℝ} {b b' : ℕ} (h : Near C S R y z e f x b x' b') {i j : ℤ}
    (hi : |S * i - y| ≤ R) (hj : |S * j - z| ≤ R) (hin : InFrame x i j) :
    (∀ t, |S * t - y| ≤ R → ((0 ≤ t ∧ t < x.height) ↔ (0 ≤ t + e ∧ t + e < x'.height))) ∧
      (∀ t, |S * t - z| ≤ R → ((0 ≤ t ∧ t < x.width) ↔ (0 ≤ t + f ∧ t + f < x'.width))) := by
  have hc := (h i j hi hj).1.1 hin
  constructor
  · intro t ht
    have g := (h t j ht hj).1
    exact ⟨fun a => ⟨(g.1 ⟨a.1, a.2, hin.2.2⟩).1, (g.1 ⟨a.1, a.2, hin.2.2⟩).2.1⟩,
      fun a => ⟨(g.2 ⟨a.1, a.2, hc.2.2⟩).1, (g.2 ⟨a.1, a.2, hc.2.2⟩).2.1⟩⟩
  · intro t ht
    have g := (h i t hi ht).1
    exact ⟨fun a => (g.1 ⟨hin.1, hin.2.1, a⟩).2.2, fun a => (g.2 ⟨hc.1, hc.2.1, a⟩).2.2⟩

theorem window_near {C p d : ℕ} (hp : p = 4 ∧ d = 3 ∨ p = 8 ∧ d = 5) {R y z e f : ℤ} {x x' : Image ℝ} {b b' : ℕ}
    (hx : Ok x) (hx' : Ok x') (h : Near C 16 (R + 16 * d) y z (4 * e) (4 * f) x b x' b') {i j : ℤ} (hi : |16 * i - y| ≤ R)
    (hj : |16 * j - z| ≤ R) (hin : InFrame x i j) (k c : ℕ) (hk : k < p * p) (hc : c < C) :
    window p x b (i.toNat / 4) (j.toNat / 4) k c = window p x' b' ((i + 4 * e).toNat / 4) ((j + 4 * f).toNat / 4) k c := by
  have grow : ∀ t i y : ℤ, |16 * i - y| ≤ R → |t - i| ≤ d → |16 * t - y| ≤ R + 16 * d := by
    intro t i y h1 h2
    rw [abs_le] at *
    omega
  obtain ⟨a1, a2⟩ := near_axes h (grow i i y hi (by simp)) (grow j j z hj (by simp)) hin
  have p0 : 0 < p := by omega
  obtain ⟨m, hm⟩ : ∃ m : ℕ, (p - 4) / 2 = m := ⟨_, rfl⟩
  have hp' : p = 4 ∧ m = 0 ∧ d = 3 ∨ p = 8 ∧ m = 2 ∧ d = 5 := by omega
  obtain ⟨r, r1, r2, r3, r4⟩ := window_axis p m d hp' x.height x'.height i e ⟨hin.1, hin.2.1⟩ hx.1 hx'.1
    (fun t ht => a1 t (grow t i y hi ht)) (k / p) (Nat.div_lt_of_lt_mul hk)
  obtain ⟨q, q1, q2, q3, q4⟩ := window_axis p m d hp' x.width x'.width j f hin.2.2 hx.2 hx'.2
    (fun t ht => a2 t (grow t j z hj ht)) (k % p) (Nat.mod_lt _ p0)
  unfold window
  rw [hm, r3, r4, q3, q4]
  exact (h r q (grow r i y hi r1) (grow q j z hj q1)).2 ⟨r2.1, r2.2, q2.1, q2.2⟩ c hc

/-! ### Entropy model -/

variable {C D : ℕ}

theorem map_encodedSeqs {α β : Type} (g : α → β) (l : List α) :
    (Pipe.encodedSeqs 2 l).map g = Pipe.encodedSeqs 2 (l.map g) := by
  unfold Pipe.encodedSeqs
  simp only [List.length_map, if_true]
  split_ifs <;> simp

theorem round_near {K : ℕ} {S R y z e f : ℤ} {x x' : Image ℝ} {b b' : ℕ} (h : Near K S R y z e f x b x' b') :
    Near K S R y z e f (roundImage x) b (roundImage x') b' := by
  intro i j hi hj
  obtain ⟨hf, hv⟩ := h i j hi hj
  refine ⟨hf, ?_⟩
  intro hin c hc
  unfold roundImage
  dsimp only
  rw [hv hin c hc]

theorem unwindow_shift (i j : ℤ) (e f : ℤ) (hi : 0 ≤ i) (hj : 0 ≤ j) (hi' : 0 ≤ i + 4 * e) (hj' : 0 ≤ j + 4 * f) :
    (i + 4 * e).toNat % 4 * 4 + (j + 4 * f).toNat % 4 = i.toNat % 4 * 4 + j.toNat % 4 := by
  omega

theorem entropy_near (m : Codec C D) {R y z e f : ℤ} {x x' : Image ℝ} {b b' : ℕ} (hx : Ok x) (hx' : Ok x')
    (h : Near C 16 (R + 48) y z (4 * e) (4 * f) x b x' b') {ctx ctx' : List (ℕ → ℕ → ℕ → Tokens 64 D)}
    (hc : ∀ i j : ℤ, |16 * i - y| ≤ R → |16 * j - z| ≤ R → InFrame x i j →
      (ctx.map fun s => s b (i.toNat / 4) (j.toNat / 4)) =
        ctx'.map fun s => s b' ((i + 4 * e).toNat / 4) ((j + 4 * f).toNat / 4)) :
    (∀ K, Near K 16 R y z (4 * e) (4 * f) (m.entropyForward x ctx).features b (m.entropyForward x' ctx').features b') ∧
      ∀ i j : ℤ, |16 * i - y| ≤ R → |16 * j - z| ≤ R → InFrame x i j → ∀ k < 16, ∀ c < C,
        (m.entropyForward x ctx).lik b (i.toNat / 4) (j.toNat / 4) k c =
          (m.entropyForward x' ctx').lik b' ((i + 4 * e).toNat / 4) ((j + 4 * f).toNat / 4) k c := by
  have key : ∀ i j : ℤ, |16 * i - y| ≤ R → |16 * j - z| ≤ R → InFrame x i j →
      m.predict ((Pipe.encodedSeqs 2 ctx).map fun s => s b (i.toNat / 4) (j.toNat / 4))
        (tokens 4 16 C (roundImage x) b (i.toNat / 4) (j.toNat / 4)) =
      m.predict ((Pipe.encodedSeqs 2 ctx').map fun s => s b' ((i + 4 * e).toNat / 4) ((j + 4 * f).toNat / 4))
        (tokens 4 16 C (roundImage x') b' ((i + 4 * e).toNat / 4) ((j + 4 * f).toNat / 4)) := by
    intro i j hi hj hin
    rw [map_encodedSeqs, map_encodedSeqs, hc i j hi hj hin]
    congr 1
    funext k c
    exact window_near (p := 4) (d := 3) (Or.inl ⟨rfl, rfl⟩) (x := roundImage x) (x' := roundImage x') hx hx'
      (by simpa using round_near h) hi hj hin k c k.2 c.2
  constructor
  · intro K i j hi hj
    have hf := (h i j (hi.trans (by omega)) (hj.trans (by omega))).1
    refine ⟨hf, ?_⟩
    intro hin c _
    have hin' : InFrame x' (i + 4 * e) (j + 4 * f) := hf.1 hin
    unfold Codec.entropyForward unwindow
    dsimp only
    rw [key i j hi hj hin, unwindow_shift i j e f hin.1 hin.2.2.1 hin'.1 hin'.2.2.1]
  · intro i j hi hj hin k hk c hcC
    unfold Codec.entropyForward
    dsimp only
    rw [key i j hi hj hin, window_near (p := 4) (d := 3) (Or.inl ⟨rfl, rfl⟩) hx hx' (by simpa using h) hi hj hin k c hk hcC]

/-- None of the values of the first channels is half-way between two integers. -/
def Clear (C : ℕ) (x : Image ℝ) : Prop :=
  ∀ b, ∀ c < C, ∀ i < x.height, ∀ j < x.width, ∀ k : ℤ, x.pix b c i j ≠ k + 1 / 2

theorem window_self (x : Image ℝ) (b c i j : ℕ) (hi : i < x.height) (hj : j < x.width) :
    window 4 x b (i / 4) (j / 4) (i % 4 * 4 + j % 4) c = x.pix b c i j := by
  unfold window reflect
  rw [if_neg (by omega), if_neg (by omega), if_neg (by omega), if_neg (by omega)]
  congr 1 <;> omega

theorem latent_round (m : Codec C D) (x : Image ℝ) (hx : Clear C x) (ctx : List (ℕ → ℕ → ℕ → Tokens 64 D)) (b c i j : ℕ)
    (hc : c < C) (hi : i < x.height) (hj : j < x.width) :
    (m.entropyForward x ctx).latent.pix b c i j = roundHalfEven (x.pix b c i j) := by
  unfold Codec.entropyForward unwindow
  dsimp only
  rw [bnForward_quant1, window_self x b c i j hi hj]
  exact quant1_round (hx b c hc i hi j hj) _

theorem latent_near (m : Codec C D) {S R y z e f : ℤ} {x x' : Image ℝ} {b b' : ℕ} (hx : Clear C x) (hx' : Clear C x')
    (h : Near C S R y z e f x b x' b') (ctx ctx' : List (ℕ → ℕ → ℕ → Tokens 64 D)) :
    Near C S R y z e f (m.entropyForward x ctx).latent b (m.entropyForward x' ctx').latent b' := by
  intro i j hi hj
  obtain ⟨hf, hv⟩ := h i j hi hj
  refine ⟨hf, ?_⟩
  intro hin c hc
  have hin1 : InFrame x i j := hin
  have hin' := hf.1 hin1
  rw [latent_round m x hx ctx b c _ _ hc (by have := hin1.1; have := hin1.2.1; omega) (by have := hin1.2.2; omega),
    latent_round m x' hx' ctx' b' c _ _ hc (by have := hin'.1; have := hin'.2.1; omega) (by have := hin'.2.2; omega),
    hv hin1 c hc]

/-- What the scene `t` sees of the scenes before it. -/
noncomputable def before (m : Codec C D) (x : ℕ → Image ℝ) : ℕ → List (ℕ → ℕ → ℕ → Tokens 64 D)
  | 0 => [m.process (m.fake (x 0))]
  | t + 1 => (m.code x t).state

theorem code_eq (m : Codec C D) (x : ℕ → Image ℝ) (t : ℕ) :
    (m.code x t).latent = (m.entropyForward (x t) (before m x t)).latent ∧
      (m.code x t).features = (m.entropyForward (x t) (before m x t)).features ∧
      (m.code x t).lik = (m.entropyForward (x t) (before m x t)).lik := by
  cases t <;> exact ⟨rfl, rfl, rfl⟩

theorem state_succ (m : Codec C D) (x : ℕ → Image ℝ) (t : ℕ) :
    (m.code x (t + 1)).state = [m.process (m.code x t).latent, m.process (m.code x (t + 1)).latent] := by
  induction t with
  | zero => rfl
  | succ t ih =>
    have : (m.code x (t + 1 + 1)).state =
        Pipe.sliceLast 2 ((m.code x (t + 1)).state ++ [m.process (m.code x (t + 1 + 1)).latent]) := rfl
    rw [this, ih]
    rfl

theorem process_near (m : Codec C D) {R y z e f : ℤ} {x x' : Image ℝ} {b b' : ℕ} (hx : Ok x) (hx' : Ok x')
    (h : Near C 16 (R + 80) y z (4 * e) (4 * f) x b x' b') {i j : ℤ} (hi : |16 * i - y| ≤ R) (hj : |16 * j - z| ≤ R)
    (hin : InFrame x i j) :
    m.process x b (i.toNat / 4) (j.toNat / 4) = m.process x' b' ((i + 4 * e).toNat / 4) ((j + 4 * f).toNat / 4) := by
  unfold Codec.process
  congr 1
  funext k c
  exact window_near (p := 8) (d := 5) (Or.inr ⟨rfl, rfl⟩) hx hx' (by simpa using h) hi hj hin k c k.2 c.2

theorem before_near (m : Codec C D) {R y z e f : ℤ} {x x' : ℕ → Image ℝ} {b b' t t' : ℕ}
    (hx : ∀ s, Ok (x s)) (hx' : ∀ s, Ok (x' s)) (hs : ∀ s, Same (x s) (x 0))
    (ht : t = t' ∨ 2 ≤ t ∧ 2 ≤ t')
    (cx : ∀ s < t, t ≤ s + 2 → Clear C (x s)) (cx' : ∀ s < t', t' ≤ s + 2 → Clear C (x' s))
    (h : ∀ k ∈ [1, 2], k ≤ t → Near C 16 (R + 80) y z (4 * e) (4 * f) (x (t - k)) b (x' (t' - k)) b')
    {i j : ℤ} (hi : |16 * i - y| ≤ R) (hj : |16 * j - z| ≤ R) (hin : InFrame (x 0) i j) :
    ((before m x t).map fun s => s b (i.toNat / 4) (j.toNat / 4)) =
      (before m x' t').map fun s => s b' ((i + 4 * e).toNat / 4) ((j + 4 * f).toNat / 4) := by
  have step : ∀ s s', Clear C (x s) → Clear C (x' s') →
      Near C 16 (R + 80) y z (4 * e) (4 * f) (x s) b (x' s') b' →
      m.process (m.code x s).latent b (i.toNat / 4) (j.toNat / 4) =
        m.process (m.code x' s').latent b' ((i + 4 * e).toNat / 4) ((j + 4 * f).toNat / 4) := by
    intro s s' c1 c2 hn
    rw [(code_eq m x s).1, (code_eq m x' s').1]
    refine process_near m (x := (m.entropyForward (x s) (before m x s)).latent)
      (x' := (m.entropyForward (x' s') (before m x' s')).latent) (hx s) (hx' s') (latent_near m c1 c2 hn _ _) hi hj ?_
    have hin2 : InFrame (x s) i j := by
      unfold InFrame
      rw [(hs s).1, (hs s).2]
      exact hin
    exact hin2
  rcases ht with rfl | ⟨h1, h2⟩
  · match t, cx, cx', h with
    | 0, _, _, _ => rfl
    | 1, cx, cx', h =>
      have h1 := h 1 (by simp) (by norm_num)
      exact congrArg (fun a => [a]) (step 0 0 (cx 0 (by norm_num) (by norm_num)) (cx' 0 (by norm_num) (by norm_num)) h1)
    | t + 2, cx, cx', h =>
      have h1 : Near C 16 (R + 80) y z (4 * e) (4 * f) (x (t + 1)) b (x' (t + 1)) b' := h 1 (by simp) (by omega)
      have h2 : Near C 16 (R + 80) y z (4 * e) (4 * f) (x t) b (x' t) b' := h 2 (by simp) (by omega)
      have e1 : before m x (t + 2) = [m.process (m.code x t).latent, m.process (m.code x (t + 1)).latent] := state_succ m x t
      have e2 : before m x' (t + 2) = [m.process (m.code x' t).latent, m.process (m.code x' (t + 1)).latent] :=
        state_succ m x' t
      rw [e1, e2]
      simp only [List.map_cons, List.map_nil]
      rw [step t t (cx t (by omega) (by omega)) (cx' t (by omega) (by omega)) h2,
        step (t + 1) (t + 1) (cx _ (by omega) (by omega)) (cx' _ (by omega) (by omega)) h1]
  · obtain ⟨t, rfl⟩ := Nat.exists_eq_add_of_le' h1
    obtain ⟨t', rfl⟩ := Nat.exists_eq_add_of_le' h2
    have h1 : Near C 16 (R + 80) y z (4 * e) (4 * f) (x (t + 1)) b (x' (t' + 1)) b' := h 1 (by simp) (by omega)
    have h2 : Near C 16 (R + 80) y z (4 * e) (4 * f) (x t) b (x' t') b' := h 2 (by simp) (by omega)
    have e1 : before m x (t + 2) = [m.process (m.code x t).latent, m.process (m.code x (t + 1)).latent] := state_succ m x t
    have e2 : before m x' (t' + 2) = [m.process (m.code x' t').latent, m.process (m.code x' (t' + 1)).latent] :=
      state_succ m x' t'
    rw [e1, e2]
    simp only [List.map_cons, List.map_nil]
    rw [step t t' (cx t (by omega) (by omega)) (cx' t' (by omega) (by omega)) h2,
      step (t + 1) (t' + 1) (cx _ (by omega) (by omega)) (cx' _ (by omega) (by omega)) h1]

/-! ### Dequantizer, frames -/

theorem dequantize_near (m : Codec C D) {R y z e f : ℤ} {l l' g g' : Image ℝ} {b b' : ℕ} (hg : Pos g) (hg' : Pos g')
    (hs : Same l g) (hl : Near C 16 R y z e f l b l' b') (h : ∀ K, Near K 16 (R + 32) y z e f g b g' b') :
    Near C 16 R y z e f (m.dequantize l g) b (m.dequantize l' g') b' := by
  unfold Codec.dequantize
  dsimp only
  have h0 : Near C 16 (R + 32) y z e f (leakyRelu (HificNet.conv2d D 1 1 0 (m.deq 0) g)) b
      (leakyRelu (HificNet.conv2d D 1 1 0 (m.deq 0) g')) b' := leaky_near (conv1_near (by norm_num) _ hg hg' (h D) C)
  have s0 : Same (leakyRelu (HificNet.conv2d D 1 1 0 (m.deq 0) g)) g := conv_same D 0 (m.deq 0) g hg
  have p0 := s0.pos hg
  have p0' : Pos (leakyRelu (HificNet.conv2d D 1 1 0 (m.deq 0) g')) := conv_pos D 1 1 0 (m.deq 0) g'
  generalize leakyRelu (HificNet.conv2d D 1 1 0 (m.deq 0) g) = u at *
  generalize leakyRelu (HificNet.conv2d D 1 1 0 (m.deq 0) g') = u' at *
  have h1 : Near C 16 (R + 16) y z e f (leakyRelu (HificNet.conv2d C 3 1 1 (m.deq 1) u)) b
      (leakyRelu (HificNet.conv2d C 3 1 1 (m.deq 1) u')) b' :=
    leaky_near (conv3_near (by norm_num) _ p0 p0' (by rw [show R + 16 + 16 * 1 = R + 32 by ring]; exact h0) C)
  have s1 : Same (leakyRelu (HificNet.conv2d C 3 1 1 (m.deq 1) u)) u := conv_same C 1 (m.deq 1) u p0
  have p1 := s1.pos p0
  have p1' : Pos (leakyRelu (HificNet.conv2d C 3 1 1 (m.deq 1) u')) := conv_pos C 3 1 1 (m.deq 1) u'
  generalize leakyRelu (HificNet.conv2d C 3 1 1 (m.deq 1) u) = v at *
  generalize leakyRelu (HificNet.conv2d C 3 1 1 (m.deq 1) u') = v' at *
  have h2 : Near C 16 R y z e f (leakyRelu (HificNet.conv2d C 3 1 1 (m.deq 2) v)) b
      (leakyRelu (HificNet.conv2d C 3 1 1 (m.deq 2) v')) b' :=
    leaky_near (conv3_near (by norm_num) _ p1 p1' (by rw [show R + 16 * 1 = R + 16 by ring]; exact h1) C)
  have s2 : Same (leakyRelu (HificNet.conv2d C 3 1 1 (m.deq 2) v)) v := conv_same C 1 (m.deq 2) v p1
  generalize leakyRelu (HificNet.conv2d C 3 1 1 (m.deq 2) v) = w at *
  generalize leakyRelu (HificNet.conv2d C 3 1 1 (m.deq 2) v') = w' at *
  have h3 := add_near h2 (h0.mono (by linarith)) (s2.trans s1).symm
  exact add_near hl h3 ((s2.trans (s1.trans s0)).trans hs.symm)

theorem padFrame_near {K F : ℕ} (hF : F = 16 ∨ F = 1) {x x' : Image ℝ} {b b' : ℕ} (ha : padAmount F x.height < x.height)
    (hb : padAmount F x.width < x.width) (ha' : padAmount F x'.height < x'.height) (hb' : padAmount F x'.width < x'.width)
    {R y z e f : ℤ} (hR : 0 ≤ R) (hyz : InFrame x y z) (hn : Near K 1 R y z (16 * e) (16 * f) x b x' b') :
    Near K 1 R y z (16 * e) (16 * f) (padFrame F x) b (padFrame F x') b' := by
  obtain ⟨r1, r2⟩ := near_axes hn (by simpa using hR) (by simpa using hR) hyz
  simp only [one_mul] at r1 r2
  intro i j hi hj
  rw [one_mul] at hi hj
  obtain ⟨f1, s1⟩ := pad_axis F x.height x'.height hF y R (16 * e) ⟨hyz.1, hyz.2.1⟩ ⟨e, rfl⟩ hR r1 ha ha' i hi
  obtain ⟨f2, s2⟩ := pad_axis F x.width x'.width hF z R (16 * f) hyz.2.2 ⟨f, rfl⟩ hR r2 hb hb' j hj
  have hF : InFrame (padFrame F x) i j ↔ InFrame (padFrame F x') (i + 16 * e) (j + 16 * f) :=
    ⟨fun a => ⟨(f1.1 ⟨a.1, a.2.1⟩).1, (f1.1 ⟨a.1, a.2.1⟩).2, f2.1 a.2.2⟩,
      fun a => ⟨(f1.2 ⟨a.1, a.2.1⟩).1, (f1.2 ⟨a.1, a.2.1⟩).2, f2.2 a.2.2⟩⟩
  refine ⟨hF, ?_⟩
  intro hin c hcC
  have hin' := hF.1 hin
  obtain ⟨r, hr, fr, sr, sr'⟩ := s1 ⟨hin.1, hin.2.1⟩
  obtain ⟨q, hq, fq, sq, sq'⟩ := s2 hin.2.2
  unfold padFrame
  dsimp only
  rw [Int.toNat_of_nonneg hin.1, Int.toNat_of_nonneg hin.2.2.1, Int.toNat_of_nonneg hin'.1,
    Int.toNat_of_nonneg hin'.2.2.1, sr, sr', sq, sq']
  exact (hn r q (by simpa using hr) (by simpa using hq)).2 ⟨fr.1, fr.2, fq.1, fq.2⟩ c hcC

end Verif.Vct.Net
