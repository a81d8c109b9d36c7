import Verif.Models.DvcValues
import Verif.Models.PropsVqVaeNet
import Verif.Models.PropsDvcNets
import Mathlib.Tactic.Positivity
import Mathlib.Tactic.FieldSimp

/-!
Lemmas for C136: the shapes of the values are those of `Models/DvcNets.lean`, and every operation keeps images of a batch apart.
-/

namespace Verif.Models.DvcValues

open Verif Verif.Functional Verif.Models.DvcNets
open Verif.Models.HificNet (ConvW conv2d convTranspose2d relu zeroPadded)
open Verif.Models.VqVaeNet (bind_ok zeroPadded_same SameImage)

/-! ### Results that may be errors -/

/-- Both fail in the same way, or both succeed with related results. -/
def RelE {α β : Type} (R : α → β → Prop) : Except Err α → Except Err β → Prop
  | .ok x, .ok y => R x y
  | .error e, .error e' => e = e'
  | _, _ => False

theorem relE_bind {α α' β β' : Type} {R : α → α' → Prop} {Q : β → β' → Prop} {x : Except Err α} {x' : Except Err α'}
    {f : α → Except Err β} {f' : α' → Except Err β'} (h : RelE R x x') (hf : ∀ a a', R a a' → RelE Q (f a) (f' a')) :
    RelE Q (x >>= f) (x' >>= f') := by
  cases x <;> cases x' <;> first | exact h.elim | exact h | exact hf _ _ h

theorem relE_bind_assoc {α α' β β' γ : Type} {R : α → α' → Prop} {Q : β → β' → Prop} {x : Except Err α}
    {y : Except Err γ} {g : γ → Except Err α'} {f : α → Except Err β} {f' : α' → Except Err β'} (h : RelE R x (y >>= g))
    (hf : ∀ a a', R a a' → RelE Q (f a) (f' a')) : RelE Q (x >>= f) (y >>= fun z => g z >>= f') := by
  have : (y >>= fun z => g z >>= f') = ((y >>= g) >>= f') := by cases y <;> rfl
  rw [this]
  exact relE_bind h hf

theorem relE_ok {α β : Type} {R : α → β → Prop} {x : Except Err α} {y : Except Err β} {a : α} (h : RelE R x y)
    (hx : x = .ok a) : ∃ a', y = .ok a' ∧ R a a' := by
  subst hx
  cases y
  · exact h.elim
  · exact ⟨_, rfl, h⟩

theorem relE_error {α β : Type} {R : α → β → Prop} {x : Except Err α} {y : Except Err β} {e : Err} (h : RelE R x y)
    (hx : x = .error e) : y = .error e := by
  subst hx
  cases y
  · exact congrArg _ (Eq.symm h)
  · exact h.elim

theorem relE_mono {α β : Type} {R Q : α → β → Prop} {x : Except Err α} {y : Except Err β} (h : RelE R x y)
    (hm : ∀ a b, R a b → Q a b) : RelE Q x y := by
  cases x <;> cases y <;> first | exact h | exact hm _ _ h

theorem relE_refl {α : Type} (x : Except Err α) : RelE Eq x x := by
  cases x <;> exact Eq.refl _

theorem relE_eq {α : Type} {x y : Except Err α} (h : RelE Eq x y) : x = y := by
  cases x <;> cases y <;> first | exact h.elim | exact congrArg _ h

/-! ### Shapes -/

section Shapes

/-- A tensor has the shape. -/
def Has (t : Tensor) (s : Shape) : Prop := t.shape = s

/-- The same for a pair of a tensor and something else. -/
def HasFst {α : Type} (p : Tensor × α) (q : Shape × α) : Prop := p.1.shape = q.1 ∧ p.2 = q.2

theorem relE_shape {x : Except Err Shape} (v : ℕ → ℕ → ℕ → ℕ → ℝ) :
    RelE Has (x >>= fun s => pure (⟨s, v⟩ : Tensor)) x := by
  cases x <;> rfl

theorem run_shape (training inverse : Bool) (l : Layer) (w : LayerW) (t : Tensor) :
    RelE Has (run training inverse l w t) (l.apply training t.shape) := relE_shape _

theorem runAll_shape (training : Bool) (w : ℕ → LayerW) (ls : List Layer) (k : ℕ) (t : Tensor) :
    RelE Has (runAll training w k ls t) (sequential training ls t.shape) := by
  induction ls generalizing k t with
  | nil => rfl
  | cons l rest ih =>
    rw [runAll, sequential]
    refine relE_bind (run_shape ..) fun a s h => ?_
    cases h
    exact ih _ _

theorem encodeLoop_shape (training : Bool) (w : ℕ → LayerW) (ls : List Layer) (k : ℕ) (t : Tensor) (sizes : List Shape) :
    RelE HasFst (encodeLoop training w k ls t sizes) (DvcNets.encodeLoop training ls t.shape sizes) := by
  induction ls generalizing k t sizes with
  | nil => exact ⟨rfl, rfl⟩
  | cons l rest ih =>
    cases l <;>
    · refine relE_bind (run_shape ..) fun a s h => ?_
      cases h
      exact ih _ _ _

theorem encode_shape (k : Coder) (training : Bool) (w : ℕ → LayerW) (t : Tensor) :
    RelE HasFst (encode k training w t) (k.encode training t.shape) := encodeLoop_shape ..

theorem decodeLoop_shape (training : Bool) (w : ℕ → LayerW) (ls : List Layer) (k : ℕ) (t : Tensor) (sizes : List Shape) :
    RelE Has (decodeLoop training w k ls t sizes) (decodeSized training ls t.shape sizes) := by
  induction ls generalizing k t sizes with
  | nil => rfl
  | cons l rest ih =>
    rw [decodeLoop, decodeSized]
    by_cases hl : l.isConvT
    · rw [if_pos hl, if_pos hl]
      cases sizes.getLast? with
      | none => rfl
      | some wanted =>
        refine relE_bind (R := Has) (relE_shape _) fun a s h => ?_
        cases h
        exact ih _ _ _
    · rw [if_neg hl, if_neg hl]
      refine relE_bind (run_shape ..) fun a s h => ?_
      cases h
      exact ih _ _ _

theorem decode_shape (k : Coder) (training : Bool) (w : ℕ → LayerW) (t : Tensor) (sizes : List Shape) :
    RelE Has (decode k training w t sizes) (k.decode training t.shape (some sizes)) := by
  unfold decode
  simp only [Coder.decode]
  split
  · rfl
  · exact decodeLoop_shape ..

theorem elementwise_shape (f : ℝ → ℝ → ℝ) (x y : Tensor) : RelE Has (elementwise f x y) (broadcast x.shape y.shape) :=
  relE_shape _

theorem warp_shape (image flow : Tensor) : RelE Has (warpTensor image flow) (DvcNets.warp image.shape flow.shape) := by
  unfold warpTensor DvcNets.warp Warp.denseImageWarp
  dsimp only
  rw [if_neg (by simp)]
  by_cases h1 : flow.shape.c ≠ 2
  · rw [if_pos h1, if_pos h1]; rfl
  · rw [if_neg h1, if_neg h1]
    by_cases h2 : image.shape.n ≠ flow.shape.n ∨ image.shape.h = 0 ∨ image.shape.w = 0
    · rw [if_pos h2, if_pos h2]; rfl
    · rw [if_neg h2, if_neg h2]; rfl

theorem residualBlock_shape (cin cout : ℕ) (training : Bool) (w : BlockW) (t : Tensor) :
    RelE Has (residualBlock cin cout training w t) (DvcNets.residualBlock cin cout training t.shape) := by
  unfold residualBlock DvcNets.residualBlock
  refine relE_bind (runAll_shape ..) fun a s h => ?_
  cases h
  exact elementwise_shape ..

theorem unet_shape (channels : ℕ) (training : Bool) (w : ℕ → BlockW × BlockW) (k : ℕ) (t : Tensor) :
    RelE Has (unet channels training w k t) (DvcNets.unet channels training k t.shape) := by
  induction k generalizing t with
  | zero => rfl
  | succ k ih =>
    cases k with
    | zero =>
      refine relE_bind (residualBlock_shape ..) fun a s h => ?_
      cases h
      exact residualBlock_shape ..
    | succ k =>
      refine relE_bind (residualBlock_shape ..) fun a s h => ?_
      cases h
      refine relE_bind (R := Has) (relE_shape _) fun c s h => ?_
      cases h
      refine relE_bind (ih _) fun d s h => ?_
      cases h
      refine relE_bind (R := Has) (relE_shape _) fun c s h => ?_
      cases h
      refine relE_bind (elementwise_shape ..) fun c s h => ?_
      cases h
      exact residualBlock_shape ..

theorem compensate_shape (m : Compensator) (training : Bool) (w : CompensatorW) (x y z : Tensor) :
    RelE Has (compensate m training w x y z) (m.forward training x.shape y.shape z.shape) := by
  unfold compensate Compensator.forward
  refine relE_bind (R := Has) (relE_shape _) fun c s h => ?_
  cases h
  refine relE_bind (runAll_shape ..) fun c s h => ?_
  cases h
  refine relE_bind (unet_shape ..) fun c s h => ?_
  cases h
  exact runAll_shape ..

/-- Lists of tensors and of shapes. -/
def HasAll (ts : List Tensor) (ss : List Shape) : Prop := ts.map Tensor.shape = ss

theorem pyramid_shape (k : ℕ) (t : Tensor) : RelE HasAll (pyramidOf k t) (pyramid k t.shape) := by
  induction k generalizing t with
  | zero => rfl
  | succ k ih =>
    rw [pyramidOf, pyramid]
    refine relE_bind (R := Has) (relE_shape _) fun c s h => ?_
    cases h
    refine relE_bind (ih _) fun c s h => ?_
    cases h
    rfl

theorem pyramidOf_length (k : ℕ) (t : Tensor) (l : List Tensor) (h : pyramidOf k t = .ok l) :
    l.length = k + 1 ∧ l.head? = some t := by
  induction k generalizing t l with
  | zero => cases h; simp
  | succ k ih =>
    obtain ⟨a, ha, h⟩ := bind_ok h
    obtain ⟨b, hb, h⟩ := bind_ok h
    cases h
    simp [(ih _ _ hb).1]

/-- Pairs of tensors and of shapes. -/
def HasPair (p : Tensor × Tensor) (q : Shape × Shape) : Prop := p.1.shape = q.1 ∧ p.2.shape = q.2

/-- The results of the flow estimation. -/
def HasFlow (p : Tensor × List (Tensor × Tensor)) (q : Shape × List (Shape × Shape)) : Prop :=
  p.1.shape = q.1 ∧ p.2.map (fun x => (x.1.shape, x.2.shape)) = q.2

theorem flowLoop_shape (e : Estimator) (training : Bool) (w : ℕ → ℕ → LayerW) (l : List (Tensor × Tensor))
    (hl : ∀ p ∈ l, p.1.shape = p.2.shape) (k : ℕ) (flow : Tensor) (pairs : List (Tensor × Tensor)) :
    RelE HasFlow (flowLoop e training w k l flow pairs)
      (e.loop training (l.map fun p => p.1.shape) flow.shape (pairs.map fun x => (x.1.shape, x.2.shape))) := by
  induction l generalizing k flow pairs with
  | nil => exact ⟨rfl, rfl⟩
  | cons p rest ih =>
    obtain ⟨x, y⟩ := p
    have hxy : x.shape = y.shape := hl (x, y) (by simp)
    rw [flowLoop, List.map_cons, Estimator.loop]
    refine relE_bind (R := Has) (relE_shape _) fun c s h => ?_
    cases h
    refine relE_bind (warp_shape ..) fun d s h => ?_
    cases h
    refine relE_bind (R := Has) ?_ fun f s h => ?_
    · rw [hxy]; exact relE_shape _
    cases h
    refine relE_bind (runAll_shape ..) fun f s h => ?_
    cases h
    refine relE_bind (elementwise_shape ..) fun f s h => ?_
    cases h
    refine relE_bind (warp_shape ..) fun g s h => ?_
    cases h
    have := ih (fun p hp => hl p (List.mem_cons_of_mem _ hp)) (k + 1) f (pairs ++ [(g, y)])
    simpa [hxy] using this

theorem estimate_shape (e : Estimator) (training : Bool) (w : ℕ → ℕ → LayerW) (x y : Tensor) :
    RelE HasFlow (estimate e training w x y) (e.flow training x.shape y.shape) := by
  unfold estimate Estimator.flow
  by_cases h : x.shape ≠ y.shape
  · rw [if_pos h, if_pos h]; rfl
  · rw [if_neg h, if_neg h]
    push Not at h
    have p1 := pyramid_shape (e.levels - 1) x
    have p2 := pyramid_shape (e.levels - 1) y
    rw [← h] at p2
    cases e1 : pyramidOf (e.levels - 1) x with
    | error a =>
      rw [e1] at p1
      cases e2 : pyramid (e.levels - 1) x.shape with
      | error b => rw [e2] at p1; exact p1
      | ok b => rw [e2] at p1; exact p1.elim
    | ok l1 =>
      rw [e1] at p1
      cases e2 : pyramid (e.levels - 1) x.shape with
      | error b => rw [e2] at p1; exact p1.elim
      | ok ss =>
        rw [e2] at p1 p2
        cases e3 : pyramidOf (e.levels - 1) y with
        | error a => rw [e3] at p2; exact p2.elim
        | ok l2 =>
          rw [e3] at p2
          have q1 : l1.map Tensor.shape = ss := p1
          have q2 : l2.map Tensor.shape = ss := p2
          have hlen : l1.length = l2.length := by
            rw [(pyramidOf_length _ _ _ e1).1, (pyramidOf_length _ _ _ e3).1]
          have hmap : (l1.zip l2).map (fun p => p.1.shape) = ss := by
            have : (fun p : Tensor × Tensor => p.1.shape) = Tensor.shape ∘ Prod.fst := rfl
            rw [this, ← List.map_map, List.map_fst_zip hlen.le, q1]
          have hmap2 : (l1.zip l2).map (fun p => p.2.shape) = ss := by
            have : (fun p : Tensor × Tensor => p.2.shape) = Tensor.shape ∘ Prod.snd := rfl
            rw [this, ← List.map_map, List.map_snd_zip hlen.ge, q2]
          have heq : ∀ p ∈ l1.zip l2, p.1.shape = p.2.shape := by
            have := hmap.trans hmap2.symm
            exact fun p hp => List.map_inj_left.1 this p hp
          have hc : (l1.getLast?.getD x).shape = ss.getLast?.getD x.shape := by
            rw [← q1, List.getLast?_map]
            cases l1.getLast? <;> rfl
          have hm : ((l1.zip l2).reverse.take e.levels).map (fun p => p.1.shape) = ss.reverse.take e.levels := by
            rw [List.map_take, List.map_reverse, hmap]
          have := flowLoop_shape e training w ((l1.zip l2).reverse.take e.levels)
            (fun p hp => heq p (List.mem_reverse.1 (List.mem_of_mem_take hp))) 0
            ⟨{ (l1.getLast?.getD x).shape with c := min (l1.getLast?.getD x).shape.c 2 }, fun _ _ _ _ => 0⟩ []
          rw [hm] at this
          simpa [bind, Except.bind, hc] using this

/-- The outputs of `forward`. -/
def HasOutput (o : Output) (s : DvcNets.Output) : Prop :=
  o.flow.shape = s.flow ∧ o.image2.shape = s.image2 ∧ o.residual.shape = s.residual ∧
    o.flowProbabilities.shape = s.flowProbabilities ∧ o.residualProbabilities.shape = s.residualProbabilities

variable {Str : Type}

theorem predict_shape (m : Model) (w : Weights Str) (training : Bool) (x f : Tensor) :
    RelE Has (predict m w training x f)
      (DvcNets.warp x.shape f.shape >>= fun est => m.compensation.forward training x.shape est f.shape) := by
  unfold predict
  refine relE_bind (warp_shape ..) fun d s h => ?_
  cases h
  exact compensate_shape ..

/-- Two tensors have the two shapes. -/
def HasBoth (p : Tensor × Tensor) (q : Shape × Shape) : Prop := p.1.shape = q.1 ∧ p.2.shape = q.2

theorem bottleneck_shape (k : Bottleneck Str) (channels : ℕ) (training : Bool) (noise : ℕ → ℕ → ℕ → ℕ → ℝ) (t : Tensor) :
    RelE HasBoth (k.forward channels training noise t) (bottleneck channels t.shape) := by
  unfold Bottleneck.forward
  cases bottleneck channels t.shape with
  | error e => rfl
  | ok p => exact ⟨rfl, rfl⟩

theorem forward_shape (m : Model) (w : Weights Str) (training : Bool) (u v : ℕ → ℕ → ℕ → ℕ → ℝ) (x y : Tensor) :
    RelE HasOutput (forward m w training u v x y) (m.forward training x.shape y.shape) := by
  unfold forward Model.forward
  refine relE_bind (estimate_shape ..) ?_
  rintro ⟨f, _⟩ ⟨_, _⟩ ⟨rfl, _⟩
  refine relE_bind (encode_shape ..) ?_
  rintro ⟨f, _⟩ ⟨_, _⟩ ⟨rfl, rfl⟩
  refine relE_bind (bottleneck_shape ..) ?_
  rintro ⟨f, _⟩ ⟨_, _⟩ ⟨rfl, rfl⟩
  refine relE_bind (decode_shape ..) fun fl s h => ?_
  cases h
  refine relE_bind_assoc (predict_shape m w training x fl) fun est s h => ?_
  cases h
  refine relE_bind (elementwise_shape ..) fun r s h => ?_
  cases h
  refine relE_bind (encode_shape ..) ?_
  rintro ⟨f, _⟩ ⟨_, _⟩ ⟨rfl, rfl⟩
  refine relE_bind (bottleneck_shape ..) ?_
  rintro ⟨f, _⟩ ⟨_, _⟩ ⟨rfl, rfl⟩
  refine relE_bind (decode_shape ..) fun r s h => ?_
  cases h
  refine relE_bind (elementwise_shape ..) fun r s h => ?_
  cases h
  exact ⟨rfl, rfl, rfl, rfl, rfl⟩

end Shapes

/-! ### Images of batches -/

section Batch

variable {n n' : ℕ} {P : ℕ → ℕ → Prop}

/-- The shapes of batches of `n` and `n'` images are otherwise the same. -/
structure SameShape (n n' : ℕ) (s s' : Shape) : Prop where
  n : s.n = n
  n' : s'.n = n'
  c : s'.c = s.c
  h : s'.h = s.h
  w : s'.w = s.w

/-- The images that `P` pairs up have the same values. -/
structure Same (n n' : ℕ) (P : ℕ → ℕ → Prop) (t t' : Tensor) : Prop where
  shape : SameShape n n' t.shape t'.shape
  val : ∀ b b', P b b' → ∀ c < t.shape.c, ∀ i < t.shape.h, ∀ j < t.shape.w, t.val b c i j = t'.val b' c i j

/-- `P` pairs up images of batches of `n` and `n'`. -/
def Inside (n n' : ℕ) (P : ℕ → ℕ → Prop) : Prop := ∀ b b', P b b' → b < n ∧ b' < n'

/-- The layer treats every image by itself. -/
def Apart (training : Bool) (l : Layer) : Prop := training = false ∨ ∀ c, l ≠ .batchNorm c

theorem apply_same {training : Bool} {l : Layer} (hl : Apart training l) {s s' : Shape} (h : SameShape n n' s s') :
    RelE (SameShape n n') (l.apply training s) (l.apply training s') := by
  obtain ⟨h1, h2, h3, h4, h5⟩ := h
  cases l with
  | conv cin cout k st p bias =>
    unfold Layer.apply
    dsimp only
    rw [h3, h4, h5]
    split
    · rfl
    · exact ⟨h1, h2, rfl, rfl, rfl⟩
  | convT cin cout k st p bias =>
    unfold Layer.apply
    dsimp only
    rw [h3, h4, h5]
    split
    · rfl
    · refine relE_bind (R := Eq) (relE_refl _) ?_
      rintro a _ rfl
      refine relE_bind (R := Eq) (relE_refl _) ?_
      rintro b _ rfl
      exact ⟨h1, h2, rfl, rfl, rfl⟩
  | gdn c =>
    unfold Layer.apply
    dsimp only
    rw [h3]
    split
    · rfl
    · exact ⟨h1, h2, h3, h4, h5⟩
  | batchNorm c =>
    rcases hl with rfl | hl
    · unfold Layer.apply
      dsimp only
      rw [h3]
      simp only [Bool.false_eq_true, false_and, if_false]
      split
      · rfl
      · exact ⟨h1, h2, h3, h4, h5⟩
    · exact absurd rfl (hl c)
  | relu => exact ⟨h1, h2, h3, h4, h5⟩

theorem image_same {t t' : Tensor} (h : Same n n' P t t') {b b' : ℕ} (hb : P b b') {C : ℕ} (hC : C = t.shape.c) :
    SameImage C t.image b t'.image b' := by
  subst hC
  exact ⟨h.shape.h.symm, h.shape.w.symm, fun c hc i hi j hj => h.val b b' hb c hc i hi j hj⟩

theorem convT_same (cin k s p op : ℕ) (w : ConvW) {x x' : Image ℝ} {b b' : ℕ} (h : SameImage cin x b x' b') (o i j : ℕ) :
    (convTranspose2d cin k s p op w x).pix b o i j = (convTranspose2d cin k s p op w x').pix b' o i j := by
  simp only [convTranspose2d]
  congr 1
  refine Finset.sum_congr rfl fun c hc => Finset.sum_congr rfl fun di _ => Finset.sum_congr rfl fun dj _ => ?_
  rw [zeroPadded_same h c (Finset.mem_range.1 hc)]

theorem conv_same (cin k s p : ℕ) (w : ConvW) {x x' : Image ℝ} {b b' : ℕ} (h : SameImage cin x b x' b') (o i j : ℕ) :
    (conv2d cin k s p w x).pix b o i j = (conv2d cin k s p w x').pix b' o i j := by
  simp only [conv2d]
  congr 1
  refine Finset.sum_congr rfl fun c hc => Finset.sum_congr rfl fun di _ => Finset.sum_congr rfl fun dj _ => ?_
  rw [zeroPadded_same h c (Finset.mem_range.1 hc)]

/-- The channels that a layer is given, if it has a number of channels. -/
def Channels (s r : Shape) : Layer → Prop
  | .conv cin .. => s.c = cin
  | .convT cin .. => s.c = cin
  | .gdn c => s.c = c ∧ r = s
  | .batchNorm c => s.c = c ∧ r = s
  | .relu => r = s

theorem apply_channels {training : Bool} {l : Layer} {s r : Shape} (h : l.apply training s = .ok r) : Channels s r l := by
  cases l with
  | conv cin cout k st p bias =>
    unfold Layer.apply at h
    dsimp only at h
    split at h
    · cases h
    · simp only [Channels]; omega
  | convT cin cout k st p bias =>
    unfold Layer.apply at h
    dsimp only at h
    split at h
    · cases h
    · simp only [Channels]; omega
  | gdn c =>
    unfold Layer.apply at h
    dsimp only at h
    split at h
    · cases h
    · cases h; exact ⟨by omega, rfl⟩
  | batchNorm c =>
    unfold Layer.apply at h
    dsimp only at h
    split at h
    · cases h
    · split at h
      · cases h
      · cases h; exact ⟨by omega, rfl⟩
  | relu => cases h; rfl

theorem values_same {training inverse : Bool} {l : Layer} (hl : Apart training l) (w : LayerW) {t t' : Tensor}
    (h : Same n n' P t t') {r : Shape}
    (hc : Channels t.shape r l) {b b' : ℕ} (hb : P b b') (c : ℕ) (hcr : c < r.c) (i : ℕ) (hi : i < r.h) (j : ℕ) (hj : j < r.w) :
    values training inverse l w t b c i j = values training inverse l w t' b' c i j := by
  cases l with
  | conv cin cout k st p bias => exact conv_same _ _ _ _ _ (image_same h hb (Eq.symm hc)) _ _ _
  | convT cin cout k st p bias => exact convT_same _ _ _ _ _ _ (image_same h hb (Eq.symm hc)) _ _ _
  | gdn m =>
    obtain ⟨rfl, rfl⟩ := hc
    simp only [values, gdnValue]
    have : (fun l : Fin t.shape.c => t.val b l i j) = fun l : Fin t.shape.c => t'.val b' l i j :=
      funext fun l => h.val b b' hb l l.2 i hi j hj
    rw [this]
  | batchNorm m =>
    obtain ⟨rfl, rfl⟩ := hc
    rcases hl with rfl | hl
    · simp only [values, UnetNet.batchNorm, Tensor.image, Bool.false_eq_true, if_false]
      rw [h.val b b' hb c hcr i hi j hj]
    · exact absurd rfl (hl t.shape.c)
  | relu =>
    cases hc
    simp only [values, relu, Tensor.image]
    rw [h.val b b' hb c hcr i hi j hj]

theorem run_same {training inverse : Bool} {l : Layer} (hl : Apart training l) (w : LayerW) {t t' : Tensor}
    (h : Same n n' P t t') : RelE (Same n n' P) (run training inverse l w t) (run training inverse l w t') := by
  have ha := apply_same hl h.shape
  unfold run
  cases e : l.apply training t.shape with
  | error x =>
    rw [e] at ha
    rw [relE_error ha rfl]
    rfl
  | ok r =>
    rw [e] at ha
    obtain ⟨r', e', hr⟩ := relE_ok ha rfl
    rw [e']
    exact ⟨hr, fun b b' hb c hc i hi j hj => values_same hl w h (apply_channels e) hb c hc i hi j hj⟩

theorem runAll_same {training : Bool} {ls : List Layer} (hl : ∀ l ∈ ls, Apart training l) (w : ℕ → LayerW) (k : ℕ)
    {t t' : Tensor} (h : Same n n' P t t') : RelE (Same n n' P) (runAll training w k ls t) (runAll training w k ls t') := by
  induction ls generalizing k t t' with
  | nil => exact h
  | cons l rest ih =>
    exact relE_bind (run_same (hl l (by simp)) _ h) fun _ _ h => ih (fun l hm => hl l (List.mem_cons_of_mem _ hm)) _ h

theorem forall₂_concat {α β : Type} {R : α → β → Prop} {l : List α} {l' : List β} {x : α} {x' : β}
    (h : List.Forall₂ R (l ++ [x]) (l' ++ [x'])) : List.Forall₂ R l l' ∧ R x x' := by
  have := List.rel_reverse h
  simp only [List.reverse_append, List.reverse_cons, List.reverse_nil, List.nil_append, List.singleton_append] at this
  cases this with
  | cons a b => exact ⟨by simpa using List.rel_reverse b, a⟩

/-- Lists of sizes. -/
abbrev SameSizes (n n' : ℕ) (l l' : List Shape) : Prop := List.Forall₂ (SameShape n n') l l'

/-- A tensor and sizes. -/
def SameEnc (n n' : ℕ) (P : ℕ → ℕ → Prop) (p p' : Tensor × List Shape) : Prop :=
  Same n n' P p.1 p'.1 ∧ SameSizes n n' p.2 p'.2

theorem encodeLoop_same {training : Bool} {ls : List Layer} (hl : ∀ l ∈ ls, Apart training l) (w : ℕ → LayerW) (k : ℕ)
    {t t' : Tensor} (h : Same n n' P t t') {sizes sizes' : List Shape} (hs : SameSizes n n' sizes sizes') :
    RelE (SameEnc n n' P) (encodeLoop training w k ls t sizes) (encodeLoop training w k ls t' sizes') := by
  induction ls generalizing k t t' sizes sizes' with
  | nil => exact ⟨h, hs⟩
  | cons l rest ih =>
    have hr := run_same (inverse := false) (hl l (by simp)) (w k) h
    have hrest : ∀ l ∈ rest, Apart training l := fun l hm => hl l (List.mem_cons_of_mem _ hm)
    cases l with
    | conv =>
      exact relE_bind hr fun _ _ hx => ih hrest _ hx (List.rel_append hs (List.Forall₂.cons h.shape List.Forall₂.nil))
    | convT => exact relE_bind hr fun _ _ hx => ih hrest _ hx hs
    | gdn => exact relE_bind hr fun _ _ hx => ih hrest _ hx hs
    | batchNorm => exact relE_bind hr fun _ _ hx => ih hrest _ hx hs
    | relu => exact relE_bind hr fun _ _ hx => ih hrest _ hx hs

/-- The coder treats every image by itself: evaluation mode, or GDN. -/
def CoderApart (training : Bool) (k : Coder) : Prop := training = false ∨ k.useGdn = true

theorem encoder_apart {training : Bool} {k : Coder} (h : CoderApart training k) : ∀ l ∈ k.encoder, Apart training l := by
  rcases h with h | h
  · exact fun _ _ => Or.inl h
  · have gen : ∀ m cin, ∀ l ∈ k.encoderFrom m cin, ∀ c, l ≠ .batchNorm c := by
      intro m
      induction m with
      | zero => intro cin l hl c; simp only [Coder.encoderFrom, List.mem_singleton] at hl; subst hl; simp
      | succ m ih =>
        intro cin l hl c
        simp only [Coder.encoderFrom, Coder.norm, h, if_true, List.cons_append, List.nil_append, List.mem_cons] at hl
        rcases hl with rfl | rfl | hl
        · simp
        · simp
        · exact ih _ l hl c
    exact fun l hl => Or.inr (gen _ _ l hl)

theorem decoder_apart {training : Bool} {k : Coder} (h : CoderApart training k) : ∀ l ∈ k.decoder, Apart training l := by
  rcases h with h | h
  · exact fun _ _ => Or.inl h
  · have gen : ∀ m cin, ∀ l ∈ k.decoderFrom m cin, ∀ c, l ≠ .batchNorm c := by
      intro m
      induction m with
      | zero => intro cin l hl c; simp only [Coder.decoderFrom, List.mem_singleton] at hl; subst hl; simp
      | succ m ih =>
        intro cin l hl c
        simp only [Coder.decoderFrom, Coder.norm, h, if_true, List.cons_append, List.nil_append, List.mem_cons] at hl
        rcases hl with rfl | rfl | hl
        · simp
        · simp
        · exact ih _ l hl c
    exact fun l hl => Or.inr (gen _ _ l hl)

theorem encode_same {training : Bool} {k : Coder} (hk : CoderApart training k) (w : ℕ → LayerW) {t t' : Tensor}
    (h : Same n n' P t t') : RelE (SameEnc n n' P) (encode k training w t) (encode k training w t') :=
  encodeLoop_same (encoder_apart hk) w 0 h List.Forall₂.nil

theorem runSized_same {training : Bool} {l : Layer} (hl : Apart training l) (w : LayerW) {t t' : Tensor}
    (h : Same n n' P t t') {wanted wanted' : Shape} (hw : SameShape n n' wanted wanted') :
    RelE (Same n n' P) (runSized training l w t wanted) (runSized training l w t' wanted') := by
  cases l with
  | convT cin cout k st p bias =>
    unfold runSized applySized
    dsimp only
    rw [h.shape.c, h.shape.h, h.shape.w, hw.h, hw.w]
    split
    · rfl
    · rename_i hc
      simp only [bind_assoc]
      refine relE_bind (R := Eq) (relE_refl _) ?_
      rintro a _ rfl
      refine relE_bind (R := Eq) (relE_refl _) ?_
      rintro b _ rfl
      refine ⟨⟨h.shape.n, h.shape.n', rfl, rfl, rfl⟩, fun b b' hb c _ i _ j _ => ?_⟩
      exact convT_same _ _ _ _ 0 _ (image_same h hb (by omega)) _ _ _
  | conv => rfl
  | gdn => rfl
  | batchNorm => rfl
  | relu => rfl

theorem decodeLoop_same {training : Bool} {ls : List Layer} (hl : ∀ l ∈ ls, Apart training l) (w : ℕ → LayerW) (k : ℕ)
    {t t' : Tensor} (h : Same n n' P t t') {sizes sizes' : List Shape} (hs : SameSizes n n' sizes sizes') :
    RelE (Same n n' P) (decodeLoop training w k ls t sizes) (decodeLoop training w k ls t' sizes') := by
  induction ls generalizing k t t' sizes sizes' with
  | nil => exact h
  | cons l rest ih =>
    have hrest : ∀ l ∈ rest, Apart training l := fun l hm => hl l (List.mem_cons_of_mem _ hm)
    rw [decodeLoop, decodeLoop]
    by_cases hc : l.isConvT
    · rw [if_pos hc, if_pos hc]
      rcases List.eq_nil_or_concat sizes with rfl | ⟨a, x, rfl⟩
      · cases hs
        rfl
      · rcases List.eq_nil_or_concat sizes' with rfl | ⟨a', x', rfl⟩
        · have := hs.length_eq
          simp at this
        · rw [List.concat_eq_append, List.concat_eq_append] at *
          have hap := forall₂_concat hs
          simp only [List.getLast?_append, List.getLast?_singleton, Option.some_or, List.dropLast_concat]
          exact relE_bind (runSized_same (hl l (by simp)) _ h hap.2) fun _ _ hx => ih hrest _ hx hap.1
    · rw [if_neg hc, if_neg hc]
      exact relE_bind (run_same (hl l (by simp)) _ h) fun _ _ hx => ih hrest _ hx hs

theorem decode_same {training : Bool} {k : Coder} (hk : CoderApart training k) (w : ℕ → LayerW) {t t' : Tensor}
    (h : Same n n' P t t') {sizes sizes' : List Shape} (hs : SameSizes n n' sizes sizes') :
    RelE (Same n n' P) (decode k training w t sizes) (decode k training w t' sizes') := by
  unfold decode
  rw [← hs.length_eq]
  split
  · rfl
  · exact decodeLoop_same (decoder_apart hk) w 0 h hs

/-! ### Tensor operations -/

theorem broadcastDim_lt {a b r k : ℕ} (h : broadcastDim a b = .ok r) (hk : k < r) :
    (if a = 1 then 0 else k) < a ∧ (if b = 1 then 0 else k) < b := by
  unfold broadcastDim at h
  split_ifs at h with h1 h2 h3 <;> cases h <;> constructor <;> split_ifs <;> omega

theorem broadcast_ok {s t r : Shape} (h : broadcast s t = .ok r) :
    broadcastDim s.n t.n = .ok r.n ∧ broadcastDim s.c t.c = .ok r.c ∧ broadcastDim s.h t.h = .ok r.h ∧
      broadcastDim s.w t.w = .ok r.w := by
  obtain ⟨_, e1, h⟩ := bind_ok h
  obtain ⟨_, e2, h⟩ := bind_ok h
  obtain ⟨_, e3, h⟩ := bind_ok h
  obtain ⟨_, e4, h⟩ := bind_ok h
  cases h
  exact ⟨e1, e2, e3, e4⟩

theorem at_same (hP : Inside n n' P) {t t' : Tensor} (h : Same n n' P t t') {b b' : ℕ} (hb : P b b') {c i j : ℕ}
    (hc : (if t.shape.c = 1 then 0 else c) < t.shape.c) (hi : (if t.shape.h = 1 then 0 else i) < t.shape.h)
    (hj : (if t.shape.w = 1 then 0 else j) < t.shape.w) : t.at b c i j = t'.at b' c i j := by
  unfold Tensor.at
  rw [h.shape.c, h.shape.h, h.shape.w, h.shape.n, h.shape.n']
  have e1 : (if n = 1 then 0 else b) = b := by
    have := hP b b' hb
    split_ifs <;> omega
  have e2 : (if n' = 1 then 0 else b') = b' := by
    have := hP b b' hb
    split_ifs <;> omega
  rw [e1, e2]
  exact h.val b b' hb _ hc _ hi _ hj

theorem elementwise_same (hP : Inside n n' P) (f : ℝ → ℝ → ℝ) {x x' y y' : Tensor} (hx : Same n n' P x x')
    (hy : Same n n' P y y') : RelE (Same n n' P) (elementwise f x y) (elementwise f x' y') := by
  unfold elementwise
  have hsh : RelE (SameShape n n') (broadcast x.shape y.shape) (broadcast x'.shape y'.shape) := by
    unfold broadcast
    rw [hx.shape.n, hx.shape.n', hy.shape.n, hy.shape.n', hx.shape.c, hx.shape.h, hx.shape.w, hy.shape.c, hy.shape.h,
      hy.shape.w]
    have e : ∀ m, broadcastDim m m = .ok m := fun m => by simp [broadcastDim]
    rw [e, e]
    cases broadcastDim x.shape.c y.shape.c with
    | error _ => rfl
    | ok c =>
      cases broadcastDim x.shape.h y.shape.h with
      | error _ => rfl
      | ok h =>
        cases broadcastDim x.shape.w y.shape.w with
        | error _ => rfl
        | ok w => exact ⟨rfl, rfl, rfl, rfl, rfl⟩
  cases e : broadcast x.shape y.shape with
  | error er =>
    rw [e] at hsh
    rw [relE_error hsh rfl]
    rfl
  | ok r =>
    rw [e] at hsh
    obtain ⟨r', e', hr⟩ := relE_ok hsh rfl
    rw [e']
    obtain ⟨_, b2, b3, b4⟩ := broadcast_ok e
    refine ⟨hr, fun b b' hb c hc i hi j hj => ?_⟩
    have k2 := broadcastDim_lt b2 hc
    have k3 := broadcastDim_lt b3 hi
    have k4 := broadcastDim_lt b4 hj
    exact congrArg₂ f (at_same hP hx hb k2.1 k3.1 k4.1) (at_same hP hy hb k2.2 k3.2 k4.2)

theorem cat3_same {x x' y y' z z' : Tensor} (hx : Same n n' P x x') (hy : Same n n' P y y') (hz : Same n n' P z z') :
    RelE (Same n n' P) (cat3 x y z) (cat3 x' y' z') := by
  unfold cat3 concat3
  rw [hx.shape.n, hx.shape.n', hy.shape.n, hy.shape.n', hz.shape.n, hz.shape.n', hx.shape.c, hx.shape.h, hx.shape.w,
    hy.shape.c, hy.shape.h, hy.shape.w, hz.shape.c, hz.shape.h, hz.shape.w]
  simp only [ne_eq, not_true_eq_false, false_or]
  split
  · rfl
  · rename_i hne
    push Not at hne
    obtain ⟨h1, h2, h3, h4⟩ := hne
    refine ⟨⟨rfl, rfl, rfl, rfl, rfl⟩, fun b b' hb c hc i hi j hj => ?_⟩
    dsimp only at hc hi hj ⊢
    split_ifs with k1 k2
    · exact hx.val b b' hb c k1 i hi j hj
    · exact hy.val b b' hb _ (by omega) i (by omega) j (by omega)
    · exact hz.val b b' hb _ (by omega) i (by omega) j (by omega)

theorem pool_same {t t' : Tensor} (h : Same n n' P t t') : RelE (Same n n' P) (pool t) (pool t') := by
  unfold pool avgPool
  rw [h.shape.h, h.shape.w]
  split
  · rfl
  · refine ⟨⟨h.shape.n, h.shape.n', h.shape.c, rfl, rfl⟩, fun b b' hb c hc i hi j hj => ?_⟩
    dsimp only at hc hi hj ⊢
    rw [h.val b b' hb c hc _ (by omega) _ (by omega), h.val b b' hb c hc _ (by omega) _ (by omega),
      h.val b b' hb c hc _ (by omega) _ (by omega), h.val b b' hb c hc _ (by omega) _ (by omega)]

theorem sourceRow_lt {size newSize i : ℕ} (h0 : size ≠ 0) (hi : i < newSize) :
    (sourceRow size newSize i).1 < size ∧ (sourceRow size newSize i).2 < size := by
  have hlow : ⌊sourcePos size newSize i⌋₊ < size := by
    have hs : (0 : ℝ) < size := by exact_mod_cast Nat.pos_of_ne_zero h0
    have hn : (0 : ℝ) < newSize := by exact_mod_cast Nat.lt_of_le_of_lt (Nat.zero_le i) hi
    refine (Nat.floor_lt (le_max_left _ _)).2 ?_
    refine max_lt hs ?_
    have : ((i : ℝ) + 1 / 2) * (size / newSize) < size := by
      rw [mul_div_assoc', div_lt_iff₀ hn, mul_comm]
      refine mul_lt_mul_of_pos_left ?_ hs
      have : (i : ℝ) + 1 ≤ newSize := by exact_mod_cast hi
      linarith
    linarith
  unfold sourceRow
  dsimp only
  refine ⟨hlow, ?_⟩
  split_ifs with h
  · exact h
  · exact hlow

theorem resize_same {s s' : Shape} (h : SameShape n n' s s') (a b : ℕ) :
    RelE (SameShape n n') (resize s a b) (resize s' a b) := by
  unfold resize
  rw [h.h, h.w]
  split
  · rfl
  · exact ⟨h.n, h.n', h.c, rfl, rfl⟩

theorem resize_ok {s r : Shape} {a b : ℕ} (h : resize s a b = .ok r) :
    s.h ≠ 0 ∧ s.w ≠ 0 ∧ r = { s with h := a, w := b } := by
  unfold resize at h
  split at h
  · cases h
  · cases h
    exact ⟨by omega, by omega, rfl⟩

theorem resizeBilinear_same {t t' : Tensor} (h : Same n n' P t t') (a b : ℕ) :
    RelE (Same n n' P) (resizeBilinear t a b) (resizeBilinear t' a b) := by
  have hs := resize_same h.shape a b
  unfold resizeBilinear
  cases e : resize t.shape a b with
  | error er =>
    rw [e] at hs
    rw [relE_error hs rfl]
    rfl
  | ok r =>
    rw [e] at hs
    obtain ⟨r', e', hr⟩ := relE_ok hs rfl
    rw [e']
    obtain ⟨z1, z2, rfl⟩ := resize_ok e
    refine ⟨hr, fun b b' hb c hc i hi j hj => ?_⟩
    dsimp only at hc hi hj ⊢
    rw [h.shape.h, h.shape.w]
    have r1 := sourceRow_lt z1 hi
    have r2 := sourceRow_lt z2 hj
    rw [h.val b b' hb c hc _ r1.1 _ r2.1, h.val b b' hb c hc _ r1.1 _ r2.2, h.val b b' hb c hc _ r1.2 _ r2.1,
      h.val b b' hb c hc _ r1.2 _ r2.2]

theorem resizeNearest_same {t t' : Tensor} (h : Same n n' P t t') (a b : ℕ) :
    RelE (Same n n' P) (resizeNearest t a b) (resizeNearest t' a b) := by
  have hs := resize_same h.shape a b
  unfold resizeNearest
  cases e : resize t.shape a b with
  | error er =>
    rw [e] at hs
    rw [relE_error hs rfl]
    rfl
  | ok r =>
    rw [e] at hs
    obtain ⟨r', e', hr⟩ := relE_ok hs rfl
    rw [e']
    obtain ⟨z1, z2, rfl⟩ := resize_ok e
    refine ⟨hr, fun b b' hb c hc i hi j hj => ?_⟩
    dsimp only at hc hi hj ⊢
    rw [h.shape.h, h.shape.w]
    refine h.val b b' hb c hc _ (Nat.div_lt_of_lt_mul ?_) _ (Nat.div_lt_of_lt_mul ?_)
    · exact Nat.mul_lt_mul_of_pos_right hi (Nat.pos_of_ne_zero z1)
    · exact Nat.mul_lt_mul_of_pos_right hj (Nat.pos_of_ne_zero z2)

theorem warp_same {x x' f f' : Tensor} (hx : Same n n' P x x') (hf : Same n n' P f f') :
    RelE (Same n n' P) (warpTensor x f) (warpTensor x' f') := by
  unfold warpTensor Warp.denseImageWarp
  dsimp only
  simp only [not_true_eq_false, if_false]
  rw [hf.shape.c, hx.shape.n, hx.shape.n', hf.shape.n, hf.shape.n', hx.shape.h,
    hx.shape.w]
  by_cases h2 : f.shape.c ≠ 2
  · rw [if_pos h2, if_pos h2]; rfl
  · rw [if_neg h2, if_neg h2]
    by_cases h3 : x.shape.h = 0 ∨ x.shape.w = 0
    · rw [if_pos (Or.inr h3), if_pos (Or.inr h3)]; rfl
    · rw [if_neg (by simpa using h3), if_neg (by simpa using h3)]
      refine ⟨⟨rfl, rfl, hx.shape.c, hf.shape.h, hf.shape.w⟩, fun b b' hb c hc i hi j hj => ?_⟩
      dsimp only at hc hi hj ⊢
      rw [hf.shape.h, hf.shape.w, hf.val b b' hb 0 (by omega) i hi j hj, hf.val b b' hb 1 (by omega) i hi j hj]
      unfold Warp.gridSample
      dsimp only
      have hpix : Warp.pixelAt x.shape.h x.shape.w (x.val b c) = Warp.pixelAt x.shape.h x.shape.w (x'.val b' c) := by
        funext p q
        unfold Warp.pixelAt
        split
        · exact hx.val b b' hb c hc _ (by omega) _ (by omega)
        · rfl
      unfold Warp.bilinear
      rw [hpix]

/-! ### Networks -/

theorem pyramid_same (k : ℕ) {t t' : Tensor} (h : Same n n' P t t') :
    RelE (List.Forall₂ (Same n n' P)) (pyramidOf k t) (pyramidOf k t') := by
  induction k generalizing t t' with
  | zero => exact List.Forall₂.cons h List.Forall₂.nil
  | succ k ih =>
    exact relE_bind (pool_same h) fun _ _ h1 => relE_bind (ih h1) fun _ _ h2 => List.Forall₂.cons h h2

/-- Pairs of tensors. -/
def SamePair (n n' : ℕ) (P : ℕ → ℕ → Prop) (p p' : Tensor × Tensor) : Prop := Same n n' P p.1 p'.1 ∧ Same n n' P p.2 p'.2

/-- The results of the flow estimation. -/
def SameFlow (n n' : ℕ) (P : ℕ → ℕ → Prop) (p p' : Tensor × List (Tensor × Tensor)) : Prop :=
  Same n n' P p.1 p'.1 ∧ List.Forall₂ (SamePair n n' P) p.2 p'.2

theorem level_apart (training : Bool) (kernel : ℕ) (counts : List ℕ) (cin : ℕ) :
    ∀ l ∈ levelLayers kernel cin counts, Apart training l := by
  induction counts generalizing cin with
  | nil => intro l hl; cases hl
  | cons c rest ih =>
    intro l hl
    cases rest with
    | nil =>
      simp only [levelLayers, List.mem_singleton] at hl
      subst hl
      exact Or.inr fun c => by simp
    | cons d rest =>
      rw [levelLayers] at hl
      simp only [List.mem_cons] at hl
      rcases hl with rfl | rfl | hl
      · exact Or.inr fun c => by simp
      · exact Or.inr fun c => by simp
      · exact ih _ l hl

theorem flowLoop_same (hP : Inside n n' P) (e : Estimator) (training : Bool) (w : ℕ → ℕ → LayerW)
    {l l' : List (Tensor × Tensor)} (hl : List.Forall₂ (SamePair n n' P) l l') (k : ℕ) {f f' : Tensor}
    (hf : Same n n' P f f') {pairs pairs' : List (Tensor × Tensor)} (hp : List.Forall₂ (SamePair n n' P) pairs pairs') :
    RelE (SameFlow n n' P) (flowLoop e training w k l f pairs) (flowLoop e training w k l' f' pairs') := by
  induction hl generalizing k f f' pairs pairs' with
  | nil => exact ⟨hf, hp⟩
  | @cons p p' rest rest' h hrest ih =>
    obtain ⟨x, y⟩ := p
    obtain ⟨x', y'⟩ := p'
    obtain ⟨hx, hy⟩ := h
    dsimp only at hx hy
    rw [flowLoop, flowLoop, hx.shape.h, hx.shape.w]
    refine relE_bind (resizeBilinear_same hf _ _) fun g g' hg => ?_
    refine relE_bind (warp_same hx hg) fun a a' ha => ?_
    refine relE_bind (cat3_same ha hy hg) fun c c' hc => ?_
    refine relE_bind (runAll_same (level_apart training _ _ _) _ _ hc) fun u u' hu => ?_
    refine relE_bind (elementwise_same hP _ hg hu) fun g g' hg => ?_
    refine relE_bind (warp_same hx hg) fun a a' ha => ?_
    exact ih _ hg (List.rel_append hp (List.Forall₂.cons ⟨ha, hy⟩ List.Forall₂.nil))

theorem forall₂_take {α β : Type} {R : α → β → Prop} {l : List α} {l' : List β} (h : List.Forall₂ R l l') (k : ℕ) :
    List.Forall₂ R (l.take k) (l'.take k) := by
  induction h generalizing k with
  | nil => simp
  | cons h _ ih =>
    cases k with
    | zero => simp
    | succ k => exact List.Forall₂.cons h (ih k)

theorem forall₂_zip {l1 l1' l2 l2' : List Tensor} (h1 : List.Forall₂ (Same n n' P) l1 l1')
    (h2 : List.Forall₂ (Same n n' P) l2 l2') : List.Forall₂ (SamePair n n' P) (l1.zip l2) (l1'.zip l2') := by
  induction h1 generalizing l2 l2' with
  | nil => simp
  | cons h _ ih =>
    cases h2 with
    | nil => simp
    | cons k hk => exact List.Forall₂.cons ⟨h, k⟩ (ih hk)

theorem getLast_same {l l' : List Tensor} (h : List.Forall₂ (Same n n' P) l l') {t t' : Tensor} (ht : Same n n' P t t') :
    Same n n' P (l.getLast?.getD t) (l'.getLast?.getD t') := by
  induction h generalizing t t' with
  | nil => exact ht
  | @cons a a' r r' h hr ih =>
    have := ih h
    cases hr with
    | nil => exact h
    | cons k hk =>
      rw [List.getLast?_cons_cons, List.getLast?_cons_cons]
      simpa [List.getLast?_eq_some_getLast] using this

theorem estimate_same (hP : Inside n n' P) (e : Estimator) (training : Bool) (w : ℕ → ℕ → LayerW) {x x' y y' : Tensor}
    (hx : Same n n' P x x') (hy : Same n n' P y y') :
    RelE (SameFlow n n' P) (estimate e training w x y) (estimate e training w x' y') := by
  unfold estimate
  have hiff : x.shape = y.shape ↔ x'.shape = y'.shape := by
    have h1 := hx.shape
    have h2 := hy.shape
    cases hx1 : x.shape; cases hy1 : y.shape; cases hx2 : x'.shape; cases hy2 : y'.shape
    rw [hx1, hx2] at h1
    rw [hy1, hy2] at h2
    obtain ⟨a1, a2, a3, a4, a5⟩ := h1
    obtain ⟨b1, b2, b3, b4, b5⟩ := h2
    dsimp only at *
    subst a1 a2 a3 a4 a5 b1 b2 b3 b4 b5
    simp
  by_cases h : x.shape ≠ y.shape
  · rw [if_pos h, if_pos (by rwa [ne_eq, ← hiff])]
    rfl
  · rw [if_neg h, if_neg (by rwa [ne_eq, ← hiff])]
    refine relE_bind (pyramid_same _ hx) fun l l' hl => ?_
    refine relE_bind (pyramid_same _ hy) fun m m' hm => ?_
    have hlast := getLast_same hl hx
    refine flowLoop_same hP e training w (forall₂_take (List.rel_reverse (forall₂_zip hl hm)) _) 0 ?_ List.Forall₂.nil
    exact ⟨⟨hlast.shape.n, hlast.shape.n', by simp only [hlast.shape.c], hlast.shape.h, hlast.shape.w⟩,
      fun _ _ _ _ _ _ _ _ _ => rfl⟩

theorem residualBlock_same (hP : Inside n n' P) (cin cout : ℕ) (training : Bool) (w : BlockW) {t t' : Tensor}
    (h : Same n n' P t t') :
    RelE (Same n n' P) (residualBlock cin cout training w t) (residualBlock cin cout training w t') := by
  refine relE_bind (runAll_same ?_ _ _ h) fun _ _ hy => elementwise_same hP _ h hy
  intro l hl
  simp only [List.mem_cons, List.not_mem_nil, or_false] at hl
  rcases hl with rfl | rfl | rfl | rfl <;> exact Or.inr fun c => by simp

theorem unet_same (hP : Inside n n' P) (channels : ℕ) (training : Bool) (w : ℕ → BlockW × BlockW) (k : ℕ) {t t' : Tensor}
    (h : Same n n' P t t') : RelE (Same n n' P) (unet channels training w k t) (unet channels training w k t') := by
  induction k generalizing t t' with
  | zero => exact h
  | succ k ih =>
    cases k with
    | zero =>
      refine relE_bind (residualBlock_same hP _ _ _ _ h) fun a a' ha => ?_
      exact residualBlock_same hP _ _ _ _ ha
    | succ k =>
      refine relE_bind (residualBlock_same hP _ _ _ _ h) fun a a' ha => ?_
      refine relE_bind (pool_same ha) fun c c' hc => ?_
      refine relE_bind (ih hc) fun d d' hd => ?_
      refine relE_bind (R := Same n n' P) ?_ fun u u' hu => ?_
      · rw [h.shape.h, h.shape.w]
        exact resizeNearest_same hd _ _
      refine relE_bind (elementwise_same hP _ ha hu) fun c c' hc => ?_
      exact residualBlock_same hP _ _ _ _ hc

theorem compensate_same (hP : Inside n n' P) (m : Compensator) (training : Bool) (w : CompensatorW)
    {x x' y y' z z' : Tensor} (hx : Same n n' P x x') (hy : Same n n' P y y') (hz : Same n n' P z z') :
    RelE (Same n n' P) (compensate m training w x y z) (compensate m training w x' y' z') := by
  refine relE_bind (cat3_same hx hy hz) fun a a' ha => ?_
  refine relE_bind (runAll_same ?_ _ _ ha) fun a a' ha => ?_
  · intro l hl
    simp only [Compensator.input, List.mem_singleton] at hl
    subst hl
    exact Or.inr fun c => by simp
  refine relE_bind (unet_same hP _ _ _ _ ha) fun a a' ha => ?_
  refine runAll_same ?_ _ _ ha
  intro l hl
  simp only [Compensator.output, List.mem_cons, List.not_mem_nil, or_false] at hl
  rcases hl with rfl | rfl | rfl <;> exact Or.inr fun c => by simp

variable {Str : Type}

theorem predict_same (hP : Inside n n' P) (m : Model) (w : Weights Str) (training : Bool) {x x' f f' : Tensor}
    (hx : Same n n' P x x') (hf : Same n n' P f f') :
    RelE (Same n n' P) (predict m w training x f) (predict m w training x' f') :=
  relE_bind (warp_same hx hf) fun _ _ ha => compensate_same hP _ _ _ hx ha hf

theorem bottleneck_same (k : Bottleneck Str) (channels : ℕ) (training : Bool) {u u' : ℕ → ℕ → ℕ → ℕ → ℝ}
    (hu : training = true → ∀ b b', P b b' → ∀ c i j, u b c i j = u' b' c i j) {t t' : Tensor} (h : Same n n' P t t') :
    RelE (SamePair n n' P) (k.forward channels training u t) (k.forward channels training u' t') := by
  unfold Bottleneck.forward bottleneck
  rw [h.shape.c]
  split
  · rfl
  · have hv : ∀ b b', P b b' → ∀ c < t.shape.c, ∀ i < t.shape.h, ∀ j < t.shape.w,
        (if training then t.val b c i j + u b c i j
          else (roundHalfEven (t.val b c i j - k.median (chan channels c)) : ℝ) + k.median (chan channels c)) =
        (if training then t'.val b' c i j + u' b' c i j
          else (roundHalfEven (t'.val b' c i j - k.median (chan channels c)) : ℝ) + k.median (chan channels c)) := by
      intro b b' hb c hc i hi j hj
      rw [h.val b b' hb c hc i hi j hj]
      split
      · rename_i ht
        rw [hu ht b b' hb]
      · rfl
    exact ⟨⟨h.shape, hv⟩, ⟨h.shape, fun b b' hb c hc i hi j hj => congrArg _ (hv b b' hb c hc i hi j hj)⟩⟩

/-- The outputs of `forward`. -/
structure SameOutput (n n' : ℕ) (P : ℕ → ℕ → Prop) (o o' : Output) : Prop where
  flow : Same n n' P o.flow o'.flow
  image2 : Same n n' P o.image2 o'.image2
  residual : Same n n' P o.residual o'.residual
  flowProbabilities : Same n n' P o.flowProbabilities o'.flowProbabilities
  residualProbabilities : Same n n' P o.residualProbabilities o'.residualProbabilities

/-- All parts treat every image by itself. -/
def ModelApart (training : Bool) (m : Model) : Prop :=
  CoderApart training m.motionEncoder ∧ CoderApart training m.motionDecoder ∧ CoderApart training m.residualEncoder ∧
    CoderApart training m.residualDecoder

theorem forward_same (hP : Inside n n' P) (m : Model) (w : Weights Str) (training : Bool) (hm : ModelApart training m)
    {u u' v v' : ℕ → ℕ → ℕ → ℕ → ℝ}
    (hu : training = true → ∀ b b', P b b' → ∀ c i j, u b c i j = u' b' c i j)
    (hv : training = true → ∀ b b', P b b' → ∀ c i j, v b c i j = v' b' c i j)
    {x x' y y' : Tensor} (hx : Same n n' P x x') (hy : Same n n' P y y') :
    RelE (SameOutput n n' P) (forward m w training u v x y) (forward m w training u' v' x' y') := by
  obtain ⟨h1, h2, h3, h4⟩ := hm
  unfold forward
  refine relE_bind (estimate_same hP _ _ _ hx hy) ?_
  rintro ⟨f, _⟩ ⟨f', _⟩ ⟨hf, _⟩
  refine relE_bind (encode_same h1 _ hf) ?_
  rintro ⟨f, s⟩ ⟨f', s'⟩ ⟨hf, hs⟩
  refine relE_bind (bottleneck_same _ _ _ hu hf) ?_
  rintro ⟨f, s⟩ ⟨f', s'⟩ ⟨hf, hfp⟩
  refine relE_bind (decode_same h2 _ hf hs) fun f f' hf => ?_
  refine relE_bind (predict_same hP _ _ _ hx hf) fun e e' he => ?_
  refine relE_bind (elementwise_same hP _ hy he) fun r r' hr => ?_
  refine relE_bind (encode_same h3 _ hr) ?_
  rintro ⟨r, s⟩ ⟨r', s'⟩ ⟨hr, hs⟩
  refine relE_bind (bottleneck_same _ _ _ hv hr) ?_
  rintro ⟨r, s⟩ ⟨r', s'⟩ ⟨hr, hrp⟩
  refine relE_bind (decode_same h4 _ hr hs) fun r r' hr => ?_
  refine relE_bind (elementwise_same hP _ he hr) fun i i' hi => ?_
  exact ⟨hf, hi, hr, hfp, hrp⟩

/-! ### Strings -/

/-- Lists of strings. -/
structure SameStrings (n n' : ℕ) (P : ℕ → ℕ → Prop) (l l' : List Str) : Prop where
  n : l.length = n
  n' : l'.length = n'
  get : ∀ b b', P b b' → l[b]? = l'[b']?

/-- Compressed frames. -/
structure SameFrame (n n' : ℕ) (P : ℕ → ℕ → Prop) (p p' : PFrame Str) : Prop where
  flow : SameStrings n n' P p.flow p'.flow
  flowSizes : SameSizes n n' p.flowSizes p'.flowSizes
  residual : SameStrings n n' P p.residual p'.residual
  residualSizes : SameSizes n n' p.residualSizes p'.residualSizes

theorem index_lt {p c h w : ℕ} (hp : p < c * h * w) : p / (h * w) < c ∧ p / w % h < h ∧ p % w < w := by
  have hw : 0 < w := Nat.pos_of_ne_zero (by rintro rfl; simp at hp)
  have hh : 0 < h := Nat.pos_of_ne_zero (by rintro rfl; simp at hp)
  exact ⟨Nat.div_lt_of_lt_mul (by rw [Nat.mul_comm (h * w), ← Nat.mul_assoc]; exact hp), Nat.mod_lt _ hh, Nat.mod_lt _ hw⟩

theorem compress_same (hP : Inside n n' P) (k : Bottleneck Str) (channels : ℕ) {t t' : Tensor} (h : Same n n' P t t') :
    RelE (SameStrings n n' P) (k.compress channels t) (k.compress channels t') := by
  unfold Bottleneck.compress
  dsimp only
  rw [h.shape.c, h.shape.h, h.shape.w, h.shape.n, h.shape.n']
  split
  · rfl
  · refine ⟨by simp, by simp, fun b b' hb => ?_⟩
    have hbn := hP b b' hb
    rw [List.getElem?_map, List.getElem?_map, List.getElem?_range hbn.1, List.getElem?_range hbn.2]
    simp only [Option.map_some, Option.some.injEq]
    congr 1
    refine List.map_congr_left fun p hp => ?_
    obtain ⟨i1, i2, i3⟩ := index_lt (List.mem_range.1 hp)
    rw [h.val b b' hb _ i1 _ i2 _ i3]

theorem decompress_same (k : Bottleneck Str) (channels : ℕ) {l l' : List Str} (h : SameStrings n n' P l l') (a b : ℕ) :
    Same n n' P (k.decompress channels l a b) (k.decompress channels l' a b) := by
  refine ⟨⟨h.n, h.n', rfl, rfl, rfl⟩, fun b b' hb c _ i _ j _ => ?_⟩
  simp only [Bottleneck.decompress]
  rw [h.get b b' hb]

theorem frame_same (hP : Inside n n' P) (m : Model) (w : Weights Str) {x x' y y' : Tensor} (hx : Same n n' P x x')
    (hy : Same n n' P y y') : RelE (SameFrame n n' P) (compress m w x y) (compress m w x' y') := by
  unfold compress
  refine relE_bind (estimate_same hP _ _ _ hx hy) ?_
  rintro ⟨f, _⟩ ⟨f', _⟩ ⟨hf, _⟩
  refine relE_bind (encode_same (Or.inl rfl) _ hf) ?_
  rintro ⟨f, s⟩ ⟨f', s'⟩ ⟨hf, hfs⟩
  refine relE_bind (compress_same hP _ _ hf) fun l l' hl => ?_
  have hd := decompress_same w.motionBottleneck m.motionBottleneck hl f.shape.h f.shape.w
  dsimp only at hf hfs ⊢
  rw [hf.shape.h, hf.shape.w]
  refine relE_bind (decode_same (Or.inl rfl) _ hd hfs) fun f f' hf => ?_
  refine relE_bind (predict_same hP _ _ _ hx hf) fun e e' he => ?_
  refine relE_bind (elementwise_same hP _ hy he) fun r r' hr => ?_
  refine relE_bind (encode_same (Or.inl rfl) _ hr) ?_
  rintro ⟨r, s⟩ ⟨r', s'⟩ ⟨hr, hs⟩
  refine relE_bind (compress_same hP _ _ hr) fun q q' hq => ?_
  exact ⟨hl, hfs, hq, hs⟩

theorem asked_same {l l' : List Shape} (h : SameSizes n n' l l') : RelE Eq (asked l) (asked l') := by
  unfold asked
  rcases List.eq_nil_or_concat l with rfl | ⟨a, x, rfl⟩
  · cases h
    rfl
  · rcases List.eq_nil_or_concat l' with rfl | ⟨a', x', rfl⟩
    · have := h.length_eq
      simp at this
    · rw [List.concat_eq_append, List.concat_eq_append] at *
      have hap := forall₂_concat h
      simp only [List.getLast?_append, List.getLast?_singleton, Option.some_or]
      have hxx : SameShape n n' x x' := hap.2
      show (_, _) = (_, _)
      rw [hxx.h, hxx.w]

theorem received_same (hP : Inside n n' P) (m : Model) (w : Weights Str) {x x' : Tensor} (hx : Same n n' P x x')
    {p p' : PFrame Str} (hp : SameFrame n n' P p p') :
    RelE (Same n n' P) (decompress m w x p) (decompress m w x' p') := by
  unfold decompress
  refine relE_bind (asked_same hp.flowSizes) ?_
  rintro a _ rfl
  refine relE_bind (decode_same (Or.inl rfl) _ (decompress_same _ _ hp.flow _ _) hp.flowSizes) fun f f' hf => ?_
  refine relE_bind (predict_same hP _ _ _ hx hf) fun e e' he => ?_
  refine relE_bind (asked_same hp.residualSizes) ?_
  rintro a _ rfl
  refine relE_bind (decode_same (Or.inl rfl) _ (decompress_same _ _ hp.residual _ _) hp.residualSizes) fun r r' hr => ?_
  refine relE_bind (elementwise_same hP _ he hr) fun i i' hi => ?_
  exact ⟨hi.shape, fun b b' hb c hc i hi' j hj => by
    have := hi.val b b' hb c hc i hi' j hj
    dsimp only
    rw [this]⟩

end Batch

end Verif.Models.DvcValues
