import Verif.Models.UnetNet
import Verif.Models.PropsUnet
import Verif.Models.PropsHificNet
import Verif.Models.PropsVqVaeNet

/-!
# C135: what the U-Net discriminator computes

Specification: `residualNet`, `Same` and `SameAround` (from C134 and C132).
-/

namespace Verif.Models.UnetNet

open Verif Verif.Functional
open Verif.Models.HificNet (ConvW conv2d zeroPadded add SameAround InFrame Near Pos)
open Verif.Models.VqVaeNet (SameImage Same same_iff conv_same)
open Verif.Models.Unet (Err Level Shape)

/-! ### Specification -/

/-- The normalisation as a function. -/
noncomputable def normOf (t : NormType) (m : Mode) (w : BatchW) (x : Image ℝ) : Image ℝ :=
  match t with
  | .batch => batchNorm m w x
  | .instance => instanceNorm x
  | _ => x

/-- The left block: normalisation, activation, convolution, normalisation, activation, convolution, pooling; in the top
level without the first two. -/
noncomputable def leftOf (t : NormType) (m : Mode) (top : Bool) (l : Level) (w : LevelW) (x : Image ℝ) : Image ℝ :=
  pool (conv2d l.downPlanes 3 1 1 w.conv2 (leaky (normOf t m w.norm2 (conv3 t l.inPlanes w.conv1
    (if top then x else leaky (normOf t m w.norm1 x))))))

/-- The left shortcut: a convolution if the number of channels changes, and pooling. -/
noncomputable def shortOf (l : Level) (w : LevelW) (x : Image ℝ) : Image ℝ :=
  pool (if l.inPlanes ≠ l.downPlanes then conv2d l.inPlanes 1 1 0 w.short x else x)

/-- The right block: normalisation, activation, upsampling, convolution, normalisation, activation, convolution. -/
noncomputable def rightOf (t : NormType) (m : Mode) (l : Level) (w : LevelW) (x : Image ℝ) : Image ℝ :=
  conv2d l.outPlanes 3 1 1 w.conv4 (leaky (normOf t m w.norm4 (conv3 t l.downPlanes w.conv3
    (upsample (leaky (normOf t m w.norm3 x))))))

/-- The right shortcut: a convolution if the number of channels changes, and upsampling. -/
noncomputable def shortUpOf (l : Level) (w : LevelW) (x : Image ℝ) : Image ℝ :=
  upsample (if l.downPlanes ≠ l.outPlanes then conv2d l.downPlanes 1 1 0 w.shortUp x else x)

/-- The deepest features: blocks and shortcuts of the way down, where the shortcuts are given `seen` of the features (the
features themselves in the top level, number 0). -/
noncomputable def deepest (seen : Image ℝ → Image ℝ) (t : NormType) (m : Mode) (w : ℕ → LevelW) :
    ℕ → List Level → Image ℝ → Image ℝ
  | _, [], x => x
  | k, l :: ls, x => deepest seen t m w (k + 1) ls
      (add (leftOf t m (decide (k = 0)) l (w k) x) (shortOf l (w k) (if k = 0 then x else seen x)))

/-- The way up from the deepest features; clipped levels do nothing. -/
noncomputable def upward (seen : Image ℝ → Image ℝ) (t : NormType) (m : Mode) (w : ℕ → LevelW) :
    ℕ → List Level → Image ℝ → Image ℝ
  | _, [], y => y
  | k, l :: ls, y =>
    let y := upward seen t m w (k + 1) ls y
    if l.clip then y else add (rightOf t m l (w k) y) (shortUpOf l (w k) (seen y))

/-- The network: down, up, and a convolution of size one.  With `seen = id` every level adds a block and a shortcut of
the same features. -/
noncomputable def residualNet (seen : Image ℝ → Image ℝ) (t : NormType) (m : Mode) (levels : List Level) (w : Weights)
    (x : Image ℝ) : Image ℝ :=
  conv2d 64 1 1 0 w.last (upward seen t m w.level 0 levels (deepest seen t m w.level 0 levels x))

/-- The image with the context below its channels, as the conditional discriminator sees it. -/
noncomputable def withContext (chans contextIn : ℕ) (w : Weights) (x c : Image ℝ) : Image ℝ :=
  cat chans x (interpolate x.height x.width (leaky (reflectConv contextIn w.context c)))

/-- What a layer in place leaves for the shortcut: without a normalisation layer before it, the activation is applied to
the tensor that the shortcut is given next. -/
noncomputable def seenBy (t : NormType) : Image ℝ → Image ℝ :=
  match t with
  | .batch => id
  | .instance => id
  | _ => leaky

/-- A mean over a single value: where torch's normalisation layers raise. -/
def Single (t : NormType) (m : Mode) (height width : ℕ) : Prop :=
  match t with
  | .batch => m.training = true ∧ m.images * height * width = 1
  | .instance => height * width = 1
  | _ => False

/-! ### Memory -/

theorem get_append (h g : Heap) (r : ℕ) (hr : r < h.length) : get (h ++ g) r = get h r := by
  unfold get
  rw [List.getElem?_append_left hr]

theorem getElem_get (h : Heap) (r : ℕ) (hr : r < h.length) : h[r]? = some (get h r) := by
  unfold get
  simp [hr]

theorem get_last (h : Heap) (x : Image ℝ) : get (h ++ [x]) h.length = x := by
  unfold get
  simp

theorem get_set (h : Heap) (x : Image ℝ) (r : ℕ) (hr : r < h.length) : get (h.set r x) r = x := by
  unfold get
  simp [hr]

/-- The operation, on tensors in `dom`, returns the value `f` and leaves `g` in the tensor it is given; it changes no other
tensor.  It returns the tensor it is given if `shared`, and a new one otherwise. -/
def Does (shared : Bool) (op : Heap → ℕ → Except Err (Heap × ℕ)) (dom : Image ℝ → Prop) (f g : Image ℝ → Image ℝ) : Prop :=
  ∀ h r, r < h.length → dom (get h r) → ∃ h' r', op h r = .ok (h', r') ∧ h.length ≤ h'.length ∧ r' < h'.length ∧
    (if shared then r' = r else h.length ≤ r') ∧ get h' r' = f (get h r) ∧ get h' r = g (get h r) ∧
    ∀ j < h.length, j ≠ r → h'[j]? = h[j]?

variable {t : NormType} {m : Mode}

theorem does_fresh (f : Image ℝ → Image ℝ) (dom : Image ℝ → Prop) : Does false (fun h r => .ok (fresh f h r)) dom f id := by
  intro h r hr _
  refine ⟨_, _, rfl, by simp, by simp, by simp, get_last _ _, get_append _ _ _ hr, ?_⟩
  intro j hj _
  exact List.getElem?_append_left hj

theorem does_inplace (f : Image ℝ → Image ℝ) (dom : Image ℝ → Prop) :
    Does true (fun h r => .ok (inplace f h r)) dom f f := by
  intro h r hr _
  refine ⟨_, _, rfl, by simp, by simpa using hr, by simp, get_set _ _ _ hr, get_set _ _ _ hr, ?_⟩
  intro j _ hjr
  exact List.getElem?_set_ne (Ne.symm hjr)

theorem does_id (dom : Image ℝ → Prop) : Does true (fun h r => .ok (h, r)) dom id id :=
  fun h r hr _ => ⟨h, r, rfl, le_rfl, hr, by simp, rfl, rfl, fun _ _ _ => rfl⟩

theorem Does.comp {a1 a2 : Bool} {o1 o2 : Heap → ℕ → Except Err (Heap × ℕ)} {d1 d2 : Image ℝ → Prop}
    {f1 f2 g1 g2 : Image ℝ → Image ℝ} (h1 : Does a1 o1 d1 f1 g1) (h2 : Does a2 o2 d2 f2 g2)
    (hd : ∀ x, d1 x → d2 (f1 x)) :
    Does (a1 && a2) (fun h r => do let (h, r) ← o1 h r; o2 h r) d1 (fun x => f2 (f1 x))
      (if a1 then fun x => g2 (f1 x) else g1) := by
  intro h r hr hdom
  obtain ⟨h', r', e1, l1, r1, al1, v1, w1, k1⟩ := h1 h r hr hdom
  obtain ⟨h'', r'', e2, l2, r2, al2, v2, w2, k2⟩ := h2 h' r' r1 (v1 ▸ hd _ hdom)
  refine ⟨h'', r'', ?_, l1.trans l2, r2, ?_, by rw [v2, v1], ?_, ?_⟩
  · simp only [e1, e2, bind, Except.bind]
  · cases a1
    · simp only [Bool.false_and, Bool.false_eq_true, if_false]
      simp only [Bool.false_eq_true, if_false] at al1
      cases a2
      · simp only [Bool.false_eq_true, if_false] at al2
        omega
      · simp only [if_true] at al2
        omega
    · simp only [if_true] at al1
      cases a2
      · simp only [Bool.and_false, Bool.false_eq_true, if_false]
        simp only [Bool.false_eq_true, if_false] at al2
        omega
      · simp only [Bool.and_self, if_true]
        simp only [if_true] at al2
        omega
  · cases a1
    · simp only [Bool.false_eq_true, if_false]
      simp only [Bool.false_eq_true, if_false] at al1
      have := k2 r (by omega) (by omega)
      unfold get at w1 ⊢
      rw [this]
      exact w1
    · simp only [if_true] at al1 ⊢
      rw [← v1, ← w2, al1]
  · intro j hj hjr
    rw [k2 j (by omega) ?_, k1 j hj hjr]
    cases a1
    · simp only [Bool.false_eq_true, if_false] at al1
      omega
    · simp only [if_true] at al1
      omega

/-- Whether the normalisation returns the tensor it is given. -/
def noLayer (t : NormType) : Bool := t = .spectral || t = .identity

theorem does_norm (w : BatchW) :
    Does (noLayer t) (norm t m w) (fun x => ¬ Single t m x.height x.width) (normOf t m w) id := by
  intro h r hr hd
  cases t
  · have := does_fresh (batchNorm m w) (fun _ => True) h r hr trivial
    unfold norm
    dsimp only
    rw [if_neg (show ¬ (m.training = true ∧ m.images * (get h r).height * (get h r).width = 1) from hd)]
    exact this
  · exact does_id (fun _ => True) h r hr trivial
  · have := does_fresh instanceNorm (fun _ => True) h r hr trivial
    unfold norm
    dsimp only
    rw [if_neg (show ¬ ((get h r).height * (get h r).width = 1) from hd)]
    exact this
  · exact does_id (fun _ => True) h r hr trivial

theorem normOf_size (w : BatchW) (x : Image ℝ) :
    (normOf t m w x).height = x.height ∧ (normOf t m w x).width = x.width := by
  cases t <;> exact ⟨rfl, rfl⟩

theorem conv3_size (c : ℕ) (w : ConvW) (x : Image ℝ) (hx : 0 < x.height ∧ 0 < x.width) :
    (conv3 t c w x).height = x.height ∧ (conv3 t c w x).width = x.width := by
  unfold conv3
  split <;> exact VqVaeNet.conv3_size _ _ _ hx

/-- The tensors that a level can process: not empty after pooling. -/
def Big (x : Image ℝ) : Prop := 2 ≤ x.height ∧ 2 ≤ x.width

theorem Big.pos {x : Image ℝ} (h : Big x) : 0 < x.height ∧ 0 < x.width := ⟨by have := h.1; omega, by have := h.2; omega⟩

theorem big_not_single {height width : ℕ} (h1 : 2 ≤ height) (h2 : 1 ≤ width) : ¬ Single t m height width := by
  cases t
  · rintro ⟨-, h⟩
    have h3 : height = 1 := by
      have h4 := Nat.eq_one_of_mul_eq_one_right h
      exact Nat.eq_one_of_mul_eq_one_left h4
    omega
  · exact id
  · intro h
    have : height = 1 := Nat.eq_one_of_mul_eq_one_right h
    omega
  · exact id

theorem Does.mono {a : Bool} {op : Heap → ℕ → Except Err (Heap × ℕ)} {d d' : Image ℝ → Prop} {f g : Image ℝ → Image ℝ}
    (h : Does a op d f g) (hd : ∀ x, d' x → d x) : Does a op d' f g := fun h' r hr hdom => h h' r hr (hd _ hdom)

theorem does_left (top : Bool) (l : Level) (w : LevelW) :
    Does false (leftBlock t m top l w) Big (leftOf t m top l w) (if top then id else seenBy t) := by
  have tail : Does false (fun h r => do
      let (h, r) ← .ok (fresh (conv3 t l.inPlanes w.conv1) h r)
      let (h, r) ← norm t m w.norm2 h r
      let (h, r) ← .ok (inplace leaky h r)
      let (h, r) ← .ok (fresh (conv2d l.downPlanes 3 1 1 w.conv2) h r)
      .ok (fresh pool h r)) Big
      (fun x => pool (conv2d l.downPlanes 3 1 1 w.conv2 (leaky (normOf t m w.norm2 (conv3 t l.inPlanes w.conv1 x))))) id := by
    have h1 := (does_inplace leaky (fun _ => True)).comp
      ((does_fresh (conv2d l.downPlanes 3 1 1 w.conv2) (fun _ => True)).comp (does_fresh pool (fun _ => True))
        (fun _ _ => trivial)) (fun _ _ => trivial)
    have h2 := (does_norm (t := t) (m := m) w.norm2).comp h1 (fun _ _ => trivial)
    have h3 := (does_fresh (conv3 t l.inPlanes w.conv1) Big).comp h2 ?_
    · simpa using h3
    · intro x hx
      obtain ⟨e1, e2⟩ := conv3_size (t := t) l.inPlanes w.conv1 x hx.pos
      rw [e1, e2]
      exact big_not_single hx.1 (by have := hx.2; omega)
  cases top
  · have hn : Does (noLayer t) (norm t m w.norm1) Big (normOf t m w.norm1) id :=
      (does_norm w.norm1).mono fun x hx => big_not_single hx.1 (by have := hx.2; omega)
    have h1 := hn.comp ((does_inplace leaky Big).comp tail (fun _ h => h)) (fun x hx => by
      obtain ⟨e1, e2⟩ := normOf_size (t := t) (m := m) w.norm1 x
      exact ⟨e1 ▸ hx.1, e2 ▸ hx.2⟩)
    cases t <;> exact h1
  · exact tail

theorem does_short (l : Level) (w : LevelW) (dom : Image ℝ → Prop) :
    Does false (fun h r => .ok (leftShortcut l w h r)) dom (shortOf l w) id := by
  by_cases hc : l.inPlanes ≠ l.downPlanes
  · have := (does_fresh (conv2d l.inPlanes 1 1 0 w.short) dom).comp (does_fresh pool (fun _ => True)) (fun _ _ => trivial)
    unfold leftShortcut shortOf
    simp only [if_pos hc]
    exact this
  · have := does_fresh pool dom
    unfold leftShortcut shortOf
    simp only [if_neg hc]
    exact this

/-- Two operations on one tensor, and the sum of the results. -/
theorem does_sum {a1 : Bool} {o1 : Heap → ℕ → Except Err (Heap × ℕ)} {o2 : Heap → ℕ → Heap × ℕ} {d : Image ℝ → Prop}
    {f1 f2 g1 : Image ℝ → Image ℝ} (h1 : Does a1 o1 d f1 g1)
    (h2 : Does false (fun h r => .ok (o2 h r)) (fun _ => True) f2 id) :
    Does false (fun h r => do let (h, a) ← o1 h r; let (h, b) := o2 h r; .ok (sum h a b)) d
      (fun x => add (f1 x) (f2 (g1 x))) g1 := by
  intro h r hr hdom
  obtain ⟨h', r', e1, l1, r1, al1, v1, w1, k1⟩ := h1 h r hr hdom
  obtain ⟨h'', r'', e2, l2, r2, al2, v2, w2, k2⟩ := h2 h' r (by omega) trivial
  simp only [Except.ok.injEq] at e2
  have hold : ∀ j < h'.length, get h'' j = get h' j := by
    intro j hj
    by_cases hjr : j = r
    · rw [hjr, w2]
      rfl
    · unfold get
      rw [k2 j hj hjr]
  refine ⟨h'' ++ [add (get h'' r') (get h'' r'')], h''.length, ?_, ?_, by simp, ?_, ?_, ?_, ?_⟩
  · simp only [e1, bind, Except.bind, e2, sum]
  · simp only [List.length_append, List.length_singleton]
    omega
  · simp only [Bool.false_eq_true, if_false]
    omega
  · rw [get_last, hold r' r1, v1, v2, w1]
  · rw [get_append _ _ _ (by omega), hold r (by omega), w1]
  · intro j hj hjr
    rw [List.getElem?_append_left (by omega), k2 j (by omega) hjr, k1 j hj hjr]

theorem does_down (top : Bool) (l : Level) (w : LevelW) :
    Does false (down t m top l w) Big
      (fun x => add (leftOf t m top l w x) (shortOf l w ((if top then id else seenBy t) x))) (if top then id else seenBy t) :=
  does_sum (does_left top l w) (does_short l w _)

/-- The tensors that the way up can process. -/
def Able (t : NormType) (m : Mode) (x : Image ℝ) : Prop :=
  1 ≤ x.height ∧ 1 ≤ x.width ∧ ¬ Single t m x.height x.width

theorem does_up (l : Level) (w : LevelW) :
    Does false (up t m l w) (Able t m)
      (fun x => if l.clip then x else add (rightOf t m l w x) (shortUpOf l w (seenBy t x)))
      (if l.clip then id else seenBy t) := by
  by_cases hc : l.clip = true
  · have h1 : Does true (rightBlock t m l w) (Able t m) id id := by
      unfold rightBlock
      simp only [if_pos hc]
      exact does_id _
    have h2 : Does false (fun h r => .ok (rightShortcut l w h r)) (fun _ => True)
        (fun x => { x with pix := fun _ _ _ _ => 0 }) id := by
      unfold rightShortcut
      simp only [if_pos hc]
      exact does_fresh _ _
    have h3 := does_sum h1 h2
    simp only [if_pos hc]
    have e : (fun x : Image ℝ => add (id x) { (id x : Image ℝ) with pix := fun _ _ _ _ => 0 }) = fun x => x := by
      funext x
      simp only [id, add, add_zero]
    rw [e] at h3
    exact h3
  · have h1 : Does false (rightBlock t m l w) (Able t m) (rightOf t m l w) (seenBy t) := by
      unfold rightBlock
      simp only [if_neg hc]
      have i1 := (does_norm (t := t) (m := m) w.norm4).comp ((does_inplace leaky (fun _ => True)).comp
        (does_fresh (conv2d l.outPlanes 3 1 1 w.conv4) (fun _ => True)) (fun _ _ => trivial)) (fun _ _ => trivial)
      have i2 := (does_fresh (conv3 t l.downPlanes w.conv3) Big).comp i1 (fun x hx => by
        obtain ⟨e1, e2⟩ := conv3_size (t := t) l.downPlanes w.conv3 x hx.pos
        rw [e1, e2]
        exact big_not_single hx.1 (by have := hx.2; omega))
      have i3 := (does_fresh upsample (fun x => 1 ≤ x.height ∧ 1 ≤ x.width)).comp i2 (fun x hx => by
        refine ⟨?_, ?_⟩ <;> simp only [upsample] <;> omega)
      have i4 := (does_inplace leaky (fun x => 1 ≤ x.height ∧ 1 ≤ x.width)).comp i3 (fun _ h => h)
      have hn : Does (noLayer t) (norm t m w.norm3) (Able t m) (normOf t m w.norm3) id :=
        (does_norm w.norm3).mono fun x hx => hx.2.2
      have i5 := hn.comp i4 (fun x hx => by
        obtain ⟨e1, e2⟩ := normOf_size (t := t) (m := m) w.norm3 x
        exact ⟨e1 ▸ hx.1, e2 ▸ hx.2.1⟩)
      cases t <;> exact i5
    have h2 : Does false (fun h r => .ok (rightShortcut l w h r)) (fun _ => True) (shortUpOf l w) id := by
      unfold rightShortcut shortUpOf
      simp only [if_neg hc]
      by_cases hd : l.downPlanes ≠ l.outPlanes
      · simp only [if_pos hd]
        exact (does_fresh (conv2d l.downPlanes 1 1 0 w.shortUp) (fun _ => True)).comp
          (does_fresh upsample (fun _ => True)) (fun _ _ => trivial)
      · simp only [if_neg hd]
        exact does_fresh _ _
    have h3 := does_sum h1 h2
    simp only [if_neg hc]
    exact h3

/-! ### Sizes -/

theorem conv1_size (c : ℕ) (w : ConvW) (x : Image ℝ) (hx : 0 < x.height ∧ 0 < x.width) :
    (conv2d c 1 1 0 w x).height = x.height ∧ (conv2d c 1 1 0 w x).width = x.width := VqVaeNet.conv1_size c w x hx

theorem seenBy_size (x : Image ℝ) : (seenBy t x).height = x.height ∧ (seenBy t x).width = x.width := by
  cases t <;> exact ⟨rfl, rfl⟩

theorem leftOf_size (top : Bool) (l : Level) (w : LevelW) (x : Image ℝ) (hx : 0 < x.height ∧ 0 < x.width) :
    (leftOf t m top l w x).height = x.height / 2 ∧ (leftOf t m top l w x).width = x.width / 2 := by
  have h0 : ∀ y : Image ℝ, y.height = x.height → y.width = x.width →
      (pool (conv2d l.downPlanes 3 1 1 w.conv2 (leaky (normOf t m w.norm2 (conv3 t l.inPlanes w.conv1 y))))).height =
        x.height / 2 ∧
      (pool (conv2d l.downPlanes 3 1 1 w.conv2 (leaky (normOf t m w.norm2 (conv3 t l.inPlanes w.conv1 y))))).width =
        x.width / 2 := by
    intro y e1 e2
    obtain ⟨a1, a2⟩ := conv3_size (t := t) l.inPlanes w.conv1 y (by omega)
    obtain ⟨b1, b2⟩ := normOf_size (t := t) (m := m) w.norm2 (conv3 t l.inPlanes w.conv1 y)
    obtain ⟨c1, c2⟩ := VqVaeNet.conv3_size l.downPlanes w.conv2
      (leaky (normOf t m w.norm2 (conv3 t l.inPlanes w.conv1 y)))
      (show 0 < (normOf t m w.norm2 (conv3 t l.inPlanes w.conv1 y)).height ∧
        0 < (normOf t m w.norm2 (conv3 t l.inPlanes w.conv1 y)).width by omega)
    refine ⟨?_, ?_⟩
    · show _ / 2 = _
      rw [c1]
      show (normOf t m w.norm2 _).height / 2 = _
      rw [b1, a1, e1]
    · show _ / 2 = _
      rw [c2]
      show (normOf t m w.norm2 _).width / 2 = _
      rw [b2, a2, e2]
  unfold leftOf
  cases top
  · exact h0 _ (normOf_size w.norm1 x).1 (normOf_size w.norm1 x).2
  · exact h0 _ rfl rfl

theorem rightOf_size (l : Level) (w : LevelW) (x : Image ℝ) (hx : 0 < x.height ∧ 0 < x.width) :
    (rightOf t m l w x).height = 2 * x.height ∧ (rightOf t m l w x).width = 2 * x.width := by
  unfold rightOf
  obtain ⟨z1, z2⟩ := normOf_size (t := t) (m := m) w.norm3 x
  generalize hy : upsample (leaky (normOf t m w.norm3 x)) = y
  have e1 : y.height = 2 * x.height := by rw [← hy, ← z1]; rfl
  have e2 : y.width = 2 * x.width := by rw [← hy, ← z2]; rfl
  obtain ⟨a1, a2⟩ := conv3_size (t := t) l.downPlanes w.conv3 y (by omega)
  obtain ⟨b1, b2⟩ := normOf_size (t := t) (m := m) w.norm4 (conv3 t l.downPlanes w.conv3 y)
  obtain ⟨c1, c2⟩ := VqVaeNet.conv3_size l.outPlanes w.conv4
    (leaky (normOf t m w.norm4 (conv3 t l.downPlanes w.conv3 y)))
    (show 0 < (normOf t m w.norm4 (conv3 t l.downPlanes w.conv3 y)).height ∧
      0 < (normOf t m w.norm4 (conv3 t l.downPlanes w.conv3 y)).width by omega)
  rw [c1, c2]
  exact ⟨b1.trans (a1.trans e1), b2.trans (a2.trans e2)⟩

variable (seen : Image ℝ → Image ℝ)

theorem deepest_size (w : ℕ → LevelW) (ls : List Level) (k : ℕ) (x : Image ℝ) (h1 : 2 ^ ls.length ≤ x.height)
    (h2 : 2 ^ ls.length ≤ x.width) :
    (deepest seen t m w k ls x).height = x.height / 2 ^ ls.length ∧
      (deepest seen t m w k ls x).width = x.width / 2 ^ ls.length := by
  induction ls generalizing k x with
  | nil => simp [deepest]
  | cons l ls ih =>
    simp only [deepest, List.length_cons] at *
    obtain ⟨a1, b1, c1⟩ := Unet.size_step _ _ h1
    obtain ⟨a2, b2, c2⟩ := Unet.size_step _ _ h2
    obtain ⟨e1, e2⟩ := leftOf_size (t := t) (m := m) (decide (k = 0)) l (w k) x (by omega)
    have := ih (k + 1) (add (leftOf t m (decide (k = 0)) l (w k) x) (shortOf l (w k) (if k = 0 then x else seen x)))
      (show _ ≤ (leftOf t m _ l (w k) x).height by omega) (show _ ≤ (leftOf t m _ l (w k) x).width by omega)
    rw [this.1, this.2]
    refine ⟨?_, ?_⟩
    · show (leftOf t m _ l (w k) x).height / _ = _
      rw [e1, c1]
    · show (leftOf t m _ l (w k) x).width / _ = _
      rw [e2, c2]

theorem upward_size (w : ℕ → LevelW) (ls : List Level) (k : ℕ) (y : Image ℝ) (h : 0 < y.height ∧ 0 < y.width) :
    (upward seen t m w k ls y).height = 2 ^ (ls.countP fun l => !l.clip) * y.height ∧
      (upward seen t m w k ls y).width = 2 ^ (ls.countP fun l => !l.clip) * y.width := by
  induction ls generalizing k with
  | nil => simp [upward]
  | cons l ls ih =>
    obtain ⟨i1, i2⟩ := ih (k + 1)
    simp only [upward]
    cases hc : l.clip
    · have p1 : 0 < (upward seen t m w (k + 1) ls y).height := by rw [i1]; have := h.1; positivity
      have p2 : 0 < (upward seen t m w (k + 1) ls y).width := by rw [i2]; have := h.2; positivity
      obtain ⟨e1, e2⟩ := rightOf_size (t := t) (m := m) l (w k) (upward seen t m w (k + 1) ls y) ⟨p1, p2⟩
      simp only [Bool.false_eq_true, if_false]
      rw [List.countP_cons_of_pos (by simp [hc]), pow_succ]
      refine ⟨?_, ?_⟩
      · show (rightOf t m l (w k) _).height = _
        rw [e1, i1]
        ring
      · show (rightOf t m l (w k) _).width = _
        rw [e2, i2]
        ring
    · simp only [if_true]
      rw [List.countP_cons_of_neg (by simp [hc])]
      exact ⟨i1, i2⟩

/-- The tensors that `n` levels can process. -/
def Fits (t : NormType) (m : Mode) (n : ℕ) (x : Image ℝ) : Prop :=
  2 ^ n ≤ x.height ∧ 2 ^ n ≤ x.width ∧ ¬ Single t m (x.height / 2 ^ n) (x.width / 2 ^ n)

theorem not_single_mul {n h w : ℕ} (hn : ¬ Single t m h w) (hm : 0 < n) : ¬ Single t m (n * h) (n * w) := by
  cases t
  · rintro ⟨ht, h1⟩
    refine hn ⟨ht, ?_⟩
    have h2 : (n * n) * (m.images * h * w) = 1 := by rw [← h1]; ring
    exact Nat.eq_one_of_mul_eq_one_left h2
  · exact id
  · intro h1
    refine hn ?_
    have h2 : (n * n) * (h * w) = 1 := by
      have : n * h * (n * w) = 1 := h1
      rw [← this]; ring
    exact Nat.eq_one_of_mul_eq_one_left h2
  · exact id

theorem does_run (w : ℕ → LevelW) (ls : List Level) (k : ℕ) :
    Does ls.isEmpty (run t m w k ls) (Fits t m ls.length)
      (fun x => upward (seenBy t) t m w k ls (deepest (seenBy t) t m w k ls x))
      (if ls.isEmpty ∨ k = 0 then id else seenBy t) := by
  induction ls generalizing k with
  | nil => exact does_id _
  | cons l ls ih =>
    have hd := (does_down (t := t) (m := m) (decide (k = 0)) l (w k)).mono (d' := Fits t m (ls.length + 1))
      (fun x hx => ⟨(Unet.size_step _ _ hx.1).1, (Unet.size_step _ _ hx.2.1).1⟩)
    have hu := (ih (k + 1)).comp (does_up (t := t) (m := m) l (w k)) (fun x hx => by
      obtain ⟨h1, h2, h3⟩ := hx
      obtain ⟨a1, a2⟩ := deepest_size (t := t) (m := m) (seenBy t) w ls (k + 1) x h1 h2
      have p1 := Nat.div_pos h1 (Nat.two_pow_pos _)
      have p2 := Nat.div_pos h2 (Nat.two_pow_pos _)
      obtain ⟨b1, b2⟩ := upward_size (t := t) (m := m) (seenBy t) w ls (k + 1)
        (deepest (seenBy t) t m w (k + 1) ls x) (by omega)
      have p3 := Nat.two_pow_pos (ls.countP fun l => !l.clip)
      refine ⟨?_, ?_, ?_⟩
      · rw [b1, a1]; exact Nat.mul_pos p3 p1
      · rw [b2, a2]; exact Nat.mul_pos p3 p2
      · rw [b1, b2, a1, a2]; exact not_single_mul h3 p3)
    have h := hd.comp hu (fun x hx => by
      obtain ⟨h1, h2, h3⟩ := hx
      obtain ⟨a1, b1, c1⟩ := Unet.size_step _ _ h1
      obtain ⟨a2, b2, c2⟩ := Unet.size_step _ _ h2
      obtain ⟨e1, e2⟩ := leftOf_size (t := t) (m := m) (decide (k = 0)) l (w k) x (by omega)
      refine ⟨show _ ≤ (leftOf t m _ l (w k) x).height by omega, show _ ≤ (leftOf t m _ l (w k) x).width by omega, ?_⟩
      show ¬ Single t m ((leftOf t m _ l (w k) x).height / _) ((leftOf t m _ l (w k) x).width / _)
      rw [e1, e2, c1, c2]
      exact h3)
    simp only [List.isEmpty_cons, Bool.false_eq_true, false_or, Bool.false_and, if_false, List.length_cons] at h ⊢
    by_cases hk : k = 0
    · simp only [hk, decide_true, if_true] at h ⊢
      exact h
    · simp only [hk, decide_false, if_false, Bool.false_eq_true, run, upward, deepest] at h ⊢
      exact h

/-! ### Shapes -/

theorem conv_ok {c c' : ℕ} {x y : Shape} (h : Unet.conv c c' x = .ok y) :
    x.chans = c ∧ y = ⟨c', x.height, x.width⟩ := by
  unfold Unet.conv at h
  split at h
  · cases h
  · rename_i hc
    cases h
    exact ⟨by simpa using hc, rfl⟩

theorem pool_ok {x y : Shape} (h : Unet.pool x = .ok y) :
    2 ≤ x.height ∧ 2 ≤ x.width ∧ y = ⟨x.chans, x.height / 2, x.width / 2⟩ := by
  unfold Unet.pool at h
  split at h
  · cases h
  · cases h
    refine ⟨by omega, by omega, rfl⟩

theorem except_bind {α β : Type} {x : Except Err α} {f : α → Except Err β} {y : β} (h : x >>= f = .ok y) :
    ∃ a, x = .ok a ∧ f a = .ok y := by
  cases x with
  | error e => cases h
  | ok a => exact ⟨a, rfl, h⟩

theorem down_ok {l : Level} {x y : Shape} (h : l.down x = .ok y) :
    x.chans = l.inPlanes ∧ 2 ≤ x.height ∧ 2 ≤ x.width ∧ y = ⟨l.downPlanes, x.height / 2, x.width / 2⟩ := by
  unfold Unet.Level.down at h
  obtain ⟨a, ha, h⟩ := except_bind h
  obtain ⟨a', ha', h⟩ := except_bind h
  obtain ⟨a'', ha'', h⟩ := except_bind h
  obtain ⟨e1, rfl⟩ := conv_ok ha
  obtain ⟨e2, rfl⟩ := conv_ok ha'
  obtain ⟨e3, e4, rfl⟩ := pool_ok ha''
  dsimp only at h
  split at h <;>
  · obtain ⟨b, hb, h⟩ := except_bind h
    obtain ⟨b', hb', h⟩ := except_bind h
    split at h
    · cases h
    · cases h
      exact ⟨e1, e3, e4, rfl⟩

theorem up_ok {l : Level} {x y : Shape} (h : l.up x = .ok y) :
    if l.clip then y = x else x.chans = l.downPlanes ∧ y = ⟨l.outPlanes, 2 * x.height, 2 * x.width⟩ := by
  unfold Unet.Level.up at h
  split
  · rename_i hc
    rw [if_pos hc] at h
    cases h
    rfl
  · rename_i hc
    rw [if_neg hc] at h
    obtain ⟨a, ha, h⟩ := except_bind h
    obtain ⟨a', ha', h⟩ := except_bind h
    obtain ⟨e1, rfl⟩ := conv_ok ha
    obtain ⟨e2, rfl⟩ := conv_ok ha'
    dsimp only at h
    split at h <;>
    · obtain ⟨b, hb, h⟩ := except_bind h
      split at h
      · cases h
      · cases h
        exact ⟨e1, rfl⟩

/-- Down and up. -/
noncomputable def netOf (seen : Image ℝ → Image ℝ) (t : NormType) (m : Mode) (w : ℕ → LevelW) (k : ℕ) (ls : List Level)
    (x : Image ℝ) : Image ℝ :=
  upward seen t m w k ls (deepest seen t m w k ls x)

theorem run_ok {ls : List Level} {x y : Shape} (h : Unet.run ls x = .ok y) (hx : 1 ≤ x.height ∧ 1 ≤ x.width) :
    2 ^ ls.length ≤ x.height ∧ 2 ^ ls.length ≤ x.width ∧
      y.height = 2 ^ (ls.countP fun l => !l.clip) * (x.height / 2 ^ ls.length) ∧
      y.width = 2 ^ (ls.countP fun l => !l.clip) * (x.width / 2 ^ ls.length) := by
  induction ls generalizing x y with
  | nil =>
    cases h
    simpa using hx
  | cons l ls ih =>
    unfold Unet.run at h
    obtain ⟨a, ha, h'⟩ := except_bind h
    obtain ⟨b, hb, h''⟩ := except_bind h'
    obtain ⟨-, d2, d3, rfl⟩ := down_ok ha
    obtain ⟨i1, i2, i3, i4⟩ := ih hb ⟨by dsimp only; omega, by dsimp only; omega⟩
    dsimp only at i1 i2 i3 i4
    have e1 : x.height / 2 / 2 ^ ls.length = x.height / 2 ^ (ls.length + 1) := by
      rw [Nat.div_div_eq_div_mul, pow_succ, mul_comm]
    have e2 : x.width / 2 / 2 ^ ls.length = x.width / 2 ^ (ls.length + 1) := by
      rw [Nat.div_div_eq_div_mul, pow_succ, mul_comm]
    rw [e1] at i3
    rw [e2] at i4
    refine ⟨by rw [List.length_cons, pow_succ]; omega, by rw [List.length_cons, pow_succ]; omega, ?_⟩
    have hu := up_ok h''
    rw [List.length_cons]
    cases hc : l.clip
    · simp only [hc, Bool.false_eq_true, if_false] at hu
      rw [hu.2, List.countP_cons_of_pos (by simp [hc]), pow_succ]
      dsimp only
      rw [i3, i4]
      exact ⟨by ring, by ring⟩
    · simp only [hc, if_true] at hu
      rw [hu, List.countP_cons_of_neg (by simp [hc])]
      exact ⟨i3, i4⟩

theorem forward_ok {ls : List Level} {out c H W : ℕ} {y : Shape} (h : Unet.forward ls out ⟨c, H, W⟩ = .ok y) :
    ∃ z, Unet.run ls ⟨c, H, W⟩ = .ok z ∧ z.chans = 64 ∧ y = ⟨out, z.height, z.width⟩ := by
  unfold Unet.forward at h
  obtain ⟨z, hz, h⟩ := except_bind h
  obtain ⟨e1, rfl⟩ := conv_ok h
  exact ⟨z, hz, e1, rfl⟩

/-! ### C135: values -/

/-- **C135, values.** Whenever the shape of the image can be processed (C57) and no normalisation layer is given a single
value: the discriminator returns a tensor of the size given by C57 with the values of the network of blocks and shortcuts, in
which, without normalisation layers, the shortcuts are given the activated features; and it changes no tensor of its caller,
the image included. -/
theorem C135_values (t : NormType) (m : Mode) (levels : List Level) (out chans : ℕ) (w : Weights) (h : Heap) (image : ℕ)
    (hi : image < h.length) (h1 : 1 ≤ (get h image).height ∧ 1 ≤ (get h image).width) (s : Shape)
    (hs : Unet.forward levels out ⟨chans, (get h image).height, (get h image).width⟩ = .ok s)
    (hn : ¬ Single t m ((get h image).height / 2 ^ levels.length) ((get h image).width / 2 ^ levels.length)) :
    ∃ h' r, forward t m levels out chans w h image = .ok (h', r) ∧
      get h' r = residualNet (seenBy t) t m levels w (get h image) ∧
      (get h' r).height = s.height ∧ (get h' r).width = s.width ∧ ∀ j < h.length, h'[j]? = h[j]? := by
  obtain ⟨z, hz, -, rfl⟩ := forward_ok hs
  obtain ⟨a1, a2, a3, a4⟩ := run_ok hz h1
  dsimp only at a1 a2 a3 a4
  have hd := (does_run (t := t) (m := m) w.level levels 0).comp (does_fresh (conv2d 64 1 1 0 w.last) (fun _ => True))
    (fun _ _ => trivial)
  obtain ⟨h', r, e1, e0, -, -, e2, e3, e4⟩ := hd h image hi ⟨a1, a2, hn⟩
  obtain ⟨b1, b2⟩ := deepest_size (t := t) (m := m) (seenBy t) w.level levels 0 (get h image) a1 a2
  have p1 := Nat.div_pos a1 (Nat.two_pow_pos _)
  have p2 := Nat.div_pos a2 (Nat.two_pow_pos _)
  obtain ⟨c1, c2⟩ := upward_size (t := t) (m := m) (seenBy t) w.level levels 0
    (deepest (seenBy t) t m w.level 0 levels (get h image)) (by omega)
  have p3 := Nat.two_pow_pos (levels.countP fun l => !l.clip)
  obtain ⟨d1, d2⟩ := conv1_size 64 w.last (upward (seenBy t) t m w.level 0 levels
    (deepest (seenBy t) t m w.level 0 levels (get h image)))
    ⟨by rw [c1, b1]; exact Nat.mul_pos p3 p1, by rw [c2, b2]; exact Nat.mul_pos p3 p2⟩
  refine ⟨h', r, ?_, e2, ?_, ?_, ?_⟩
  · unfold forward
    rw [hs]
    exact e1
  · rw [e2, d1, c1, b1, a3]
  · rw [e2, d2, c2, b2, a4]
  · intro j hj
    by_cases hji : j = image
    · have hg : get h' image = get h image := by
        rw [e3]
        cases hl : levels with
        | nil => rfl
        | cons l ls => simp
      rw [hji, getElem_get _ _ hi, getElem_get _ _ (by omega), hg]
    · exact e4 j hj hji

/-- **C135, the conditional discriminator** computes the same network on the image with the context below its channels, and
changes neither the image nor the context nor any other tensor of its caller. -/
theorem C135_conditional (t : NormType) (m : Mode) (levels : List Level) (out chans contextIn contextOut : ℕ) (w : Weights)
    (h : Heap) (image context : ℕ) (hi : image < h.length) (hc : context < h.length)
    (h1 : 1 ≤ (get h image).height ∧ 1 ≤ (get h image).width)
    (h2 : 2 ≤ (get h context).height ∧ 2 ≤ (get h context).width) (s : Shape)
    (hs : Unet.forward levels out ⟨chans + contextOut, (get h image).height, (get h image).width⟩ = .ok s)
    (hn : ¬ Single t m ((get h image).height / 2 ^ levels.length) ((get h image).width / 2 ^ levels.length)) :
    ∃ h' r, forwardConditional t m levels out chans contextIn contextOut w h image context = .ok (h', r) ∧
      get h' r = residualNet (seenBy t) t m levels w (withContext chans contextIn w (get h image) (get h context)) ∧
      (get h' r).height = s.height ∧ (get h' r).width = s.width ∧ ∀ j < h.length, h'[j]? = h[j]? := by
  have hd := (does_fresh (reflectConv contextIn w.context) (fun _ => True)).comp ((does_inplace leaky (fun _ => True)).comp
    (does_fresh (interpolate (get h image).height (get h image).width) (fun _ => True)) (fun _ _ => trivial))
    (fun _ _ => trivial)
  obtain ⟨g, r, e1, e0, er, -, e2, e3, e4⟩ := hd h context hc trivial
  have hold : ∀ j < h.length, g[j]? = h[j]? := by
    intro j hj
    by_cases hjc : j = context
    · rw [hjc, getElem_get _ _ hc, getElem_get _ _ (by omega), e3]
      rfl
    · exact e4 j hj hjc
  have hgi : get g image = get h image := by
    unfold get
    rw [hold image hi]
  have hx : get (g ++ [cat chans (get g image) (get g r)]) g.length =
      withContext chans contextIn w (get h image) (get h context) := by
    rw [get_last, e2, hgi]
    rfl
  obtain ⟨h', r', f1, f2, f3, f4, f5⟩ := C135_values t m levels out (chans + contextOut) w
    (g ++ [cat chans (get g image) (get g r)]) g.length (by simp) (by rw [hx]; exact h1) s (by rw [hx]; exact hs)
    (by rw [hx]; exact hn)
  rw [hx] at f2
  refine ⟨h', r', ?_, f2, f3, f4, ?_⟩
  · unfold forwardConditional
    dsimp only
    rw [if_neg (by omega), ← f1]
    simp only [bind, Except.bind, Except.ok.injEq] at e1
    have a1 := congrArg Prod.fst e1
    have a2 := congrArg Prod.snd e1
    dsimp only at a1 a2
    rw [← a1, ← a2]
  · intro j hj
    rw [f5 j (by simp only [List.length_append]; omega), List.getElem?_append_left (by omega), hold j hj]

/-- **C135, blocks and shortcuts: what holds.** With batch or instance normalisation every level adds a block and a shortcut
of the same features, as in the paper. -/
theorem C135_residual_partial (t : NormType) (ht : t = .batch ∨ t = .instance) (m : Mode) (levels : List Level)
    (out chans : ℕ) (w : Weights) (h : Heap) (image : ℕ) (hi : image < h.length)
    (h1 : 1 ≤ (get h image).height ∧ 1 ≤ (get h image).width) (s : Shape)
    (hs : Unet.forward levels out ⟨chans, (get h image).height, (get h image).width⟩ = .ok s)
    (hn : ¬ Single t m ((get h image).height / 2 ^ levels.length) ((get h image).width / 2 ^ levels.length)) :
    ∃ h' r, forward t m levels out chans w h image = .ok (h', r) ∧
      get h' r = residualNet id t m levels w (get h image) := by
  obtain ⟨h', r, e1, e2, -⟩ := C135_values t m levels out chans w h image hi h1 s hs hn
  refine ⟨h', r, e1, ?_⟩
  rw [e2]
  rcases ht with rfl | rfl <;> rfl

/-- **C135 is violated: no skip connections.** The logits of all pixels are a function of the deepest features alone, of
which there are `4 ^ n` times fewer positions than pixels for `n` levels: images with the same deepest features get the same
logits. -/
theorem C135_violated_skips (t : NormType) (m : Mode) (levels : List Level) (out chans : ℕ) (w : Weights) (h h' : Heap)
    (image image' : ℕ) (hi : image < h.length) (hi' : image' < h'.length)
    (h1 : 1 ≤ (get h image).height ∧ 1 ≤ (get h image).width)
    (hsz : (get h' image').height = (get h image).height ∧ (get h' image').width = (get h image).width) (s : Shape)
    (hs : Unet.forward levels out ⟨chans, (get h image).height, (get h image).width⟩ = .ok s)
    (hn : ¬ Single t m ((get h image).height / 2 ^ levels.length) ((get h image).width / 2 ^ levels.length))
    (heq : deepest (seenBy t) t m w.level 0 levels (get h image) = deepest (seenBy t) t m w.level 0 levels (get h' image')) :
    (deepest (seenBy t) t m w.level 0 levels (get h image)).height = (get h image).height / 2 ^ levels.length ∧
      (deepest (seenBy t) t m w.level 0 levels (get h image)).width = (get h image).width / 2 ^ levels.length ∧
      ∃ g r g' r', forward t m levels out chans w h image = .ok (g, r) ∧
        forward t m levels out chans w h' image' = .ok (g', r') ∧ get g r = get g' r' := by
  obtain ⟨z, hz, -, -⟩ := forward_ok hs
  obtain ⟨a1, a2, -, -⟩ := run_ok hz h1
  obtain ⟨a, b⟩ := deepest_size (t := t) (m := m) (seenBy t) w.level levels 0 (get h image) a1 a2
  obtain ⟨g, r, e1, e2, -⟩ := C135_values t m levels out chans w h image hi h1 s hs hn
  rw [← hsz.1, ← hsz.2] at h1 hs hn
  obtain ⟨g', r', f1, f2, -⟩ := C135_values t m levels out chans w h' image' hi' h1 s hs hn
  refine ⟨a, b, g, r, g', r', e1, f1, ?_⟩
  rw [e2, f2]
  unfold residualNet
  rw [heq]

/-! ### Images of a batch -/

/-- Each image is normalised for itself. -/
def Separate (t : NormType) (m : Mode) : Prop := ¬ (t = .batch ∧ m.training = true)

section Batch

variable {x x' y y' : Image ℝ} {b b' C : ℕ}

theorem leaky_same (h : SameImage C x b x' b') : SameImage C (leaky x) b (leaky x') b' := by
  obtain ⟨h1, h2, h3⟩ := h
  refine ⟨h1, h2, fun c hc i hi j hj => ?_⟩
  simp only [leaky]
  rw [h3 c hc i hi j hj]

theorem pool_same (h : SameImage C x b x' b') : SameImage C (pool x) b (pool x') b' := by
  obtain ⟨h1, h2, h3⟩ := h
  refine ⟨by simp only [pool, h1], by simp only [pool, h2], fun c hc i hi j hj => ?_⟩
  simp only [pool] at hi hj ⊢
  congr 1
  refine Finset.sum_congr rfl fun di hdi => Finset.sum_congr rfl fun dj hdj => ?_
  rw [Finset.mem_range] at hdi hdj
  exact h3 c hc _ (by omega) _ (by omega)

theorem upsample_same (h : SameImage C x b x' b') : SameImage C (upsample x) b (upsample x') b' := by
  obtain ⟨h1, h2, h3⟩ := h
  refine ⟨by simp only [upsample, h1], by simp only [upsample, h2], fun c hc i hi j hj => ?_⟩
  simp only [upsample] at hi hj ⊢
  exact h3 c hc _ (by omega) _ (by omega)

theorem add_same (h : SameImage C x b x' b') (g : SameImage C y b y' b') (e1 : y.height = x.height)
    (e2 : y.width = x.width) : SameImage C (add x y) b (add x' y') b' := by
  obtain ⟨h1, h2, h3⟩ := h
  refine ⟨h1, h2, fun c hc i hi j hj => ?_⟩
  have hi' : i < x.height := hi
  have hj' : j < x.width := hj
  simp only [add]
  rw [h3 c hc i hi' j hj', g.2.2 c hc i (by omega) j (by omega)]

theorem mean_same (h : SameImage C x b x' b') (c : ℕ) (hc : c < C) : meanOf x b 1 c = meanOf x' b' 1 c := by
  obtain ⟨h1, h2, h3⟩ := h
  unfold meanOf
  rw [← h1, ← h2]
  congr 1
  refine Finset.sum_congr rfl fun k hk => Finset.sum_congr rfl fun i hi => Finset.sum_congr rfl fun j hj => ?_
  obtain rfl : k = 0 := by simpa using hk
  exact h3 c hc _ (Finset.mem_range.1 hi) _ (Finset.mem_range.1 hj)

theorem var_same (h : SameImage C x b x' b') (c : ℕ) (hc : c < C) : varOf x b 1 c = varOf x' b' 1 c := by
  have hm := mean_same h c hc
  obtain ⟨h1, h2, h3⟩ := h
  unfold varOf
  rw [← h1, ← h2, ← hm]
  congr 1
  refine Finset.sum_congr rfl fun k hk => Finset.sum_congr rfl fun i hi => Finset.sum_congr rfl fun j hj => ?_
  obtain rfl : k = 0 := by simpa using hk
  have := h3 c hc _ (Finset.mem_range.1 hi) _ (Finset.mem_range.1 hj)
  simp only [add_zero]
  rw [this]

theorem norm_same (hm : Separate t m) (w : BatchW) (h : SameImage C x b x' b') :
    SameImage C (normOf t m w x) b (normOf t m w x') b' := by
  have hmean := mean_same h
  have hvar := var_same h
  obtain ⟨h1, h2, h3⟩ := h
  cases t with
  | batch =>
    have hf : m.training = false := by
      cases ht : m.training
      · rfl
      · exact absurd ⟨rfl, ht⟩ hm
    refine ⟨h1, h2, fun c hc i hi j hj => ?_⟩
    simp only [normOf, batchNorm, hf, Bool.false_eq_true, if_false]
    rw [h3 c hc i hi j hj]
  | «instance» =>
    refine ⟨h1, h2, fun c hc i hi j hj => ?_⟩
    simp only [normOf, instanceNorm]
    rw [h3 c hc i hi j hj, hmean c hc, hvar c hc]
  | spectral => exact ⟨h1, h2, h3⟩
  | identity => exact ⟨h1, h2, h3⟩

theorem conv3_same (c : ℕ) (w : ConvW) (h : SameImage c x b x' b') (C : ℕ) :
    SameImage C (conv3 t c w x) b (conv3 t c w x') b' := by
  unfold conv3
  exact conv_same c 3 1 1 _ h C

theorem seen_same (h : SameImage C x b x' b') : SameImage C (seenBy t x) b (seenBy t x') b' := by
  cases t
  · exact h
  · exact leaky_same h
  · exact h
  · exact leaky_same h

theorem left_same (hm : Separate t m) (top : Bool) (l : Level) (w : LevelW) (h : SameImage l.inPlanes x b x' b') (C : ℕ) :
    SameImage C (leftOf t m top l w x) b (leftOf t m top l w x') b' := by
  unfold leftOf
  refine pool_same (conv_same _ 3 1 1 _ (leaky_same (norm_same hm _ (conv3_same _ _ ?_ _))) C)
  cases top
  · exact leaky_same (norm_same hm _ h)
  · exact h

theorem short_same (l : Level) (w : LevelW) (h : SameImage l.inPlanes x b x' b') :
    SameImage l.downPlanes (shortOf l w x) b (shortOf l w x') b' := by
  unfold shortOf
  by_cases hc : l.inPlanes ≠ l.downPlanes
  · simp only [if_pos hc]
    exact pool_same (conv_same _ 1 1 0 _ h _)
  · simp only [if_neg hc]
    rw [not_not] at hc
    exact hc ▸ pool_same h

theorem right_same (hm : Separate t m) (l : Level) (w : LevelW) (h : SameImage l.downPlanes x b x' b') (C : ℕ) :
    SameImage C (rightOf t m l w x) b (rightOf t m l w x') b' := by
  unfold rightOf
  exact conv_same _ 3 1 1 _ (leaky_same (norm_same hm _ (conv3_same _ _ (upsample_same (leaky_same (norm_same hm _ h))) _))) C

theorem shortUp_same (l : Level) (w : LevelW) (h : SameImage l.downPlanes x b x' b') :
    SameImage l.outPlanes (shortUpOf l w x) b (shortUpOf l w x') b' := by
  unfold shortUpOf
  by_cases hc : l.downPlanes ≠ l.outPlanes
  · simp only [if_pos hc]
    exact upsample_same (conv_same _ 1 1 0 _ h _)
  · simp only [if_neg hc]
    rw [not_not] at hc
    exact hc ▸ upsample_same h

end Batch

theorem shortOf_size (l : Level) (w : LevelW) (x : Image ℝ) (hx : 0 < x.height ∧ 0 < x.width) :
    (shortOf l w x).height = x.height / 2 ∧ (shortOf l w x).width = x.width / 2 := by
  unfold shortOf
  obtain ⟨e1, e2⟩ := conv1_size l.inPlanes w.short x hx
  by_cases hc : l.inPlanes ≠ l.downPlanes
  · simp only [if_pos hc, pool]
    rw [e1, e2]
    exact ⟨rfl, rfl⟩
  · simp only [if_neg hc, pool]
    exact ⟨trivial, trivial⟩

theorem shortUpOf_size (l : Level) (w : LevelW) (x : Image ℝ) (hx : 0 < x.height ∧ 0 < x.width) :
    (shortUpOf l w x).height = 2 * x.height ∧ (shortUpOf l w x).width = 2 * x.width := by
  unfold shortUpOf
  obtain ⟨e1, e2⟩ := conv1_size l.downPlanes w.shortUp x hx
  by_cases hc : l.downPlanes ≠ l.outPlanes
  · simp only [if_pos hc, upsample]
    rw [e1, e2]
    exact ⟨rfl, rfl⟩
  · simp only [if_neg hc, upsample]
    exact ⟨trivial, trivial⟩

/-- One level down. -/
noncomputable def downOf (t : NormType) (m : Mode) (k : ℕ) (l : Level) (w : LevelW) (x : Image ℝ) : Image ℝ :=
  add (leftOf t m (decide (k = 0)) l w x) (shortOf l w (if k = 0 then x else seenBy t x))

/-- One level up. -/
noncomputable def upOf (t : NormType) (m : Mode) (l : Level) (w : LevelW) (y : Image ℝ) : Image ℝ :=
  if l.clip then y else add (rightOf t m l w y) (shortUpOf l w (seenBy t y))

theorem netOf_cons (w : ℕ → LevelW) (k : ℕ) (l : Level) (ls : List Level) (x : Image ℝ) :
    netOf (seenBy t) t m w k (l :: ls) x =
      upOf t m l (w k) (netOf (seenBy t) t m w (k + 1) ls (downOf t m k l (w k) x)) := rfl

theorem downOf_size (k : ℕ) (l : Level) (w : LevelW) (x : Image ℝ) (hx : 0 < x.height ∧ 0 < x.width) :
    (downOf t m k l w x).height = x.height / 2 ∧ (downOf t m k l w x).width = x.width / 2 := leftOf_size _ l w x hx

theorem netOf_pos (w : ℕ → LevelW) (ls : List Level) (k : ℕ) (x : Image ℝ) (h1 : 2 ^ ls.length ≤ x.height)
    (h2 : 2 ^ ls.length ≤ x.width) :
    0 < (netOf (seenBy t) t m w k ls x).height ∧ 0 < (netOf (seenBy t) t m w k ls x).width := by
  obtain ⟨b1, b2⟩ := deepest_size (t := t) (m := m) (seenBy t) w ls k x h1 h2
  have p1 := Nat.div_pos h1 (Nat.two_pow_pos _)
  have p2 := Nat.div_pos h2 (Nat.two_pow_pos _)
  obtain ⟨c1, c2⟩ := upward_size (t := t) (m := m) (seenBy t) w ls k (deepest (seenBy t) t m w k ls x) (by omega)
  have p3 := Nat.two_pow_pos (ls.countP fun l => !l.clip)
  unfold netOf
  rw [c1, c2, b1, b2]
  exact ⟨Nat.mul_pos p3 p1, Nat.mul_pos p3 p2⟩

theorem down_same (hm : Separate t m) (k : ℕ) (l : Level) (w : LevelW) {x x' : Image ℝ} {b b' : ℕ}
    (hx : 0 < x.height ∧ 0 < x.width) (h : SameImage l.inPlanes x b x' b') :
    SameImage l.downPlanes (downOf t m k l w x) b (downOf t m k l w x') b' := by
  have hsz := leftOf_size (t := t) (m := m) (decide (k = 0)) l w x hx
  unfold downOf
  by_cases hk : k = 0
  · simp only [if_pos hk]
    have hs := shortOf_size l w x hx
    exact add_same (left_same hm _ l w h _) (short_same l w h) (by omega) (by omega)
  · simp only [if_neg hk]
    have hs := shortOf_size l w (seenBy t x) (by rw [(seenBy_size x).1, (seenBy_size x).2]; exact hx)
    rw [(seenBy_size x).1, (seenBy_size x).2] at hs
    exact add_same (left_same hm _ l w h _) (short_same l w (seen_same h)) (by omega) (by omega)

theorem up_same (hm : Separate t m) (l : Level) (w : LevelW) {x x' : Image ℝ} {b b' : ℕ} (hc : l.clip = false)
    (hx : 0 < x.height ∧ 0 < x.width) (h : SameImage l.downPlanes x b x' b') :
    SameImage l.outPlanes (upOf t m l w x) b (upOf t m l w x') b' := by
  have hsz := rightOf_size (t := t) (m := m) l w x hx
  have hs := shortUpOf_size l w (seenBy t x) (by rw [(seenBy_size x).1, (seenBy_size x).2]; exact hx)
  rw [(seenBy_size x).1, (seenBy_size x).2] at hs
  unfold upOf
  simp only [hc, Bool.false_eq_true, if_false]
  exact add_same (right_same hm l w h _) (shortUp_same l w (seen_same h)) (by omega) (by omega)

theorem net_same (hm : Separate t m) (w : ℕ → LevelW) {ls : List Level} {k : ℕ} {x x' : Image ℝ} {b b' : ℕ} {c : ℕ}
    {z : Shape} (hz : Unet.run ls ⟨c, x.height, x.width⟩ = .ok z) (hx : 1 ≤ x.height ∧ 1 ≤ x.width)
    (h : SameImage c x b x' b') :
    SameImage z.chans (netOf (seenBy t) t m w k ls x) b (netOf (seenBy t) t m w k ls x') b' := by
  induction ls generalizing k x x' c z with
  | nil =>
    cases hz
    exact h
  | cons l ls ih =>
    rw [netOf_cons, netOf_cons]
    unfold Unet.run at hz
    obtain ⟨a, ha, hz'⟩ := except_bind hz
    obtain ⟨y, hy, hz''⟩ := except_bind hz'
    obtain ⟨d1, d2, d3, rfl⟩ := down_ok ha
    dsimp only at d1 d2 d3 hy
    subst d1
    obtain ⟨s1, s2⟩ := downOf_size (t := t) (m := m) k l (w k) x hx
    rw [← s1, ← s2] at hy
    have hp : 1 ≤ (downOf t m k l (w k) x).height ∧ 1 ≤ (downOf t m k l (w k) x).width := by omega
    have hi := ih (k := k + 1) hy hp (down_same hm k l (w k) hx h)
    obtain ⟨r1, r2, -, -⟩ := run_ok hy hp
    have hnp := netOf_pos (t := t) (m := m) w ls (k + 1) (downOf t m k l (w k) x) r1 r2
    have hu := up_ok hz''
    cases hc : l.clip
    · simp only [hc, Bool.false_eq_true, if_false] at hu
      rw [hu.2]
      rw [hu.1] at hi
      exact up_same hm l (w k) hc hnp hi
    · simp only [hc, if_true] at hu
      rw [hu]
      unfold upOf
      simp only [hc, if_true]
      exact hi

theorem norm_mode {m' : Mode} (hmm : m.training = m'.training) (hm : Separate t m) : normOf t m' = normOf t m := by
  funext w x
  cases t
  · have hf : m.training = false := by
      cases ht : m.training
      · rfl
      · exact absurd ⟨rfl, ht⟩ hm
    simp only [normOf, batchNorm, ← hmm, hf, Bool.false_eq_true, if_false]
  · rfl
  · rfl
  · rfl

theorem net_mode {m' : Mode} (hmm : m.training = m'.training) (hm : Separate t m) (levels : List Level) (w : Weights)
    (x : Image ℝ) : residualNet seen t m' levels w x = residualNet seen t m levels w x := by
  have hl : leftOf t m' = leftOf t m := by
    funext top l w x
    unfold leftOf
    rw [norm_mode hmm hm]
  have hr : rightOf t m' = rightOf t m := by
    funext l w x
    unfold rightOf
    rw [norm_mode hmm hm]
  have hd : ∀ (ls : List Level) k x, deepest seen t m' w.level k ls x = deepest seen t m w.level k ls x := by
    intro ls
    induction ls with
    | nil => intros; rfl
    | cons l ls ih =>
      intro k x
      simp only [deepest, hl, ih]
  have hu : ∀ (ls : List Level) k x, upward seen t m' w.level k ls x = upward seen t m w.level k ls x := by
    intro ls
    induction ls with
    | nil => intros; rfl
    | cons l ls ih =>
      intro k x
      simp only [upward, hr, ih]
  unfold residualNet
  rw [hd, hu]

/-- **C135, batches: what holds.** Except with batch normalisation in training, the logits of an image do not depend on the
other images of its batch nor on its place among them. -/
theorem C135_batch_partial (t : NormType) (m m' : Mode) (hmm : m.training = m'.training)
    (hm : ¬ (t = .batch ∧ m.training = true)) (levels : List Level) (out chans : ℕ)
    (w : Weights) (h h' : Heap) (image image' b b' : ℕ) (hi : image < h.length) (hi' : image' < h'.length)
    (h1 : 1 ≤ (get h image).height ∧ 1 ≤ (get h image).width) (s : Shape)
    (hs : Unet.forward levels out ⟨chans, (get h image).height, (get h image).width⟩ = .ok s)
    (hn : ¬ Single t m ((get h image).height / 2 ^ levels.length) ((get h image).width / 2 ^ levels.length))
    (hsame : SameImage chans (get h image) b (get h' image') b') :
    ∃ g r g' r', forward t m levels out chans w h image = .ok (g, r) ∧
      forward t m' levels out chans w h' image' = .ok (g', r') ∧ SameImage out (get g r) b (get g' r') b' := by
  have hn' : ¬ Single t m' ((get h image).height / 2 ^ levels.length) ((get h image).width / 2 ^ levels.length) := by
    cases t
    · exact fun hh => hm ⟨rfl, hmm ▸ hh.1⟩
    · exact id
    · exact hn
    · exact id
  obtain ⟨z, hz, hz64, -⟩ := forward_ok hs
  obtain ⟨g, r, e1, e2, -⟩ := C135_values t m levels out chans w h image hi h1 s hs hn
  have hnet := net_same (t := t) (m := m) hm w.level (k := 0) hz h1 hsame
  rw [hsame.1, hsame.2.1] at h1 hs hn'
  obtain ⟨g', r', f1, f2, -⟩ := C135_values t m' levels out chans w h' image' hi' h1 s hs hn'
  refine ⟨g, r, g', r', e1, f1, ?_⟩
  rw [e2, f2]
  rw [hz64] at hnet
  rw [net_mode _ hmm hm]
  exact conv_same 64 1 1 0 w.last hnet out

/-! ### Reach -/

/-- Pixels are normalised for themselves: no statistics of the image or batch. -/
def Pointwise (t : NormType) (m : Mode) : Prop := t ≠ .instance ∧ Separate t m

section Reach

variable {x x' u u' : Image ℝ} {b b' C : ℕ} {S R y z e f : ℤ}

theorem leaky_near (h : Near C S R y z e f x b x' b') : Near C S R y z e f (leaky x) b (leaky x') b' := by
  intro i j hi hj
  obtain ⟨hf, hv⟩ := h i j hi hj
  refine ⟨hf, fun hin c hc => ?_⟩
  simp only [leaky]
  rw [hv hin c hc]

theorem norm_near (hm : Pointwise t m) (w : BatchW) (h : Near C S R y z e f x b x' b') :
    Near C S R y z e f (normOf t m w x) b (normOf t m w x') b' := by
  cases t with
  | batch =>
    have hf : m.training = false := by
      cases ht : m.training
      · rfl
      · exact absurd ⟨rfl, ht⟩ hm.2
    intro i j hi hj
    obtain ⟨hf', hv⟩ := h i j hi hj
    refine ⟨hf', fun hin c hc => ?_⟩
    simp only [normOf, batchNorm, hf, Bool.false_eq_true, if_false]
    rw [hv hin c hc]
  | «instance» => exact absurd rfl hm.1
  | spectral => exact h
  | identity => exact h

theorem seen_near (h : Near C S R y z e f x b x' b') : Near C S R y z e f (seenBy t x) b (seenBy t x') b' := by
  cases t
  · exact h
  · exact leaky_near h
  · exact h
  · exact leaky_near h

theorem conv3_near (hS : 0 ≤ S) (c : ℕ) (w : ConvW) (hx : Pos x) (hx' : Pos x')
    (h : Near c S (R + S * 1) y z e f x b x' b') (C : ℕ) :
    Near C S R y z e f (conv3 t c w x) b (conv3 t c w x') b' := by
  unfold conv3
  exact HificNet.conv3_near hS _ hx hx' h C

theorem conv1_near (hS : 0 ≤ S) (c : ℕ) (w : ConvW) (hx : Pos x) (hx' : Pos x')
    (h : Near c S R y z e f x b x' b') (C : ℕ) :
    Near C S R y z e f (conv2d c 1 1 0 w x) b (conv2d c 1 1 0 w x') b' := by
  have := HificNet.conv_near (p := 0) (s := 1) (e := e) (f := f) (by norm_num) hS w hx hx' (by simpa using h) C
  simpa using this

theorem pool_near (hS : 0 ≤ S) (h : Near C S (R + S) y z (2 * e) (2 * f) x b x' b') :
    Near C (2 * S) R y z e f (pool x) b (pool x') b' := by
  intro i j hi hj
  have key : ∀ (i y d : ℤ), |2 * S * i - y| ≤ R → 0 ≤ d → d ≤ 1 → |S * (2 * i + d) - y| ≤ R + S := by
    intro i y d h1 h2 h3
    have e1 : S * (2 * i + d) - y = (2 * S * i - y) + S * d := by ring
    rw [e1]
    refine (abs_add_le _ _).trans (add_le_add h1 ?_)
    rw [abs_of_nonneg (mul_nonneg hS h2)]
    nlinarith
  have hin : InFrame (pool x) i j ↔ InFrame x (2 * i) (2 * j) ∧ InFrame x (2 * i + 1) (2 * j + 1) := by
    simp only [InFrame, pool]
    omega
  have hin' : InFrame (pool x') (i + e) (j + f) ↔
      InFrame x' (2 * i + 2 * e) (2 * j + 2 * f) ∧ InFrame x' (2 * i + 1 + 2 * e) (2 * j + 1 + 2 * f) := by
    simp only [InFrame, pool]
    omega
  have h00 := h (2 * i) (2 * j) (by simpa using key i y 0 hi (by norm_num) (by norm_num))
    (by simpa using key j z 0 hj (by norm_num) (by norm_num))
  have h11 := h (2 * i + 1) (2 * j + 1) (key i y 1 hi (by norm_num) (by norm_num))
    (key j z 1 hj (by norm_num) (by norm_num))
  have hf : InFrame (pool x) i j ↔ InFrame (pool x') (i + e) (j + f) := by rw [hin, hin', h00.1, h11.1]
  refine ⟨hf, fun hh c hc => ?_⟩
  have hh' := hf.1 hh
  simp only [pool]
  congr 1
  refine Finset.sum_congr rfl fun di hdi => Finset.sum_congr rfl fun dj hdj => ?_
  rw [Finset.mem_range] at hdi hdj
  have hd := h (2 * i + di) (2 * j + dj) (key i y di hi (by omega) (by omega)) (key j z dj hj (by omega) (by omega))
  have hfr : InFrame x (2 * i + di) (2 * j + dj) := by
    simp only [InFrame, pool] at hh ⊢
    omega
  have := hd.2 hfr c hc
  have i0 := hh.1
  have j0 := hh.2.2.1
  have i0' := hh'.1
  have j0' := hh'.2.2.1
  rw [show 2 * i.toNat + di = (2 * i + di).toNat by omega, show 2 * j.toNat + dj = (2 * j + dj).toNat by omega, this]
  congr 1 <;> omega

theorem upsample_near (hS : 0 ≤ S) (h : Near C (2 * S) (R + S) y z e f x b x' b') :
    Near C S R y z (2 * e) (2 * f) (upsample x) b (upsample x') b' := by
  intro i j hi hj
  have key : ∀ (i y : ℤ), |S * i - y| ≤ R → |2 * S * (i / 2) - y| ≤ R + S := by
    intro i y h1
    have e1 : 2 * S * (i / 2) - y = (S * i - y) + S * (-(i % 2)) := by
      have := Int.mul_ediv_add_emod i 2
      linear_combination S * this
    rw [e1]
    refine (abs_add_le _ _).trans (add_le_add h1 ?_)
    rw [abs_mul, abs_of_nonneg hS, abs_neg, abs_of_nonneg (by omega)]
    have : i % 2 ≤ 1 := by omega
    nlinarith
  have hd := h (i / 2) (j / 2) (key i y hi) (key j z hj)
  have hin : InFrame (upsample x) i j ↔ InFrame x (i / 2) (j / 2) := by
    simp only [InFrame, upsample]
    omega
  have hin' : InFrame (upsample x') (i + 2 * e) (j + 2 * f) ↔ InFrame x' (i / 2 + e) (j / 2 + f) := by
    simp only [InFrame, upsample]
    omega
  have hf : InFrame (upsample x) i j ↔ InFrame (upsample x') (i + 2 * e) (j + 2 * f) := by rw [hin, hin', hd.1]
  refine ⟨hf, fun hh c hc => ?_⟩
  have hh' := hf.1 hh
  have := hd.2 (hin.1 hh) c hc
  have i0 := hh.1
  have j0 := hh.2.2.1
  have i0' := hh'.1
  have j0' := hh'.2.2.1
  simp only [upsample]
  rw [show i.toNat / 2 = (i / 2).toNat by omega, show j.toNat / 2 = (j / 2).toNat by omega, this]
  congr 1 <;> omega

theorem normOf_pos (w : BatchW) (h : Pos x) : Pos (normOf t m w x) := by
  cases t <;> exact h

theorem left_near (hm : Pointwise t m) (hS : 0 ≤ S) (top : Bool) (l : Level) (w : LevelW) (hx : Pos x) (hx' : Pos x')
    (h : Near l.inPlanes S (R + 3 * S) y z (2 * e) (2 * f) x b x' b') (C : ℕ) :
    Near C (2 * S) R y z e f (leftOf t m top l w x) b (leftOf t m top l w x') b' := by
  have h0 : ∀ v v' : Image ℝ, Pos v → Pos v' → Near l.inPlanes S (R + 3 * S) y z (2 * e) (2 * f) v b v' b' →
      Near C (2 * S) R y z e f
        (pool (conv2d l.downPlanes 3 1 1 w.conv2 (leaky (normOf t m w.norm2 (conv3 t l.inPlanes w.conv1 v))))) b
        (pool (conv2d l.downPlanes 3 1 1 w.conv2 (leaky (normOf t m w.norm2 (conv3 t l.inPlanes w.conv1 v'))))) b' := by
    intro v v' hv hv' hvv
    have a := conv3_near (t := t) (R := R + 2 * S) hS l.inPlanes w.conv1 hv hv'
      (by rw [show R + 2 * S + S * 1 = R + 3 * S by ring]; exact hvv) l.downPlanes
    have pv : ∀ v : Image ℝ, Pos (conv3 t l.inPlanes w.conv1 v) := fun v => HificNet.conv_pos _ _ _ _ _ _
    have a2 := HificNet.conv3_near (R := R + S) hS w.conv2
      (show Pos (leaky (normOf t m w.norm2 (conv3 t l.inPlanes w.conv1 v))) from normOf_pos _ (pv v))
      (show Pos (leaky (normOf t m w.norm2 (conv3 t l.inPlanes w.conv1 v'))) from normOf_pos _ (pv v'))
      (by rw [show R + S + S * 1 = R + 2 * S by ring]; exact leaky_near (norm_near hm _ a)) C
    exact pool_near hS a2
  unfold leftOf
  cases top
  · exact h0 _ _ (show Pos (normOf t m w.norm1 x) from normOf_pos _ hx)
      (show Pos (normOf t m w.norm1 x') from normOf_pos _ hx') (leaky_near (norm_near hm _ h))
  · exact h0 _ _ hx hx' h

theorem short_near (hS : 0 ≤ S) (l : Level) (w : LevelW) (hx : Pos x) (hx' : Pos x')
    (h : Near l.inPlanes S (R + S) y z (2 * e) (2 * f) x b x' b') :
    Near l.downPlanes (2 * S) R y z e f (shortOf l w x) b (shortOf l w x') b' := by
  unfold shortOf
  by_cases hc : l.inPlanes ≠ l.downPlanes
  · simp only [if_pos hc]
    exact pool_near hS (conv1_near hS _ _ hx hx' h _)
  · simp only [if_neg hc]
    rw [not_not] at hc
    exact hc ▸ pool_near hS h

theorem right_near (hm : Pointwise t m) (hS : 0 ≤ S) (l : Level) (w : LevelW) (hx : Pos x) (hx' : Pos x')
    (h : Near l.downPlanes (2 * S) (R + 3 * S) y z e f x b x' b') (C : ℕ) :
    Near C S R y z (2 * e) (2 * f) (rightOf t m l w x) b (rightOf t m l w x') b' := by
  unfold rightOf
  have a := upsample_near (R := R + 2 * S) hS (by
    rw [show R + 2 * S + S = R + 3 * S by ring]; exact leaky_near (norm_near (t := t) (m := m) hm w.norm3 h))
  have pu : ∀ v : Image ℝ, Pos v → Pos (upsample (leaky (normOf t m w.norm3 v))) := by
    intro v hv
    obtain ⟨e1, e2⟩ := normOf_size (t := t) (m := m) w.norm3 v
    have := hv.1
    have := hv.2
    refine ⟨?_, ?_⟩
    · show 0 < 2 * (normOf t m w.norm3 v).height
      omega
    · show 0 < 2 * (normOf t m w.norm3 v).width
      omega
  have a2 := conv3_near (t := t) (R := R + S) hS l.downPlanes w.conv3 (pu x hx) (pu x' hx')
    (by rw [show R + S + S * 1 = R + 2 * S by ring]; exact a) l.outPlanes
  have pv : ∀ v : Image ℝ, Pos (conv3 t l.downPlanes w.conv3 v) := fun v => HificNet.conv_pos _ _ _ _ _ _
  exact HificNet.conv3_near hS w.conv4
    (show Pos (leaky (normOf t m w.norm4 (conv3 t l.downPlanes w.conv3 _))) from normOf_pos _ (pv _))
    (show Pos (leaky (normOf t m w.norm4 (conv3 t l.downPlanes w.conv3 _))) from normOf_pos _ (pv _))
    (by rw [show R + S * 1 = R + S by ring]; exact leaky_near (norm_near hm _ a2)) C

theorem shortUp_near (hS : 0 ≤ S) (l : Level) (w : LevelW) (hx : Pos x) (hx' : Pos x')
    (h : Near l.downPlanes (2 * S) (R + S) y z e f x b x' b') :
    Near l.outPlanes S R y z (2 * e) (2 * f) (shortUpOf l w x) b (shortUpOf l w x') b' := by
  unfold shortUpOf
  by_cases hc : l.downPlanes ≠ l.outPlanes
  · simp only [if_pos hc]
    exact upsample_near hS (conv1_near (by omega) _ _ hx hx' h _)
  · simp only [if_neg hc]
    rw [not_not] at hc
    exact hc ▸ upsample_near hS h

theorem seen_pos (h : Pos x) : Pos (seenBy t x) := by
  cases t <;> exact h

theorem down_near (hm : Pointwise t m) (hS : 0 ≤ S) (k : ℕ) (l : Level) (w : LevelW) (hx : Pos x) (hx' : Pos x')
    (h : Near l.inPlanes S (R + 3 * S) y z (2 * e) (2 * f) x b x' b') :
    Near l.downPlanes (2 * S) R y z e f (downOf t m k l w x) b (downOf t m k l w x') b' := by
  have hsz := leftOf_size (t := t) (m := m) (decide (k = 0)) l w x hx
  have h' := h.mono (R' := R + S) (by linarith)
  unfold downOf
  by_cases hk : k = 0
  · simp only [if_pos hk]
    have hs := shortOf_size l w x hx
    exact HificNet.add_near (left_near hm hS _ l w hx hx' h _) (short_near hS l w hx hx' h') ⟨by omega, by omega⟩
  · simp only [if_neg hk]
    have hs := shortOf_size l w (seenBy t x) (seen_pos hx)
    rw [(seenBy_size x).1, (seenBy_size x).2] at hs
    exact HificNet.add_near (left_near hm hS _ l w hx hx' h _)
      (short_near hS l w (seen_pos hx) (seen_pos hx') (seen_near h')) ⟨by omega, by omega⟩

theorem up_near (hm : Pointwise t m) (hS : 0 ≤ S) (l : Level) (w : LevelW) (hc : l.clip = false) (hx : Pos x)
    (hx' : Pos x') (h : Near l.downPlanes (2 * S) (R + 3 * S) y z e f x b x' b') :
    Near l.outPlanes S R y z (2 * e) (2 * f) (upOf t m l w x) b (upOf t m l w x') b' := by
  have h' := h.mono (R' := R + S) (by linarith)
  have hsz := rightOf_size (t := t) (m := m) l w x hx
  have hs := shortUpOf_size l w (seenBy t x) (seen_pos hx)
  rw [(seenBy_size x).1, (seenBy_size x).2] at hs
  unfold upOf
  simp only [hc, Bool.false_eq_true, if_false]
  exact HificNet.add_near (right_near hm hS l w hx hx' h _)
    (shortUp_near hS l w (seen_pos hx) (seen_pos hx') (seen_near h')) ⟨by omega, by omega⟩

end Reach

theorem net_near_open (hm : Pointwise t m) (w : ℕ → LevelW) {ls : List Level} (hl : ∀ l ∈ ls, l.clip = false) {k : ℕ}
    {S R y z e f : ℤ} (hS : 0 ≤ S) {x x' : Image ℝ} {b b' : ℕ} {c : ℕ} {q q' : Shape}
    (hq : Unet.run ls ⟨c, x.height, x.width⟩ = .ok q) (hq' : Unet.run ls ⟨c, x'.height, x'.width⟩ = .ok q')
    (hx : Pos x) (hx' : Pos x')
    (h : Near c S (R + 6 * (2 ^ ls.length - 1) * S) y z (2 ^ ls.length * e) (2 ^ ls.length * f) x b x' b') :
    Near q.chans S R y z (2 ^ ls.length * e) (2 ^ ls.length * f) (netOf (seenBy t) t m w k ls x) b
      (netOf (seenBy t) t m w k ls x') b' := by
  induction ls generalizing k x x' c q q' S R with
  | nil =>
    cases hq
    exact h.mono (by simp)
  | cons l ls ih =>
    rw [netOf_cons, netOf_cons]
    unfold Unet.run at hq hq'
    obtain ⟨a, ha, hq2⟩ := except_bind hq
    obtain ⟨v, hv, hq3⟩ := except_bind hq2
    obtain ⟨a', ha', hq2'⟩ := except_bind hq'
    obtain ⟨v', hv', hq3'⟩ := except_bind hq2'
    obtain ⟨d1, d2, d3, rfl⟩ := down_ok ha
    obtain ⟨-, d2', d3', rfl⟩ := down_ok ha'
    dsimp only at d1 d2 d3 hv d2' d3' hv'
    subst d1
    obtain ⟨s1, s2⟩ := downOf_size (t := t) (m := m) k l (w k) x hx
    obtain ⟨s1', s2'⟩ := downOf_size (t := t) (m := m) k l (w k) x' hx'
    rw [← s1, ← s2] at hv
    rw [← s1', ← s2'] at hv'
    have hp : Pos (downOf t m k l (w k) x) := ⟨by omega, by omega⟩
    have hp' : Pos (downOf t m k l (w k) x') := ⟨by omega, by omega⟩
    obtain ⟨r1, r2, -, -⟩ := run_ok hv hp
    obtain ⟨r1', r2', -, -⟩ := run_ok hv' hp'
    have hd := down_near hm hS k l (w k) (R := R + 3 * S + 6 * (2 ^ ls.length - 1) * (2 * S)) (e := 2 ^ ls.length * e)
      (f := 2 ^ ls.length * f) hx hx' (by
        rw [List.length_cons, pow_succ] at h
        rw [show R + 3 * S + 6 * (2 ^ ls.length - 1) * (2 * S) + 3 * S = R + 6 * (2 ^ ls.length * 2 - 1) * S by ring,
          show 2 * (2 ^ ls.length * e) = 2 ^ ls.length * 2 * e by ring,
          show 2 * (2 ^ ls.length * f) = 2 ^ ls.length * 2 * f by ring]
        exact h)
    have hi := ih (fun l hl' => hl l (List.mem_cons_of_mem _ hl')) (k := k + 1) (S := 2 * S) (R := R + 3 * S) (by omega)
      hv hv' hp hp' hd
    have hc := hl l List.mem_cons_self
    have hu := up_ok hq3
    simp only [hc, Bool.false_eq_true, if_false] at hu
    rw [hu.2]
    rw [hu.1] at hi
    have := up_near hm hS l (w k) hc (netOf_pos w ls (k + 1) _ r1 r2) (netOf_pos w ls (k + 1) _ r1' r2') hi
    rw [List.length_cons, pow_succ, show 2 ^ ls.length * 2 * e = 2 * (2 ^ ls.length * e) by ring,
      show 2 ^ ls.length * 2 * f = 2 * (2 ^ ls.length * f) by ring]
    exact this

theorem net_near (hm : Pointwise t m) (w : ℕ → LevelW) (d : ℕ) {u : ℕ} {ls : List Level}
    (hl : ls.map Unet.Level.clip = List.replicate d true ++ List.replicate u false) {k : ℕ}
    {S R y z e f : ℤ} (hS : 0 ≤ S) {x x' : Image ℝ} {b b' : ℕ} {c : ℕ} {q q' : Shape}
    (hq : Unet.run ls ⟨c, x.height, x.width⟩ = .ok q) (hq' : Unet.run ls ⟨c, x'.height, x'.width⟩ = .ok q')
    (hx : Pos x) (hx' : Pos x')
    (h : Near c S (R + (6 * 2 ^ (d + u) - 3 * 2 ^ d - 3) * S) y z (2 ^ (d + u) * e) (2 ^ (d + u) * f) x b x' b') :
    Near q.chans (2 ^ d * S) R y z (2 ^ u * e) (2 ^ u * f) (netOf (seenBy t) t m w k ls x) b
      (netOf (seenBy t) t m w k ls x') b' := by
  induction d generalizing ls k x x' c q q' S with
  | zero =>
    have hlen : ls.length = u := by simpa using congrArg List.length hl
    have := net_near_open hm w (ls := ls) (k := k) (R := R) (e := e) (f := f) (y := y) (z := z)
      (b := b) (b' := b') ?_ hS hq hq' hx hx' ?_
    · rw [hlen] at this
      simpa using this
    · intro l hl'
      have hmem : l.clip ∈ ls.map Unet.Level.clip := List.mem_map_of_mem hl'
      rw [hl] at hmem
      simpa using List.eq_of_mem_replicate (by simpa using hmem)
    · rw [hlen]
      rw [Nat.zero_add] at h
      rw [show R + 6 * (2 ^ u - 1) * S = R + (6 * 2 ^ u - 3 * 2 ^ 0 - 3) * S by ring]
      exact h
  | succ d ih =>
    cases ls with
    | nil => simp [List.replicate_succ] at hl
    | cons l ls =>
      simp only [List.map_cons, List.replicate_succ, List.cons_append, List.cons.injEq] at hl
      obtain ⟨hc, hl⟩ := hl
      rw [netOf_cons, netOf_cons]
      unfold Unet.run at hq hq'
      obtain ⟨a, ha, hq2⟩ := except_bind hq
      obtain ⟨v, hv, hq3⟩ := except_bind hq2
      obtain ⟨a', ha', hq2'⟩ := except_bind hq'
      obtain ⟨v', hv', hq3'⟩ := except_bind hq2'
      obtain ⟨d1, d2, d3, rfl⟩ := down_ok ha
      obtain ⟨-, d2', d3', rfl⟩ := down_ok ha'
      dsimp only at d1 d2 d3 hv d2' d3' hv'
      subst d1
      obtain ⟨s1, s2⟩ := downOf_size (t := t) (m := m) k l (w k) x hx
      obtain ⟨s1', s2'⟩ := downOf_size (t := t) (m := m) k l (w k) x' hx'
      rw [← s1, ← s2] at hv
      rw [← s1', ← s2'] at hv'
      have hp : Pos (downOf t m k l (w k) x) := ⟨by omega, by omega⟩
      have hp' : Pos (downOf t m k l (w k) x') := ⟨by omega, by omega⟩
      have hd := down_near hm hS k l (w k) (R := R + (6 * 2 ^ (d + u) - 3 * 2 ^ d - 3) * (2 * S))
        (e := 2 ^ (d + u) * e) (f := 2 ^ (d + u) * f) hx hx' (by
          rw [show d + 1 + u = d + u + 1 by omega, pow_succ, pow_succ] at h
          rw [show R + (6 * 2 ^ (d + u) - 3 * 2 ^ d - 3) * (2 * S) + 3 * S =
              R + (6 * (2 ^ (d + u) * 2) - 3 * (2 ^ d * 2) - 3) * S by ring,
            show 2 * (2 ^ (d + u) * e) = 2 ^ (d + u) * 2 * e by ring,
            show 2 * (2 ^ (d + u) * f) = 2 ^ (d + u) * 2 * f by ring]
          exact h)
      have hi := ih hl (k := k + 1) (S := 2 * S) (by omega) hv hv' hp hp' hd
      have hu := up_ok hq3
      simp only [hc, if_true] at hu
      rw [hu]
      unfold upOf
      simp only [hc, if_true]
      rw [pow_succ, show 2 ^ d * 2 * S = 2 ^ d * (2 * S) by ring]
      exact hi

/-- **C135, reach: what holds.** Without instance normalisation, and in evaluation if there is batch normalisation, the logits
at a position depend on the image around the corresponding pixel only: with `u + d` levels, of which the `d` outer ones are
clipped, on the pixels at most `6 * 2 ^ (d + u) - 3 * 2 ^ d - 3` rows and columns away (378 for the default channels and
output in full resolution), also in an image of another size that looks the same there, moved by a multiple of
`2 ^ (d + u)`. -/
theorem C135_reach_partial (t : NormType) (m : Mode) (ht : t ≠ .instance) (hm : ¬ (t = .batch ∧ m.training = true))
    (levels : List Level) (d u : ℕ)
    (hl : levels.map Unet.Level.clip = List.replicate d true ++ List.replicate u false) (out chans : ℕ)
    (w : Weights) (h h' : Heap) (image image' b b' : ℕ) (hi : image < h.length) (hi' : image' < h'.length)
    (h1 : 1 ≤ (get h image).height ∧ 1 ≤ (get h image).width)
    (h1' : 1 ≤ (get h' image').height ∧ 1 ≤ (get h' image').width) (s s' : Shape)
    (hs : Unet.forward levels out ⟨chans, (get h image).height, (get h image).width⟩ = .ok s)
    (hs' : Unet.forward levels out ⟨chans, (get h' image').height, (get h' image').width⟩ = .ok s')
    (i j : ℕ) (hin : i < s.height ∧ j < s.width) (i' j' : ℕ) (e f : ℤ) (hi2 : (i' : ℤ) = i + 2 ^ u * e)
    (hj2 : (j' : ℤ) = j + 2 ^ u * f)
    (hsame : SameAround chans (6 * 2 ^ (d + u) - 3 * 2 ^ d - 3) (get h image) b (2 ^ d * i) (2 ^ d * j)
      (get h' image') b' (2 ^ d * i') (2 ^ d * j')) :
    ∃ g r g' r', forward t m levels out chans w h image = .ok (g, r) ∧
      forward t m levels out chans w h' image' = .ok (g', r') ∧ i' < s'.height ∧ j' < s'.width ∧
      ∀ c < out, (get g r).pix b c i j = (get g' r').pix b' c i' j' := by
  have hn : ∀ a b, ¬ Single t m a b := by
    intro a b
    cases t
    · exact fun hh => hm ⟨rfl, hh.1⟩
    · exact id
    · exact absurd rfl ht
    · exact id
  obtain ⟨z, hz, hz64, rfl⟩ := forward_ok hs
  obtain ⟨z', hz', -, rfl⟩ := forward_ok hs'
  obtain ⟨g, r, e1, e2, e3, e4, -⟩ := C135_values t m levels out chans w h image hi h1 _ hs (hn _ _)
  obtain ⟨g', r', f1, f2, f3, f4, -⟩ := C135_values t m levels out chans w h' image' hi' h1' _ hs' (hn _ _)
  have hnear := HificNet.near_of_same hsame
  have hnet := net_near (t := t) (m := m) ⟨ht, hm⟩ w.level d hl (k := 0) (S := 1) (R := 0) (e := e) (f := f)
    (by norm_num) hz hz' h1 h1' (by
      rw [hi2, hj2, show (2 : ℤ) ^ d * (i + 2 ^ u * e) - 2 ^ d * i = 2 ^ (d + u) * e by rw [pow_add]; ring,
        show (2 : ℤ) ^ d * (j + 2 ^ u * f) - 2 ^ d * j = 2 ^ (d + u) * f by rw [pow_add]; ring] at hnear
      rw [show (0 : ℤ) + (6 * 2 ^ (d + u) - 3 * 2 ^ d - 3) * 1 = 6 * 2 ^ (d + u) - 3 * 2 ^ d - 3 by ring]
      exact hnear)
  rw [hz64] at hnet
  have p := run_ok hz h1
  have p' := run_ok hz' h1'
  have hlast := conv1_near (by positivity) 64 w.last (netOf_pos w.level levels 0 _ p.1 p.2.1)
    (netOf_pos w.level levels 0 _ p'.1 p'.2.1) hnet out
  have hg : get g r = conv2d 64 1 1 0 w.last (netOf (seenBy t) t m w.level 0 levels (get h image)) := e2
  have hg' : get g' r' = conv2d 64 1 1 0 w.last (netOf (seenBy t) t m w.level 0 levels (get h' image')) := f2
  rw [← hg, ← hg'] at hlast
  obtain ⟨q1, q2⟩ := hlast i j (by simp) (by simp)
  dsimp only at hin e3 e4 f3 f4
  have hframe : InFrame (get g r) i j := by
    unfold InFrame
    rw [e3, e4]
    omega
  have hframe' := q1.1 hframe
  rw [← hi2, ← hj2] at hframe' q2
  unfold InFrame at hframe'
  rw [f3, f4] at hframe'
  refine ⟨g, r, g', r', e1, f1, by dsimp only; omega, by dsimp only; omega, fun c hc => ?_⟩
  simpa using q2 hframe c hc

/-! ### What does not hold -/

section Violated

/-- A convolution that returns zero. -/
def zeroW : ConvW := ⟨fun _ _ _ _ => 0, fun _ => 0⟩

/-- A convolution of size three that returns the first channel. -/
def centreW : ConvW := ⟨fun _ _ di dj => if di = 1 ∧ dj = 1 then 1 else 0, fun _ => 0⟩

/-- A convolution of size one that returns the first channel. -/
def firstW : ConvW := ⟨fun _ c _ _ => if c = 0 then 1 else 0, fun _ => 0⟩

/-- Batch normalisation as it is initialised. -/
def plainNorm : BatchW := ⟨fun _ => 1, fun _ => 0, fun _ => 0, fun _ => 1⟩

/-- The weights of a discriminator of one level, with a given convolution in the left block. -/
def smallWeights (c : ConvW) : Weights :=
  { level := fun _ => ⟨plainNorm, c, plainNorm, c, zeroW, plainNorm, zeroW, plainNorm, zeroW, firstW⟩
    last := firstW
    context := zeroW }

/-- The levels of `UnetDiscriminator(channels=[1, 1])`. -/
def smallLevels : List Level := [⟨1, 1, 64, false⟩]

theorem smallLevels_init : Unet.init 1 [1, 1] = .ok smallLevels := by decide +kernel

theorem smallLevels_ok {H W : ℕ} (hH : 2 ≤ H) (hW : 2 ≤ W) (out : ℕ) :
    Unet.forward smallLevels out ⟨1, H, W⟩ = .ok ⟨out, 2 * (H / 2), 2 * (W / 2)⟩ := by
  have h1 : ¬ (H ≤ 1 ∨ W ≤ 1) := by omega
  simp [Unet.forward, smallLevels, Unet.run, Unet.Level.down, Unet.Level.up, Unet.conv, Unet.pool, Unet.upsample, h1,
    bind, Except.bind, pure, Except.pure]

theorem zeroConv (cin k p : ℕ) (x : Image ℝ) (b c i j : ℕ) : (conv2d cin k 1 p zeroW x).pix b c i j = 0 := by
  simp [conv2d, zeroW]

theorem firstConv (cin : ℕ) (hc : 0 < cin) (x : Image ℝ) (b c i j : ℕ) (hi : i < x.height) (hj : j < x.width) :
    (conv2d cin 1 1 0 firstW x).pix b c i j = x.pix b 0 i j := by
  have hz : ∀ c', zeroPadded x b c' (i : ℤ) j = x.pix b c' i j := by
    intro c'
    unfold zeroPadded
    rw [if_pos (by omega)]
    simp
  simp only [conv2d, firstW, Finset.sum_range_one, Nat.cast_zero, Nat.cast_one, mul_one, add_zero, sub_zero, zero_add, hz]
  rw [Finset.sum_eq_single 0 (by intro c' _ h; simp [h]) (by intro h; exact absurd (Finset.mem_range.2 hc) h)]
  simp

theorem centreConv (x : Image ℝ) (b c i j : ℕ) (hi : i < x.height) (hj : j < x.width) :
    (conv2d 1 3 1 1 centreW x).pix b c i j = x.pix b 0 i j := by
  have hz : zeroPadded x b 0 (i : ℤ) j = x.pix b 0 i j := by
    unfold zeroPadded
    rw [if_pos (by omega)]
    simp
  simp only [conv2d, centreW, Finset.sum_range_succ, Finset.sum_range_zero]
  norm_num [hz]

theorem small_values (seen : Image ℝ → Image ℝ) (hseen : ∀ x, (seen x).height = x.height ∧ (seen x).width = x.width)
    (t : NormType) (m : Mode) (c : ConvW) (x : Image ℝ) (hx : 2 ≤ x.height ∧ 2 ≤ x.width) (b : ℕ) :
    (residualNet seen t m smallLevels (smallWeights c) x).pix b 0 0 0 =
      (seen (add (leftOf t m true ⟨1, 1, 64, false⟩ ((smallWeights c).level 0) x) (pool x))).pix b 0 0 0 := by
  obtain ⟨a1, a2⟩ := leftOf_size (t := t) (m := m) true ⟨1, 1, 64, false⟩ ((smallWeights c).level 0) x (by omega)
  unfold residualNet
  simp only [smallLevels, upward, deepest, shortOf]
  simp only [decide_true, ne_eq, not_true_eq_false, if_false, if_true, Bool.false_eq_true]
  generalize hy : add (leftOf t m true ⟨1, 1, 64, false⟩ ((smallWeights c).level 0) x) (pool x) = y
  have y1 : y.height = x.height / 2 := by rw [← hy, ← a1]; rfl
  have y2 : y.width = x.width / 2 := by rw [← hy, ← a2]; rfl
  obtain ⟨r1, r2⟩ := rightOf_size (t := t) (m := m) ⟨1, 1, 64, false⟩ ((smallWeights c).level 0) y (by omega)
  obtain ⟨s1, s2⟩ := hseen y
  have hr : ∀ i j, (rightOf t m ⟨1, 1, 64, false⟩ ((smallWeights c).level 0) y).pix b 0 i j = 0 := fun i j =>
    zeroConv _ _ _ _ _ _ _ _
  rw [show (smallWeights c).last = firstW from rfl, firstConv 64 (by norm_num)]
  · show (rightOf t m ⟨1, 1, 64, false⟩ ((smallWeights c).level 0) y).pix b 0 0 0 +
      (shortUpOf ⟨1, 1, 64, false⟩ ((smallWeights c).level 0) (seen y)).pix b 0 0 0 = _
    rw [hr, zero_add]
    simp only [shortUpOf]
    rw [if_pos (by norm_num), show ((smallWeights c).level 0).shortUp = firstW from rfl]
    show (conv2d 1 1 1 0 firstW (seen y)).pix b 0 (0 / 2) (0 / 2) = _
    rw [firstConv 1 (by norm_num)] <;> omega
  · show 0 < (rightOf t m ⟨1, 1, 64, false⟩ ((smallWeights c).level 0) y).height
    omega
  · show 0 < (rightOf t m ⟨1, 1, 64, false⟩ ((smallWeights c).level 0) y).width
    omega

/-- **C135 is violated: shortcuts without normalisation layer.** With the default normalisation "identity", and with
"spectral", the shortcuts do not see the features but what the activation in place left: `UnetDiscriminator(channels=[1, 1])`
with weights by which the shortcut alone counts returns `-1/5` instead of `-1` for an image of `-1`. -/
theorem C135_violated_shortcut (t : NormType) (ht : t = .identity ∨ t = .spectral) :
    ∃ levels, Unet.init 1 [1, 1] = .ok levels ∧ ∃ (w : Weights) (x : Image ℝ), x.height = 2 ∧ x.width = 2 ∧
      (∀ b c i j, x.pix b c i j = -1) ∧ ∀ m, ∃ h r, forward t m levels 1 1 w [x] 0 = .ok (h, r) ∧
        (get h r).pix 0 0 0 0 = -1 / 5 ∧ (residualNet id t m levels w x).pix 0 0 0 0 = -1 := by
  refine ⟨smallLevels, smallLevels_init, smallWeights zeroW, ⟨2, 2, fun _ _ _ _ => -1⟩, rfl, rfl, fun _ _ _ _ => rfl,
    fun m => ?_⟩
  obtain ⟨h, r, e1, e2, -⟩ := C135_values t m smallLevels 1 1 (smallWeights zeroW) [⟨2, 2, fun _ _ _ _ => -1⟩] 0
    (by simp) ⟨by simp [get], by simp [get]⟩ ⟨1, 2, 2⟩ (smallLevels_ok (H := 2) (W := 2) (by norm_num) (by norm_num) 1)
    (by rcases ht with rfl | rfl <;> exact id)
  have hadd : (add (leftOf t m true ⟨1, 1, 64, false⟩ ((smallWeights zeroW).level 0) ⟨2, 2, fun _ _ _ _ => -1⟩)
      (pool ⟨2, 2, fun _ _ _ _ => -1⟩)).pix 0 0 0 0 = -1 := by
    have hl : (leftOf t m true ⟨1, 1, 64, false⟩ ((smallWeights zeroW).level 0) ⟨2, 2, fun _ _ _ _ => -1⟩).pix 0 0 0 0 =
        0 := by
      unfold leftOf
      simp only [pool]
      rw [show ((smallWeights zeroW).level 0).conv2 = zeroW from rfl]
      simp only [zeroConv, Finset.sum_const_zero, zero_div]
    simp only [add]
    rw [hl]
    norm_num [pool, Finset.sum_range_succ]
  refine ⟨h, r, e1, ?_, ?_⟩
  · rw [e2]
    rw [show get [(⟨2, 2, fun _ _ _ _ => -1⟩ : Image ℝ)] 0 = ⟨2, 2, fun _ _ _ _ => -1⟩ from rfl,
      small_values (seenBy t) (fun x => seenBy_size x) t m zeroW _ ⟨le_rfl, le_rfl⟩]
    have : seenBy t = leaky := by rcases ht with rfl | rfl <;> rfl
    rw [this]
    simp only [leaky]
    rw [hadd]
    norm_num
  · rw [small_values id (fun x => ⟨rfl, rfl⟩) t m zeroW _ ⟨le_rfl, le_rfl⟩]
    exact hadd

/-- The value of the left block with the convolutions that return the first channel. -/
theorem small_left (t : NormType) (m : Mode) (x : Image ℝ) (hx : 2 ≤ x.height ∧ 2 ≤ x.width) (b : ℕ) :
    (leftOf t m true ⟨1, 1, 64, false⟩ ((smallWeights centreW).level 0) x).pix b 0 0 0 =
      (∑ di ∈ Finset.range 2, ∑ dj ∈ Finset.range 2,
        (leaky (normOf t m plainNorm (conv3 t 1 centreW x))).pix b 0 di dj) / 4 := by
  obtain ⟨a1, a2⟩ := conv3_size (t := t) 1 centreW x (by omega)
  obtain ⟨b1, b2⟩ := normOf_size (t := t) (m := m) plainNorm (conv3 t 1 centreW x)
  unfold leftOf
  simp only [if_true, pool, mul_zero, zero_add]
  rw [show ((smallWeights centreW).level 0).conv2 = centreW from rfl,
    show ((smallWeights centreW).level 0).conv1 = centreW from rfl,
    show ((smallWeights centreW).level 0).norm2 = plainNorm from rfl]
  congr 1
  refine Finset.sum_congr rfl fun di hdi => Finset.sum_congr rfl fun dj hdj => ?_
  rw [Finset.mem_range] at hdi hdj
  rw [centreConv]
  · show di < (normOf t m plainNorm _).height
    omega
  · show dj < (normOf t m plainNorm _).width
    omega

theorem conv3_centre (t : NormType) (x : Image ℝ) (b c i j : ℕ) (hi : i < x.height) (hj : j < x.width) :
    (conv3 t 1 centreW x).pix b c i j = x.pix b 0 i j := by
  unfold conv3
  rw [show (if t = .batch then { centreW with bias := fun _ => 0 } else centreW) = centreW by split <;> rfl]
  exact centreConv x b c i j hi hj

/-- **C135 is violated: batches.** With batch normalisation in training, an image gets other logits with another image beside
it. -/
theorem C135_violated_batch :
    ∃ levels, Unet.init 1 [1, 1] = .ok levels ∧ ∃ (w : Weights) (x x' : Image ℝ), SameImage 1 x 0 x' 0 ∧
      ∃ h r h' r', forward .batch ⟨true, 2⟩ levels 1 1 w [x] 0 = .ok (h, r) ∧
        forward .batch ⟨true, 2⟩ levels 1 1 w [x'] 0 = .ok (h', r') ∧ (get h r).pix 0 0 0 0 < (get h' r').pix 0 0 0 0 := by
  have key : ∀ a : ℝ, ∃ h r, forward .batch ⟨true, 2⟩ smallLevels 1 1 (smallWeights centreW)
      [⟨2, 2, fun b _ _ _ => if b = 0 then 1 else a⟩] 0 = .ok (h, r) ∧ (get h r).pix 0 0 0 0 =
        (leaky (normOf .batch ⟨true, 2⟩ plainNorm ⟨2, 2, fun b _ _ _ => if b = 0 then 1 else a⟩)).pix 0 0 0 0 + 1 := by
    intro a
    obtain ⟨h, r, e1, e2, -⟩ := C135_values .batch ⟨true, 2⟩ smallLevels 1 1 (smallWeights centreW)
      [⟨2, 2, fun b _ _ _ => if b = 0 then 1 else a⟩] 0
      (by simp) ⟨by simp [get], by simp [get]⟩ ⟨1, 2, 2⟩ (smallLevels_ok (H := 2) (W := 2) (by norm_num) (by norm_num) 1)
      (by simp [Single, get, smallLevels])
    refine ⟨h, r, e1, ?_⟩
    rw [e2, show get [(⟨2, 2, fun b _ _ _ => if b = 0 then 1 else a⟩ : Image ℝ)] 0 =
        ⟨2, 2, fun b _ _ _ => if b = 0 then 1 else a⟩ from rfl,
      small_values (seenBy .batch) (fun x => seenBy_size x) .batch _ centreW _ ⟨le_rfl, le_rfl⟩]
    show (leftOf _ _ _ _ _ _).pix 0 0 0 0 + (pool _).pix 0 0 0 0 = _
    rw [small_left _ _ _ ⟨le_rfl, le_rfl⟩]
    have hc : ∀ b i j, i < 2 → j < 2 → (conv3 .batch 1 centreW ⟨2, 2, fun b _ _ _ => if b = 0 then 1 else a⟩).pix b 0 i j =
        if b = 0 then 1 else a := fun b i j hi hj => conv3_centre _ _ _ _ _ _ hi hj
    obtain ⟨a1, a2⟩ := conv3_size (t := .batch) 1 centreW ⟨2, 2, fun b _ _ _ => if b = 0 then 1 else a⟩
      ⟨by norm_num, by norm_num⟩
    dsimp only at a1 a2
    have hmean : meanOf (conv3 .batch 1 centreW ⟨2, 2, fun b _ _ _ => if b = 0 then 1 else a⟩) 0 2 0 =
        meanOf ⟨2, 2, fun b _ _ _ => if b = 0 then 1 else a⟩ 0 2 0 := by
      unfold meanOf
      rw [a1, a2]
      simp only [Finset.sum_range_succ, Finset.sum_range_zero, hc _ 0 0 (by norm_num) (by norm_num),
        hc _ 0 1 (by norm_num) (by norm_num), hc _ 1 0 (by norm_num) (by norm_num), hc _ 1 1 (by norm_num) (by norm_num)]
    have hvar : varOf (conv3 .batch 1 centreW ⟨2, 2, fun b _ _ _ => if b = 0 then 1 else a⟩) 0 2 0 =
        varOf ⟨2, 2, fun b _ _ _ => if b = 0 then 1 else a⟩ 0 2 0 := by
      unfold varOf
      rw [a1, a2, hmean]
      simp only [Finset.sum_range_succ, Finset.sum_range_zero, hc _ 0 0 (by norm_num) (by norm_num),
        hc _ 0 1 (by norm_num) (by norm_num), hc _ 1 0 (by norm_num) (by norm_num), hc _ 1 1 (by norm_num) (by norm_num)]
    have hp : ∀ di < 2, ∀ dj < 2, (leaky (normOf .batch ⟨true, 2⟩ plainNorm (conv3 .batch 1 centreW
        ⟨2, 2, fun b _ _ _ => if b = 0 then 1 else a⟩))).pix 0 0 di dj =
        (leaky (normOf .batch ⟨true, 2⟩ plainNorm ⟨2, 2, fun b _ _ _ => if b = 0 then 1 else a⟩)).pix 0 0 0 0 := by
      intro di hdi dj hdj
      simp only [leaky, normOf, batchNorm, if_true]
      rw [hc 0 di dj hdi hdj, hmean, hvar]
      simp only [if_true]
    simp only [Finset.sum_range_succ, Finset.sum_range_zero]
    rw [hp 0 (by norm_num) 0 (by norm_num), hp 0 (by norm_num) 1 (by norm_num), hp 1 (by norm_num) 0 (by norm_num),
      hp 1 (by norm_num) 1 (by norm_num)]
    simp only [pool, Finset.sum_range_succ, Finset.sum_range_zero, if_true]
    ring
  obtain ⟨h, r, e1, e2⟩ := key 1
  obtain ⟨h', r', f1, f2⟩ := key 0
  refine ⟨smallLevels, smallLevels_init, smallWeights centreW, _, _, ?_, h, r, h', r', e1, f1, ?_⟩
  · exact ⟨rfl, rfl, fun _ _ _ _ _ _ => rfl⟩
  · rw [e2, f2]
    have h1 : (leaky (normOf .batch ⟨true, 2⟩ plainNorm ⟨2, 2, fun b _ _ _ => if b = 0 then 1 else 1⟩)).pix 0 0 0 0 = 0 := by
      have hm : meanOf ⟨2, 2, fun b _ _ _ => if b = 0 then 1 else 1⟩ 0 2 0 = 1 := by
        simp [meanOf, Finset.sum_range_succ]
        norm_num
      simp only [leaky, normOf, batchNorm, if_true, hm]
      simp [plainNorm]
    have h2 : 0 < (leaky (normOf .batch ⟨true, 2⟩ plainNorm ⟨2, 2, fun b _ _ _ => if b = 0 then 1 else 0⟩)).pix 0 0 0 0 := by
      have hm : meanOf ⟨2, 2, fun b _ _ _ => if b = 0 then 1 else 0⟩ 0 2 0 = 1 / 2 := by
        simp [meanOf, Finset.sum_range_succ]
        norm_num
      have hv : 0 ≤ varOf ⟨2, 2, fun b _ _ _ => if b = 0 then 1 else 0⟩ 0 2 0 := by
        unfold varOf
        positivity
      have hs : 0 < √(varOf ⟨2, 2, fun b _ _ _ => if b = 0 then 1 else 0⟩ 0 2 0 + 1 / 100000) :=
        Real.sqrt_pos.2 (by linarith)
      have hq : 0 < (1 - 1 / 2 : ℝ) / √(varOf ⟨2, 2, fun b _ _ _ => if b = 0 then 1 else 0⟩ 0 2 0 + 1 / 100000) :=
        div_pos (by norm_num) hs
      simp only [leaky, normOf, batchNorm, if_true, hm, plainNorm, one_mul, add_zero]
      rw [if_pos hq]
      exact hq
    linarith

/-- **C135 is violated: reach.** With instance normalisation the logits depend on all pixels of the image, however large it
is: changing the pixel in one corner changes the logits in the other. -/
theorem C135_violated_reach (H W : ℕ) (hH : 4 ≤ H) (hW : 4 ≤ W) :
    ∃ levels, Unet.init 1 [1, 1] = .ok levels ∧ ∃ (w : Weights) (x x' : Image ℝ),
      x.height = H ∧ x.width = W ∧ x'.height = H ∧ x'.width = W ∧
      (∀ b c i j, ¬ (i = H - 1 ∧ j = W - 1) → x.pix b c i j = x'.pix b c i j) ∧
      ∀ m, ∃ h r h' r', forward .instance m levels 1 1 w [x] 0 = .ok (h, r) ∧
        forward .instance m levels 1 1 w [x'] 0 = .ok (h', r') ∧ (get h' r').pix 0 0 0 0 < (get h r).pix 0 0 0 0 := by
  refine ⟨smallLevels, smallLevels_init, smallWeights centreW, ⟨H, W, fun _ _ _ _ => 0⟩,
    ⟨H, W, fun _ _ i j => if i = H - 1 ∧ j = W - 1 then 1 else 0⟩, rfl, rfl, rfl, rfl, ?_, fun m => ?_⟩
  · intro b c i j hij
    simp [hij]
  have hsingle : ¬ Single .instance m (H / 2 ^ smallLevels.length) (W / 2 ^ smallLevels.length) :=
    big_not_single (show 2 ≤ H / 2 ^ 1 by omega) (show 1 ≤ W / 2 ^ 1 by omega)
  have key : ∀ x : Image ℝ, x.height = H → x.width = W → ∃ h r, forward .instance m smallLevels 1 1 (smallWeights centreW)
      [x] 0 = .ok (h, r) ∧ (get h r).pix 0 0 0 0 =
        (∑ di ∈ Finset.range 2, ∑ dj ∈ Finset.range 2,
          (leaky (instanceNorm (conv3 .instance 1 centreW x))).pix 0 0 di dj) / 4 + (pool x).pix 0 0 0 0 := by
    intro x h1 h2
    obtain ⟨h, r, e1, e2, -⟩ := C135_values .instance m smallLevels 1 1 (smallWeights centreW) [x] 0
      (by simp) ⟨by simp [get]; omega, by simp [get]; omega⟩ ⟨1, 2 * (H / 2), 2 * (W / 2)⟩
      (by simpa [get, h1, h2] using smallLevels_ok (H := H) (W := W) (by omega) (by omega) 1)
      (by simpa [get, h1, h2] using hsingle)
    refine ⟨h, r, e1, ?_⟩
    rw [e2, show get [x] 0 = x from rfl,
      small_values (seenBy .instance) (fun x => seenBy_size x) .instance _ centreW _ (by omega)]
    show (leftOf _ _ _ _ _ _).pix 0 0 0 0 + (pool _).pix 0 0 0 0 = _
    rw [small_left _ _ _ (by omega)]
    rfl
  obtain ⟨h, r, e1, e2⟩ := key ⟨H, W, fun _ _ _ _ => 0⟩ rfl rfl
  obtain ⟨h', r', f1, f2⟩ := key ⟨H, W, fun _ _ i j => if i = H - 1 ∧ j = W - 1 then 1 else 0⟩ rfl rfl
  refine ⟨h, r, h', r', e1, f1, ?_⟩
  rw [e2, f2]
  have hz : ∀ di < 2, ∀ dj < 2, (leaky (instanceNorm (conv3 .instance 1 centreW ⟨H, W, fun _ _ _ _ => 0⟩))).pix 0 0 di dj
      = 0 := by
    have hc : ∀ i j, (conv3 .instance 1 centreW ⟨H, W, fun _ _ _ _ => 0⟩).pix 0 0 i j = 0 := by
      intro i j
      simp [conv3, conv2d, centreW, zeroPadded]
    have hm : meanOf (conv3 .instance 1 centreW ⟨H, W, fun _ _ _ _ => 0⟩) 0 1 0 = 0 := by
      simp [meanOf, hc]
    intro di _ dj _
    simp only [leaky, instanceNorm, hc, hm]
    simp
  have hpos : ∀ di < 2, ∀ dj < 2, (leaky (instanceNorm (conv3 .instance 1 centreW
      ⟨H, W, fun _ _ i j => if i = H - 1 ∧ j = W - 1 then 1 else 0⟩))).pix 0 0 di dj < 0 := by
    generalize hy : conv3 .instance 1 centreW ⟨H, W, fun _ _ i j => if i = H - 1 ∧ j = W - 1 then 1 else 0⟩ = y
    have hc : ∀ i < H, ∀ j < W, y.pix 0 0 i j = if i = H - 1 ∧ j = W - 1 then 1 else 0 := by
      intro i hi j hj
      rw [← hy]
      exact conv3_centre _ _ _ _ _ _ hi hj
    obtain ⟨a1, a2⟩ := conv3_size (t := .instance) 1 centreW
      ⟨H, W, fun _ _ i j => if i = H - 1 ∧ j = W - 1 then 1 else 0⟩ ⟨show 0 < H by omega, show 0 < W by omega⟩
    rw [hy] at a1 a2
    dsimp only at a1 a2
    have hm : 0 < meanOf y 0 1 0 := by
      unfold meanOf
      rw [a1, a2]
      have hH0 : (0 : ℝ) < H := by exact_mod_cast (by omega : 0 < H)
      have hW0 : (0 : ℝ) < W := by exact_mod_cast (by omega : 0 < W)
      refine div_pos ?_ (by positivity)
      simp only [Finset.sum_range_one, add_zero]
      refine Finset.sum_pos' (fun i hi => Finset.sum_nonneg fun j hj => ?_) ⟨H - 1, Finset.mem_range.2 (by omega), ?_⟩
      · rw [hc i (Finset.mem_range.1 hi) j (Finset.mem_range.1 hj)]
        split <;> norm_num
      · refine Finset.sum_pos' (fun j hj => ?_) ⟨W - 1, Finset.mem_range.2 (by omega), ?_⟩
        · rw [hc (H - 1) (by omega) j (Finset.mem_range.1 hj)]
          split <;> norm_num
        · rw [hc (H - 1) (by omega) (W - 1) (by omega)]
          simp
    have hv : 0 ≤ varOf y 0 1 0 := by
      unfold varOf
      positivity
    have hs : 0 < √(varOf y 0 1 0 + 1 / 100000) := Real.sqrt_pos.2 (by linarith)
    intro di hdi dj hdj
    have h0 : y.pix 0 0 di dj = 0 := by
      rw [hc di (by omega) dj (by omega), if_neg (by omega)]
    have hq : (0 - meanOf y 0 1 0) / √(varOf y 0 1 0 + 1 / 100000) < 0 := div_neg_of_neg_of_pos (by linarith) hs
    simp only [leaky, instanceNorm, h0]
    rw [if_neg (by linarith)]
    linarith
  have p0 : (pool ⟨H, W, fun _ _ _ _ => (0 : ℝ)⟩).pix 0 0 0 0 = 0 := by simp [pool]
  have p1 : (pool ⟨H, W, fun _ _ i j => if i = H - 1 ∧ j = W - 1 then (1 : ℝ) else 0⟩).pix 0 0 0 0 = 0 := by
    simp only [pool]
    rw [Finset.sum_eq_zero, zero_div]
    intro di hdi
    refine Finset.sum_eq_zero fun dj hdj => ?_
    rw [Finset.mem_range] at hdi hdj
    rw [if_neg (by omega)]
  rw [p0, p1]
  simp only [Finset.sum_range_succ, Finset.sum_range_zero]
  have z00 := hz 0 (by norm_num) 0 (by norm_num)
  have z01 := hz 0 (by norm_num) 1 (by norm_num)
  have z10 := hz 1 (by norm_num) 0 (by norm_num)
  have z11 := hz 1 (by norm_num) 1 (by norm_num)
  have q00 := hpos 0 (by norm_num) 0 (by norm_num)
  have q01 := hpos 0 (by norm_num) 1 (by norm_num)
  have q10 := hpos 1 (by norm_num) 0 (by norm_num)
  have q11 := hpos 1 (by norm_num) 1 (by norm_num)
  rw [z00, z01, z10, z11]
  linarith

theorem run_single (w : ℕ → LevelW) (ls : List Level) (l : Level) (hl : l.clip = false) (k : ℕ) (h : Heap) (r : ℕ)
    (hr : r < h.length) (h1 : 2 ^ (ls.length + 1) ≤ (get h r).height) (h2 : 2 ^ (ls.length + 1) ≤ (get h r).width)
    (hs : Single t m ((get h r).height / 2 ^ (ls.length + 1)) ((get h r).width / 2 ^ (ls.length + 1))) :
    run t m w k (ls ++ [l]) h r = .error .value := by
  induction ls generalizing k h r with
  | nil =>
    obtain ⟨h', r', e1, -, e3, -, e5, -⟩ := does_down (t := t) (m := m) (decide (k = 0)) l (w k) h r hr
      ⟨by simpa using h1, by simpa using h2⟩
    have z := leftOf_size (t := t) (m := m) (decide (k = 0)) l (w k) (get h r)
      ⟨by have := h1; simp at this; omega, by have := h2; simp at this; omega⟩
    have s1 : (get h' r').height = (get h r).height / 2 := by rw [e5]; exact z.1
    have s2 : (get h' r').width = (get h r).width / 2 := by rw [e5]; exact z.2
    have hs' : Single t m (get h' r').height (get h' r').width := by
      rw [s1, s2]
      simpa using hs
    simp only [List.nil_append, run, e1, bind, Except.bind, up, rightBlock, hl, Bool.false_eq_true, if_false]
    have : norm t m (w k).norm3 h' r' = .error .value := by
      cases t
      · exact if_pos hs'
      · exact hs'.elim
      · exact if_pos hs'
      · exact hs'.elim
    rw [this]
  | cons l' ls ih =>
    simp only [List.length_cons] at h1 h2 hs
    obtain ⟨a1, b1, c1⟩ := Unet.size_step _ _ h1
    obtain ⟨a2, b2, c2⟩ := Unet.size_step _ _ h2
    obtain ⟨h', r', e1, -, e3, -, e5, -⟩ := does_down (t := t) (m := m) (decide (k = 0)) l' (w k) h r hr ⟨a1, a2⟩
    have z := leftOf_size (t := t) (m := m) (decide (k = 0)) l' (w k) (get h r) (by omega)
    have s1 : (get h' r').height = (get h r).height / 2 := by rw [e5]; exact z.1
    have s2 : (get h' r').width = (get h r).width / 2 := by rw [e5]; exact z.2
    have := ih (k + 1) h' r' e3 (by omega) (by omega) (by rw [s1, s2, c1, c2]; exact hs)
    simp only [List.cons_append, run, e1, bind, Except.bind, this]

/-- **C135 is violated: small images.** Where the shape can be processed (C57), the discriminator with instance
normalisation raises `ValueError`, whatever the weights, if the deepest features have one position and the innermost level is
not clipped; so it does with batch normalisation in training for a batch of one image.  For the default channels these are
images with sides from 64 to 127 pixels. -/
theorem C135_violated_small (t : NormType) (m : Mode) (levels : List Level) (l : Level) (hl : levels.getLast? = some l)
    (hc : l.clip = false) (out chans : ℕ) (w : Weights) (h : Heap) (image : ℕ) (hi : image < h.length)
    (h1 : 1 ≤ (get h image).height ∧ 1 ≤ (get h image).width) (s : Shape)
    (hs : Unet.forward levels out ⟨chans, (get h image).height, (get h image).width⟩ = .ok s)
    (hn : (get h image).height / 2 ^ levels.length = 1 ∧ (get h image).width / 2 ^ levels.length = 1)
    (ht : t = .instance ∨ t = .batch ∧ m.training = true ∧ m.images = 1) :
    forward t m levels out chans w h image = .error .value := by
  obtain ⟨z, hz, -, -⟩ := forward_ok hs
  obtain ⟨a1, a2, -, -⟩ := run_ok hz h1
  have hsingle : Single t m ((get h image).height / 2 ^ levels.length) ((get h image).width / 2 ^ levels.length) := by
    rw [hn.1, hn.2]
    rcases ht with rfl | ⟨rfl, h2, h3⟩
    · rfl
    · exact ⟨h2, by rw [h3]⟩
  obtain ⟨ls, rfl⟩ := List.getLast?_eq_some_iff.1 hl
  rw [List.length_append, List.length_singleton] at *
  have := run_single (t := t) (m := m) w.level ls l hc 0 h image hi a1 a2 hsingle
  unfold forward
  rw [hs]
  simp only [bind, Except.bind, this]

end Violated

/-! ### Layers -/

/-- The positions of a channel of `n` images. -/
def places (n : ℕ) (x : Image ℝ) : Finset (ℕ × ℕ × ℕ) :=
  Finset.range n ×ˢ Finset.range x.height ×ˢ Finset.range x.width

theorem sum_places (n : ℕ) (x : Image ℝ) (f : ℕ → ℕ → ℕ → ℝ) :
    ∑ p ∈ places n x, f p.1 p.2.1 p.2.2 =
      ∑ k ∈ Finset.range n, ∑ i ∈ Finset.range x.height, ∑ j ∈ Finset.range x.width, f k i j := by
  unfold places
  rw [Finset.sum_product]
  refine Finset.sum_congr rfl fun k _ => ?_
  rw [Finset.sum_product]

theorem card_places (n : ℕ) (x : Image ℝ) : ((places n x).card : ℝ) = n * x.height * x.width := by
  unfold places
  rw [Finset.card_product, Finset.card_product, Finset.card_range, Finset.card_range, Finset.card_range]
  push_cast
  ring

theorem standardised (x : Image ℝ) (b n c : ℕ) (hn : 0 < n) (hx : Pos x) :
    (∑ p ∈ places n x, (x.pix (b + p.1) c p.2.1 p.2.2 - meanOf x b n c) = 0) ∧
      (√(varOf x b n c + 1 / 100000))⁻¹ ^ 2 *
        ((∑ p ∈ places n x, (x.pix (b + p.1) c p.2.1 p.2.2 - meanOf x b n c) ^ 2) / (places n x).card + 1 / 100000) = 1 ∧
      0 < (√(varOf x b n c + 1 / 100000))⁻¹ := by
  obtain ⟨h1, h2⟩ := hx
  have hv : 0 ≤ varOf x b n c := by
    unfold varOf
    positivity
  have hs : 0 < √(varOf x b n c + 1 / 100000) := Real.sqrt_pos.2 (by linarith)
  have hcard : (0 : ℝ) < (places n x).card := by
    rw [card_places]
    have a1 : (0 : ℝ) < n := by exact_mod_cast hn
    have a2 : (0 : ℝ) < x.height := by exact_mod_cast h1
    have a3 : (0 : ℝ) < x.width := by exact_mod_cast h2
    positivity
  refine ⟨?_, ?_, inv_pos.2 hs⟩
  · rw [Finset.sum_sub_distrib, Finset.sum_const, nsmul_eq_mul]
    have hm : meanOf x b n c = (∑ p ∈ places n x, x.pix (b + p.1) c p.2.1 p.2.2) / (places n x).card := by
      rw [sum_places n x (fun k i j => x.pix (b + k) c i j), card_places]
      rfl
    rw [hm]
    field_simp
    ring
  · have he : (∑ p ∈ places n x, (x.pix (b + p.1) c p.2.1 p.2.2 - meanOf x b n c) ^ 2) / (places n x).card =
        varOf x b n c := by
      rw [sum_places n x (fun k i j => (x.pix (b + k) c i j - meanOf x b n c) ^ 2), card_places]
      rfl
    rw [he, inv_pow, Real.sq_sqrt (by linarith)]
    exact inv_mul_cancel₀ (by linarith)

/-- **C135, layers.** The activation is the larger of a value and a fifth of it; pooling takes the mean of four pixels;
upsampling repeats each pixel four times. -/
theorem C135_layers (x : Image ℝ) (b c i j : ℕ) :
    (leaky x).pix b c i j = max (x.pix b c i j) (x.pix b c i j / 5) ∧
      (pool x).pix b c i j = (x.pix b c (2 * i) (2 * j) + x.pix b c (2 * i) (2 * j + 1) +
        x.pix b c (2 * i + 1) (2 * j) + x.pix b c (2 * i + 1) (2 * j + 1)) / 4 ∧
      ∀ di < 2, ∀ dj < 2, (upsample x).pix b c (2 * i + di) (2 * j + dj) = x.pix b c i j := by
  refine ⟨?_, ?_, fun di hdi dj hdj => ?_⟩
  · simp only [leaky]
    split
    · rw [max_eq_left (by linarith)]
    · rw [max_eq_right (by linarith)]
      ring
  · simp only [pool, Finset.sum_range_succ, Finset.sum_range_zero]
    simp only [add_zero]
    ring
  · simp only [upsample]
    rw [show (2 * i + di) / 2 = i by omega, show (2 * j + dj) / 2 = j by omega]

/-- **C135, normalisation.** Instance normalisation subtracts, in each image and channel, a number that makes the sum zero,
and multiplies by a positive number that makes the mean square plus a correction for `1e-5` one. -/
theorem C135_instance (m : Mode) (w : BatchW) (x : Image ℝ) (hx : 1 ≤ x.height ∧ 1 ≤ x.width) (b c : ℕ) :
    ∃ mean scale : ℝ, 0 < scale ∧ (∑ p ∈ places 1 x, (x.pix b c p.2.1 p.2.2 - mean) = 0) ∧
      scale ^ 2 * ((∑ p ∈ places 1 x, (x.pix b c p.2.1 p.2.2 - mean) ^ 2) / (places 1 x).card + 1 / 100000) = 1 ∧
      ∀ i j, (normOf .instance m w x).pix b c i j = scale * (x.pix b c i j - mean) := by
  obtain ⟨h1, h2, h3⟩ := standardised x b 1 c (by norm_num) hx
  have hb : ∀ p ∈ places 1 x, b + p.1 = b := by
    intro p hp
    have := (Finset.mem_product.1 hp).1
    simp at this
    omega
  refine ⟨meanOf x b 1 c, _, h3, ?_, ?_, fun i j => ?_⟩
  · rw [← h1]
    exact Finset.sum_congr rfl fun p hp => by rw [hb p hp]
  · rw [Finset.sum_congr rfl fun p hp => by rw [hb p hp]] at h2
    exact h2
  · simp only [normOf, instanceNorm]
    rw [div_eq_inv_mul]

/-- **C135, normalisation.** Batch normalisation in training does the same in each channel with one mean and one scale for
all images of the batch, in evaluation with the running statistics; then it multiplies by `gamma` and adds `beta`. -/
theorem C135_batchnorm (images : ℕ) (hi : 0 < images) (w : BatchW) (x : Image ℝ) (hx : 1 ≤ x.height ∧ 1 ≤ x.width)
    (c : ℕ) :
    (∃ mean scale : ℝ, 0 < scale ∧ (∑ p ∈ places images x, (x.pix p.1 c p.2.1 p.2.2 - mean) = 0) ∧
      scale ^ 2 * ((∑ p ∈ places images x, (x.pix p.1 c p.2.1 p.2.2 - mean) ^ 2) / (places images x).card + 1 / 100000) = 1 ∧
      ∀ b i j, (normOf .batch ⟨true, images⟩ w x).pix b c i j = w.gamma c * (scale * (x.pix b c i j - mean)) + w.beta c) ∧
    ∀ b i j, (normOf .batch ⟨false, images⟩ w x).pix b c i j =
      w.gamma c * ((x.pix b c i j - w.mean c) / √(w.var c + 1 / 100000)) + w.beta c := by
  obtain ⟨h1, h2, h3⟩ := standardised x 0 images c hi hx
  simp only [Nat.zero_add] at h1 h2
  refine ⟨⟨_, _, h3, h1, h2, fun b i j => ?_⟩, fun b i j => rfl⟩
  simp only [normOf, batchNorm, if_true]
  rw [div_eq_inv_mul]

/-- **C135, the context.** The first channels are the image. Below them are, for an image whose sides are `fy` and `fx` times
those of the context, the channels of the convolved context: at each pixel the activated sum over a window of three times
three pixels of the context around the place, mirrored at the edges without repeating them. -/
theorem C135_context (chans contextIn : ℕ) (w : Weights) (x c : Image ℝ) (fy fx : ℕ) (hfy : 0 < fy) (hfx : 0 < fx)
    (hc : 2 ≤ c.height ∧ 2 ≤ c.width) (h1 : x.height = fy * c.height) (h2 : x.width = fx * c.width) (b o i j : ℕ)
    (hi : i < c.height) (hj : j < c.width) (di dj : ℕ) (hdi : di < fy) (hdj : dj < fx) :
    (o < chans → (withContext chans contextIn w x c).pix b o (fy * i + di) (fx * j + dj) =
      x.pix b o (fy * i + di) (fx * j + dj)) ∧
    ∃ above below left right : ℕ,
      (above + 1 = i ∨ i = 0 ∧ above = 1) ∧ (below = i + 1 ∧ i + 1 < c.height ∨ i + 1 = c.height ∧ below + 1 = i) ∧
      (left + 1 = j ∨ j = 0 ∧ left = 1) ∧ (right = j + 1 ∧ j + 1 < c.width ∨ j + 1 = c.width ∧ right + 1 = j) ∧
      ∃ s : ℝ, s = w.context.bias o + ∑ a ∈ Finset.range contextIn,
        (w.context.weight o a 0 0 * c.pix b a above left + w.context.weight o a 0 1 * c.pix b a above j +
          w.context.weight o a 0 2 * c.pix b a above right +
          w.context.weight o a 1 0 * c.pix b a i left + w.context.weight o a 1 1 * c.pix b a i j +
          w.context.weight o a 1 2 * c.pix b a i right +
          w.context.weight o a 2 0 * c.pix b a below left + w.context.weight o a 2 1 * c.pix b a below j +
          w.context.weight o a 2 2 * c.pix b a below right) ∧
        (withContext chans contextIn w x c).pix b (chans + o) (fy * i + di) (fx * j + dj) = max s (s / 5) := by
  have hrow : ∀ f n k d : ℕ, d < f → k < n → (f * k + d) * n / (f * n) = k := by
    intro f n k d hd hk
    rw [Nat.mul_div_mul_right _ _ (by omega), Nat.mul_add_div (by omega), Nat.div_eq_of_lt hd, Nat.add_zero]
  have lo : ∀ n k : ℕ, 2 ≤ n → k < n → (reflect n ((k : ℤ) + 0 - 1) + 1 = k ∨ k = 0 ∧ reflect n ((k : ℤ) + 0 - 1) = 1) := by
    intro n k hn hk
    unfold reflect
    split_ifs <;> omega
  have mid : ∀ n k : ℕ, k < n → reflect n ((k : ℤ) + 1 - 1) = k := by
    intro n k hk
    unfold reflect
    split_ifs <;> omega
  have hi2 : ∀ n k : ℕ, 2 ≤ n → k < n → (reflect n ((k : ℤ) + 2 - 1) = k + 1 ∧ k + 1 < n ∨
      k + 1 = n ∧ reflect n ((k : ℤ) + 2 - 1) + 1 = k) := by
    intro n k hn hk
    unfold reflect
    split_ifs <;> omega
  refine ⟨fun ho => ?_, _, _, _, _, lo _ i hc.1 hi, hi2 _ i hc.1 hi, lo _ j hc.2 hj, hi2 _ j hc.2 hj, _, rfl, ?_⟩
  · simp only [withContext, cat]
    rw [if_pos ho]
  · simp only [withContext, cat]
    rw [if_neg (by omega), Nat.add_sub_cancel_left]
    show (leaky (reflectConv contextIn w.context c)).pix b o ((fy * i + di) * c.height / x.height)
      ((fx * j + dj) * c.width / x.width) = _
    rw [h1, h2, hrow _ _ _ _ hdi hi, hrow _ _ _ _ hdj hj, (C135_layers _ _ _ _ _).1]
    have e : (reflectConv contextIn w.context c).pix b o i j = w.context.bias o + ∑ a ∈ Finset.range contextIn,
        (w.context.weight o a 0 0 * c.pix b a (reflect c.height (i + 0 - 1)) (reflect c.width (j + 0 - 1)) +
          w.context.weight o a 0 1 * c.pix b a (reflect c.height (i + 0 - 1)) j +
          w.context.weight o a 0 2 * c.pix b a (reflect c.height (i + 0 - 1)) (reflect c.width (j + 2 - 1)) +
          w.context.weight o a 1 0 * c.pix b a i (reflect c.width (j + 0 - 1)) + w.context.weight o a 1 1 * c.pix b a i j +
          w.context.weight o a 1 2 * c.pix b a i (reflect c.width (j + 2 - 1)) +
          w.context.weight o a 2 0 * c.pix b a (reflect c.height (i + 2 - 1)) (reflect c.width (j + 0 - 1)) +
          w.context.weight o a 2 1 * c.pix b a (reflect c.height (i + 2 - 1)) j +
          w.context.weight o a 2 2 * c.pix b a (reflect c.height (i + 2 - 1)) (reflect c.width (j + 2 - 1))) := by
      simp only [reflectConv]
      congr 1
      refine Finset.sum_congr rfl fun a _ => ?_
      simp only [Finset.sum_range_succ, Finset.sum_range_zero, Nat.cast_zero, Nat.cast_one, Nat.cast_ofNat, mid _ i hi,
        mid _ j hj]
      ring
    rw [e]

/-- **C135, the context.** A context with a side of one pixel cannot be mirrored: the discriminator raises. -/
theorem C135_context_small (t : NormType) (m : Mode) (levels : List Level) (out chans contextIn contextOut : ℕ)
    (w : Weights) (h : Heap) (image context : ℕ) (hc : (get h context).height = 1 ∨ (get h context).width = 1) :
    forwardConditional t m levels out chans contextIn contextOut w h image context = .error .runtime := by
  unfold forwardConditional
  dsimp only
  rw [if_pos (by omega)]

/-! ### The hypotheses are met -/

example : 2 ≤ (16 : ℕ) ∧ 256 = 16 * 16 ∧ 5 < 16 ∧ 15 < 16 := by omega

/-- The names of normalisation types. -/
theorem C135_names (name : String) :
    (∃ t, parseNorm name = .ok t) ↔ name = "batch" ∨ name = "spectral" ∨ name = "instance" ∨ name = "identity" := by
  unfold parseNorm
  split_ifs <;> simp_all

/-- The default discriminator, images of `256 * 256` pixels: three channels in, 257 out; seven minus one levels, none
clipped, or the four outer ones clipped with output reduced by 16. -/
example : ∃ levels, Unet.init 1 Unet.defaultChans = .ok levels ∧
    Unet.forward levels 257 ⟨3, 256, 256⟩ = .ok ⟨257, 256, 256⟩ ∧
    levels.map Unet.Level.clip = List.replicate 0 true ++ List.replicate 6 false ∧
    (6 * 2 ^ (0 + 6) - 3 * 2 ^ 0 - 3 : ℤ) = 378 ∧ ∀ t m, 0 < m.images →
      ¬ Single t m (256 / 2 ^ levels.length) (256 / 2 ^ levels.length) := by
  refine ⟨_, rfl, by decide +kernel, by decide +kernel, by norm_num, fun t m _ => ?_⟩
  exact big_not_single (by decide +kernel) (by decide +kernel)

example : ∃ levels, Unet.init 16 Unet.defaultChans = .ok levels ∧
    Unet.forward levels 257 ⟨3, 256, 256⟩ = .ok ⟨257, 16, 16⟩ ∧
    levels.map Unet.Level.clip = List.replicate 4 true ++ List.replicate 2 false ∧
    (6 * 2 ^ (4 + 2) - 3 * 2 ^ 4 - 3 : ℤ) = 333 :=
  ⟨_, rfl, by decide +kernel, by decide +kernel, by norm_num⟩

/-- The default discriminator, images of `64 * 64` pixels: what `C135_violated_small` asks for. -/
example : ∃ levels l, Unet.init 1 Unet.defaultChans = .ok levels ∧ levels.getLast? = some l ∧ l.clip = false ∧
    Unet.forward levels 257 ⟨3, 64, 64⟩ = .ok ⟨257, 64, 64⟩ ∧ 64 / 2 ^ levels.length = 1 ∧ 127 / 2 ^ levels.length = 1 :=
  ⟨_, _, rfl, rfl, rfl, by decide +kernel, by decide +kernel, by decide +kernel⟩

/-- Images in a heap, as the theorems ask for: a batch of two equal images, which look the same around any pixel. -/
example (a : ℝ) : ∃ h : Heap, 0 < h.length ∧ (get h 0).height = 256 ∧ (get h 0).width = 256 ∧
    SameImage 3 (get h 0) 0 (get h 0) 1 ∧ SameAround 3 378 (get h 0) 0 (2 ^ 0 * 5) (2 ^ 0 * 7) (get h 0) 1 (2 ^ 0 * 5)
      (2 ^ 0 * 7) := by
  refine ⟨[⟨256, 256, fun _ _ _ _ => a⟩], by simp, rfl, rfl, ⟨rfl, rfl, fun _ _ _ _ _ _ => rfl⟩, ?_⟩
  intro e f _ _
  exact ⟨Iff.rfl, fun _ _ _ => rfl⟩


/-- Different images with the same deepest features, as `C135_violated_skips` asks for: a grey image and a chequered one. -/
example (t : NormType) (m : Mode) :
    deepest (seenBy t) t m (smallWeights zeroW).level 0 smallLevels ⟨2, 2, fun _ _ _ _ => 1 / 2⟩ =
      deepest (seenBy t) t m (smallWeights zeroW).level 0 smallLevels
        ⟨2, 2, fun _ _ i j => if (i + j) % 2 = 0 then 1 else 0⟩ := by
  have hl : ∀ x : Image ℝ, ∀ b c i j,
      (leftOf t m true ⟨1, 1, 64, false⟩ ((smallWeights zeroW).level 0) x).pix b c i j = 0 := by
    intro x b c i j
    unfold leftOf
    simp only [pool]
    rw [show ((smallWeights zeroW).level 0).conv2 = zeroW from rfl]
    simp only [zeroConv, Finset.sum_const_zero, zero_div]
  simp only [smallLevels, deepest, add, shortOf, decide_true, if_true, ne_eq, not_true_eq_false, if_false, hl]
  rw [(leftOf_size (t := t) (m := m) true ⟨1, 1, 64, false⟩ _ ⟨2, 2, fun _ _ _ _ => 1 / 2⟩ ⟨by simp, by simp⟩).1,
    (leftOf_size (t := t) (m := m) true ⟨1, 1, 64, false⟩ _ ⟨2, 2, fun _ _ _ _ => 1 / 2⟩ ⟨by simp, by simp⟩).2,
    (leftOf_size (t := t) (m := m) true ⟨1, 1, 64, false⟩ _
      ⟨2, 2, fun _ _ i j => if (i + j) % 2 = 0 then 1 else 0⟩ ⟨by simp, by simp⟩).1,
    (leftOf_size (t := t) (m := m) true ⟨1, 1, 64, false⟩ _
      ⟨2, 2, fun _ _ i j => if (i + j) % 2 = 0 then 1 else 0⟩ ⟨by simp, by simp⟩).2]
  have hp : ∀ b c i j, (pool ⟨2, 2, fun _ _ _ _ => (1 / 2 : ℝ)⟩).pix b c i j =
      (pool ⟨2, 2, fun _ _ i j => if (i + j) % 2 = 0 then (1 : ℝ) else 0⟩).pix b c i j := by
    intro b c i j
    simp only [pool, Finset.sum_range_succ, Finset.sum_range_zero]
    rw [if_pos (by omega), if_neg (by omega), if_neg (by omega), if_pos (by omega)]
    norm_num
  simp only [hp]

end Verif.Models.UnetNet
