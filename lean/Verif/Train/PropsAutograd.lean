import Verif.Train.Autograd

/-!
Lemmas for the gradient claims (C125-C127): a tensor of the model follows a function of the leaves.
-/

namespace Verif.Train.Autograd

variable {V E F : Type} [NormedAddCommGroup V] [NormedSpace ℝ V] [NormedAddCommGroup E] [NormedSpace ℝ E]
  [NormedAddCommGroup F] [NormedSpace ℝ F]

/-- The backward pass of the operation is its derivative. -/
def Op.Smooth (f : Op E F) : Prop := ∀ x, HasFDerivAt f.fn (f.jac x) x

/-- At `v`, the tensor has the value and the derivative of the function `f` of the leaves. -/
def Node.Tracks (a : Node V E) (f : V → E) (v : V) : Prop := a.val = f v ∧ HasFDerivAt f a.der v

namespace Node.Tracks

variable {v : V}

theorem const (x : E) : (Node.const x : Node V E).Tracks (fun _ => x) v := ⟨rfl, hasFDerivAt_const x v⟩

theorem leaf (part : V →L[ℝ] E) (r : Bool) :
    (Node.leaf part v r).Tracks (fun w => if r then part w else part v) v := by
  refine ⟨by simp [Node.leaf], ?_⟩
  cases r
  · simpa [Node.leaf] using hasFDerivAt_const (part v) v
  · simpa [Node.leaf] using part.hasFDerivAt

theorem detach {a : Node V E} {f : V → E} (h : a.Tracks f v) : a.detach.Tracks (fun _ => f v) v :=
  ⟨h.1, hasFDerivAt_const (f v) v⟩

theorem add {a b : Node V E} {f g : V → E} (ha : a.Tracks f v) (hb : b.Tracks g v) :
    (a.add b).Tracks (fun w => f w + g w) v := ⟨by simp [Node.add, ha.1, hb.1], ha.2.add hb.2⟩

theorem sub {a b : Node V E} {f g : V → E} (ha : a.Tracks f v) (hb : b.Tracks g v) :
    (a.sub b).Tracks (fun w => f w - g w) v := ⟨by simp [Node.sub, ha.1, hb.1], ha.2.sub hb.2⟩

theorem scale (c : ℝ) {a : Node V E} {f : V → E} (ha : a.Tracks f v) : (a.scale c).Tracks (fun w => c • f w) v :=
  ⟨by simp [Node.scale, ha.1], ha.2.const_smul c⟩

theorem pair {a : Node V E} {b : Node V F} {f : V → E} {g : V → F} (ha : a.Tracks f v) (hb : b.Tracks g v) :
    (a.pair b).Tracks (fun w => (f w, g w)) v := ⟨by simp [Node.pair, ha.1, hb.1], ha.2.prodMk hb.2⟩

theorem pi {n : ℕ} {a : Fin n → Node V E} {f : Fin n → V → E} (h : ∀ i, (a i).Tracks (f i) v) :
    (Node.pi a).Tracks (fun w i => f i w) v :=
  ⟨by funext i; exact (h i).1, hasFDerivAt_pi.2 fun i => (h i).2⟩

theorem apply {o : Op E F} (ho : o.Smooth) {a : Node V E} {f : V → E} (ha : a.Tracks f v) :
    (a.apply o).Tracks (fun w => o.fn (f w)) v := by
  refine ⟨by simp [Node.apply, ha.1], ?_⟩
  have := (ho (f v)).comp v ha.2
  simp only [Node.apply, ha.1]
  exact this

theorem congr {a : Node V E} {f g : V → E} (h : a.Tracks f v) (e : ∀ w, f w = g w) : a.Tracks g v := by
  have : f = g := funext e
  rwa [← this]

/-- Straight-through rounding: a fixed amount is added. -/
theorem roundSt {ι : Type} [Fintype ι] {x : Node V (ι → ℝ)} {f : V → ι → ℝ} (h : x.Tracks f v) :
    (Autograd.roundSt x).Tracks (fun w i => f w i + ((roundHalfEven (f v i) : ℝ) - f v i)) v := by
  have h1 : (x.round.sub x).detach.Tracks (fun _ i => (roundHalfEven (f v i) : ℝ) - f v i) v := by
    refine ⟨?_, hasFDerivAt_const _ v⟩
    funext i
    simp [Node.round, Node.sub, Node.detach, h.1]
  exact (h1.add h).congr fun w => by funext i; simp [add_comm]

end Node.Tracks

theorem roundSt_val {ι : Type} [Fintype ι] (x : Node V (ι → ℝ)) (i : ι) :
    (roundSt x).val i = (roundHalfEven (x.val i) : ℝ) := by
  simp [roundSt, Node.round, Node.sub, Node.detach, Node.add]

theorem roundSt_der {ι : Type} [Fintype ι] (x : Node V (ι → ℝ)) : (roundSt x).der = x.der := by
  simp [roundSt, Node.sub, Node.detach, Node.add]

/-- A change of the leaves in direction `δ` does not reach the tensor. -/
def Node.Still (a : Node V E) (δ : V) : Prop := a.der δ = 0

namespace Node.Still

variable {δ : V}

theorem const (x : E) : (Node.const x : Node V E).Still δ := by simp [Node.Still, Node.const]

theorem leaf {part : V →L[ℝ] E} {v : V} {r : Bool} (h : r = true → part δ = 0) : (Node.leaf part v r).Still δ := by
  cases r
  · simp [Node.Still, Node.leaf]
  · simpa [Node.Still, Node.leaf] using h

theorem detach (a : Node V E) : a.detach.Still δ := by simp [Node.Still, Node.detach]

theorem add {a b : Node V E} (ha : a.Still δ) (hb : b.Still δ) : (a.add b).Still δ := by
  simp only [Node.Still] at *
  simp [Node.add, ha, hb]

theorem sub {a b : Node V E} (ha : a.Still δ) (hb : b.Still δ) : (a.sub b).Still δ := by
  simp only [Node.Still] at *
  simp [Node.sub, ha, hb]

theorem scale (c : ℝ) {a : Node V E} (ha : a.Still δ) : (a.scale c).Still δ := by
  simp only [Node.Still] at *
  simp [Node.scale, ha]

theorem pair {a : Node V E} {b : Node V F} (ha : a.Still δ) (hb : b.Still δ) : (a.pair b).Still δ := by
  simp only [Node.Still] at *
  simp [Node.pair, ha, hb]

theorem pi {n : ℕ} {a : Fin n → Node V E} (h : ∀ i, (a i).Still δ) : (Node.pi a).Still δ := by
  simp only [Node.Still] at *
  funext i
  simp [Node.pi, h i]

theorem apply (o : Op E F) {a : Node V E} (ha : a.Still δ) : (a.apply o).Still δ := by
  simp only [Node.Still] at *
  simp [Node.apply, ha]

theorem roundSt {ι : Type} [Fintype ι] {x : Node V (ι → ℝ)} (h : x.Still δ) : (Autograd.roundSt x).Still δ :=
  (detach _).add h

end Node.Still

end Verif.Train.Autograd
