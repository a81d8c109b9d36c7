import Verif.Functional.Gradients
import Verif.Functional.PropsSinglePrecision
import Verif.Layers.PropsUniformNoise
import Mathlib.Analysis.SpecialFunctions.ExpDeriv
import Mathlib.Data.ZMod.Basic

/-!
C144: the gradients of the logarithms of the normal distribution.

A gradient is right when it is the derivative of the value that is returned; `HasDerivAt` is Mathlib's definition of the derivative.
`Phi` is the standard normal distribution function and `phi` its density.
-/

namespace Verif.Functional.Gradients

open Real Verif.Layers Filter Topology

/-! ### Backward passes that are linear, that stay quiet, and that pass not-a-number on -/

/-- The value is a number and the backward pass multiplies by a number. -/
def Lin (a : Node) : Prop := ∃ v d : ℝ, a.val = .val v ∧ ∀ g : ℝ, a.back (.val g) = .val (d * g)

/-- The tensor is the value of `f` at `t`, and its backward pass multiplies by the derivative. -/
def Tracks (a : Node) (f : ℝ → ℝ) (t : ℝ) : Prop :=
  ∃ d : ℝ, a.val = .val (f t) ∧ (∀ g : ℝ, a.back (.val g) = .val (d * g)) ∧ HasDerivAt f d t

/-- The gradient zero adds zero. -/
def Quiet (a : Node) : Prop := a.back (.val 0) = .val 0

/-- Not-a-number is passed on. -/
def Strict (a : Node) : Prop := a.back .nan = .nan

theorem Tracks.lin {a : Node} {f t} (h : Tracks a f t) : Lin a := by
  obtain ⟨d, h1, h2, -⟩ := h
  exact ⟨_, d, h1, h2⟩

theorem Tracks.value {a : Node} {f t} (h : Tracks a f t) : a.val = .val (f t) := by
  obtain ⟨d, h1, -, -⟩ := h
  exact h1

theorem Tracks.congr {a : Node} {f g t} (h : Tracks a f t) (e : g =ᶠ[𝓝 t] f) : Tracks a g t := by
  obtain ⟨d, h1, h2, h3⟩ := h
  exact ⟨d, by rw [h1, e.eq_of_nhds], h2, h3.congr_of_eventuallyEq e⟩

theorem Tracks.cont {a : Node} {f t} (h : Tracks a f t) : ContinuousAt f t := by
  obtain ⟨d, -, -, h3⟩ := h
  exact h3.continuousAt

theorem Lin.quiet {a : Node} (h : Lin a) : Quiet a := by
  obtain ⟨v, d, -, h2⟩ := h
  rw [Quiet, h2, mul_zero]

theorem Tracks.quiet {a : Node} {f t} (h : Tracks a f t) : Quiet a := h.lin.quiet

/-- What a user sees: the gradient is the derivative. -/
theorem Tracks.grad {a : Node} {f t} (h : Tracks a f t) : ∃ g, a.grad = .val g ∧ HasDerivAt f g t := by
  obtain ⟨d, -, h2, h3⟩ := h
  exact ⟨d, by rw [Node.grad, h2, mul_one], h3⟩

theorem add_nan (a : F) : a.add .nan = .nan := by cases a <;> rfl

theorem nan_add (a : F) : F.nan.add a = .nan := by cases a <;> rfl

theorem mul_nan (a : F) : mul a .nan = .nan := by cases a <;> rfl

theorem nan_mul (a : F) : mul .nan a = .nan := by cases a <;> rfl

theorem nan_div (a : F) : div .nan a = .nan := by cases a <;> rfl

theorem infOf_zero : infOf 0 = .nan := by simp [infOf]

theorem div_val {x y : ℝ} (h : y ≠ 0) : div (.val x) (.val y) = .val (x / y) := if_neg h

theorem logF_val {x : ℝ} (h : 0 < x) : logF (.val x) = .val (Real.log x) := if_pos h

theorem tracks_leaf (t : ℝ) : Tracks (Node.leaf t) (fun t => t) t :=
  ⟨1, rfl, fun g => by rw [one_mul]; rfl, hasDerivAt_id t⟩

theorem tracks_const (c t : ℝ) : Tracks (Node.const c) (fun _ => c) t :=
  ⟨0, rfl, fun g => by rw [zero_mul]; rfl, hasDerivAt_const t c⟩

theorem Tracks.add {a b : Node} {f k t} (ha : Tracks a f t) (hb : Tracks b k t) :
    Tracks (a.add b) (fun t => f t + k t) t := by
  obtain ⟨d, h1, h2, h3⟩ := ha
  obtain ⟨e, k1, k2, k3⟩ := hb
  refine ⟨d + e, by rw [Node.add, h1, k1]; rfl, fun g => ?_, h3.add k3⟩
  show (a.back _).add (b.back _) = _
  rw [h2, k2, add_mul]; rfl

theorem Tracks.scale {a : Node} {f t} (c : ℝ) (ha : Tracks a f t) : Tracks (a.scale c) (fun t => c * f t) t := by
  obtain ⟨d, h1, h2, h3⟩ := ha
  refine ⟨c * d, by rw [Node.scale, h1]; rfl, fun g => ?_, h3.const_mul c⟩
  show a.back (.val (g * c)) = _
  rw [h2]; congr 1; ring

theorem Tracks.shift {a : Node} {f t} (c : ℝ) (ha : Tracks a f t) : Tracks (a.shift c) (fun t => f t + c) t := by
  obtain ⟨d, h1, h2, h3⟩ := ha
  exact ⟨d, by rw [Node.shift, h1]; rfl, h2, h3.add_const c⟩

theorem Tracks.times {a b : Node} {f k t} (ha : Tracks a f t) (hb : Tracks b k t) :
    Tracks (a.times b) (fun t => f t * k t) t := by
  obtain ⟨d, h1, h2, h3⟩ := ha
  obtain ⟨e, k1, k2, k3⟩ := hb
  refine ⟨d * k t + f t * e, by rw [Node.times, h1, k1]; rfl, fun g => ?_, h3.mul k3⟩
  show (a.back (mul (.val g) b.val)).add (b.back (mul (.val g) a.val)) = _
  rw [h1, k1]
  show (a.back (.val (g * k t))).add (b.back (.val (g * f t))) = _
  rw [h2, k2]
  show F.val _ = _
  congr 1; ring

theorem Tracks.over {a b : Node} {f k t} (ha : Tracks a f t) (hb : Tracks b k t) (h0 : k t ≠ 0) :
    Tracks (a.over b) (fun t => f t / k t) t := by
  obtain ⟨d, h1, h2, h3⟩ := ha
  obtain ⟨e, k1, k2, k3⟩ := hb
  refine ⟨(d * k t - f t * e) / k t ^ 2, by rw [Node.over, h1, k1, div_val h0], fun g => ?_, h3.div k3 h0⟩
  show (a.back (div (.val g) b.val)).add (b.back (mul (mul (.val (-1)) (.val g)) (div (div a.val b.val) b.val))) = _
  rw [h1, k1, div_val h0, div_val h0, div_val h0]
  show (a.back (.val (g / k t))).add (b.back (.val (-1 * g * (f t / k t / k t)))) = _
  rw [h2, k2]
  show F.val _ = _
  congr 1; field_simp; ring

theorem Tracks.sq {a : Node} {f t} (ha : Tracks a f t) : Tracks a.sq (fun t => f t ^ 2) t := by
  obtain ⟨d, h1, h2, h3⟩ := ha
  refine ⟨2 * f t * d, by rw [Node.sq, h1]; exact congrArg F.val (pow_two _).symm, fun g => ?_, ?_⟩
  · show a.back (mul (.val g) (mul (.val 2) a.val)) = _
    rw [h1]
    show a.back (.val (g * (2 * f t))) = _
    rw [h2]; congr 1; ring
  · simpa using h3.fun_pow 2

theorem Tracks.recip {a : Node} {f t} (ha : Tracks a f t) (h0 : f t ≠ 0) : Tracks a.recip (fun t => 1 / f t) t := by
  obtain ⟨d, h1, h2, h3⟩ := ha
  refine ⟨-d / f t ^ 2, by rw [Node.recip, h1, div_val h0], fun g => ?_, ?_⟩
  · show a.back (mul (mul (.val (-1)) (.val g)) (mul (div (.val 1) a.val) (div (.val 1) a.val))) = _
    rw [h1, div_val h0]
    show a.back (.val (-1 * g * (1 / f t * (1 / f t)))) = _
    rw [h2]; congr 1; field_simp
  · simpa using h3.fun_inv h0

theorem Tracks.log {a : Node} {f t} (ha : Tracks a f t) (h0 : 0 < f t) : Tracks a.log (fun t => Real.log (f t)) t := by
  obtain ⟨d, h1, h2, h3⟩ := ha
  refine ⟨d / f t, by rw [Node.log, h1, logF_val h0], fun g => ?_, h3.log h0.ne'⟩
  show a.back (div (.val g) a.val) = _
  rw [h1, div_val h0.ne', h2]; congr 1; ring

theorem Tracks.log1p {a : Node} {f t} (ha : Tracks a f t) (h0 : -1 < f t) :
    Tracks a.log1p (fun t => Real.log (1 + f t)) t := by
  obtain ⟨d, h1, h2, h3⟩ := ha
  have h0' : 0 < f t + 1 := by linarith
  refine ⟨d / (1 + f t), ?_, fun g => ?_, (h3.const_add 1).log (by linarith)⟩
  · rw [Node.log1p, h1]
    show logF (.val (f t + 1)) = _
    rw [logF_val h0', add_comm]
  · show a.back (div (.val g) (a.val.add (.val 1))) = _
    rw [h1]
    show a.back (div (.val g) (.val (f t + 1))) = _
    rw [div_val h0'.ne', h2, add_comm]; congr 1; ring

theorem Tracks.exp {a : Node} {f t} (ha : Tracks a f t) : Tracks a.exp (fun t => Real.exp (f t)) t := by
  obtain ⟨d, h1, h2, h3⟩ := ha
  refine ⟨Real.exp (f t) * d, by rw [Node.exp, h1]; rfl, fun g => ?_, h3.exp⟩
  show a.back (mul (.val g) (expF a.val)) = _
  rw [h1]
  show a.back (.val (g * Real.exp (f t))) = _
  rw [h2]; congr 1; ring

theorem Tracks.abs_pos {a : Node} {f t} (ha : Tracks a f t) (h0 : 0 < f t) : Tracks a.abs f t := by
  obtain ⟨d, h1, h2, h3⟩ := ha
  refine ⟨d, ?_, fun g => ?_, h3⟩
  · rw [Node.abs, h1]
    show F.val |f t| = _
    rw [_root_.abs_of_pos h0]
  · show a.back (mul (.val g) (onVal _ a.val)) = _
    rw [h1]
    show a.back (.val (g * if 0 < f t then 1 else _)) = _
    rw [if_pos h0, mul_one, h2]

theorem Tracks.abs_neg {a : Node} {f t} (ha : Tracks a f t) (h0 : f t < 0) : Tracks a.abs (fun t => -f t) t := by
  obtain ⟨d, h1, h2, h3⟩ := ha
  refine ⟨-d, ?_, fun g => ?_, h3.neg⟩
  · rw [Node.abs, h1]
    show F.val |f t| = _
    rw [_root_.abs_of_neg h0]
  · show a.back (mul (.val g) (onVal _ a.val)) = _
    rw [h1]
    show a.back (.val (g * if 0 < f t then 1 else if f t < 0 then -1 else 0)) = _
    rw [if_neg h0.le.not_gt, if_pos h0, h2]; congr 1; ring

theorem Lin.abs {a : Node} (ha : Lin a) : Lin a.abs := by
  obtain ⟨v, d, h1, h2⟩ := ha
  refine ⟨|v|, (if 0 < v then 1 else if v < 0 then -1 else 0) * d, by rw [Node.abs, h1]; rfl, fun g => ?_⟩
  show a.back (mul (.val g) (onVal _ a.val)) = _
  rw [h1]
  show a.back (.val (g * if 0 < v then 1 else if v < 0 then -1 else 0)) = _
  rw [h2]; congr 1; ring

theorem Lin.scale {a : Node} (c : ℝ) (ha : Lin a) : Lin (a.scale c) := by
  obtain ⟨v, d, h1, h2⟩ := ha
  refine ⟨c * v, c * d, by rw [Node.scale, h1]; rfl, fun g => ?_⟩
  show a.back (.val (g * c)) = _
  rw [h2]; congr 1; ring

theorem Lin.shift {a : Node} (c : ℝ) (ha : Lin a) : Lin (a.shift c) := by
  obtain ⟨v, d, h1, h2⟩ := ha
  exact ⟨v + c, d, by rw [Node.shift, h1]; rfl, h2⟩

theorem Lin.erfc {a : Node} (k : ℝ → ℝ) (ha : Lin a) : Lin (Node.erfc k a) := by
  obtain ⟨v, d, h1, h2⟩ := ha
  refine ⟨k v, -(2 / √π * Real.exp (-v ^ 2)) * d, by rw [Node.erfc, h1]; rfl, fun g => ?_⟩
  show a.back (mul (.val g) (onVal _ a.val)) = _
  rw [h1]
  show a.back (.val (g * _)) = _
  rw [h2]; congr 1; ring

theorem Lin.cast {a : Node} (r : ℝ → ℝ) (ha : Lin a) : Lin (a.cast r) := by
  obtain ⟨v, d, h1, h2⟩ := ha
  exact ⟨r v, d, by rw [Node.cast, h1]; rfl, h2⟩

theorem Tracks.erf {a : Node} {f t} (ha : Tracks a f t) :
    Tracks (Node.erf Verif.erf a) (fun t => Verif.erf (f t)) t := by
  obtain ⟨d, h1, h2, h3⟩ := ha
  refine ⟨2 / √π * Real.exp (-f t ^ 2) * d, by rw [Node.erf, h1]; rfl, fun g => ?_, (hasDerivAt_erf _).comp t h3⟩
  show a.back (mul (.val g) (onVal _ a.val)) = _
  rw [h1]
  show a.back (.val (g * _)) = _
  rw [h2]; congr 1; ring

theorem Tracks.erfc {a : Node} {f t} (ha : Tracks a f t) :
    Tracks (Node.erfc Verif.erfc a) (fun t => Verif.erfc (f t)) t := by
  obtain ⟨d, h1, h2, h3⟩ := ha
  refine ⟨-(2 / √π * Real.exp (-f t ^ 2)) * d, by rw [Node.erfc, h1]; rfl, fun g => ?_, ?_⟩
  · show a.back (mul (.val g) (onVal _ a.val)) = _
    rw [h1]
    show a.back (.val (g * _)) = _
    rw [h2]; congr 1; ring
  · have : HasDerivAt Verif.erfc (-(2 / √π * Real.exp (-f t ^ 2))) (f t) := (hasDerivAt_erf _).const_sub 1
    exact this.comp t h3

theorem Tracks.cast {a : Node} {f t} (ha : Tracks a f t) : Tracks (a.cast id) f t := by
  obtain ⟨d, h1, h2, h3⟩ := ha
  exact ⟨d, by rw [Node.cast, h1]; rfl, h2, h3⟩

theorem Tracks.sel_pos {a b : Node} {f t} {c : Prop} (hc : c) (ha : Tracks a f t) (hb : Quiet b) :
    Tracks (Node.sel c a b) f t := by
  obtain ⟨d, h1, h2, h3⟩ := ha
  refine ⟨d, ?_, fun g => ?_, h3⟩
  · simp [Node.sel, hc, h1]
  · simp only [Node.sel, hc, if_true]
    rw [h2, hb]
    show F.val _ = _
    rw [add_zero]

theorem Tracks.sel_neg {a b : Node} {f t} {c : Prop} (hc : ¬ c) (ha : Quiet a) (hb : Tracks b f t) :
    Tracks (Node.sel c a b) f t := by
  obtain ⟨d, h1, h2, h3⟩ := hb
  refine ⟨d, ?_, fun g => ?_, h3⟩
  · simp [Node.sel, hc, h1]
  · simp only [Node.sel, hc, if_false]
    rw [h2, ha]
    show F.val _ = _
    rw [zero_add]

theorem Quiet.sel {a b : Node} (c : Prop) (ha : Quiet a) (hb : Quiet b) : Quiet (Node.sel c a b) := by
  unfold Quiet
  simp only [Node.sel, ite_self]
  rw [ha, hb]
  show F.val _ = _
  rw [add_zero]

theorem Lin.sel {a b : Node} (c : Prop) (ha : Lin a) (hb : Lin b) : Lin (Node.sel c a b) := by
  have qa := ha.quiet
  have qb := hb.quiet
  obtain ⟨v, d, h1, h2⟩ := ha
  obtain ⟨w, e, k1, k2⟩ := hb
  by_cases hc : c
  · refine ⟨v, d, by simp [Node.sel, hc, h1], fun g => ?_⟩
    simp only [Node.sel, hc, if_true]
    rw [h2, qb]
    show F.val _ = _
    rw [add_zero]
  · refine ⟨w, e, by simp [Node.sel, hc, k1], fun g => ?_⟩
    simp only [Node.sel, hc, if_false]
    rw [k2, qa]
    show F.val _ = _
    rw [zero_add]

theorem Lin.log {a : Node} {v : ℝ} (ha : Lin a) (h : a.val = .val v) (h0 : v ≠ 0) : Quiet a.log := by
  show a.back (div (.val 0) a.val) = _
  rw [h, div_val h0, zero_div]
  exact ha.quiet

theorem Lin.log1p {a : Node} {v : ℝ} (ha : Lin a) (h : a.val = .val v) (h0 : 1 + v ≠ 0) : Quiet a.log1p := by
  show a.back (div (.val 0) (a.val.add (.val 1))) = _
  rw [h]
  show a.back (div (.val 0) (.val (v + 1))) = _
  rw [div_val (by rwa [add_comm]), zero_div]
  exact ha.quiet

theorem Quiet.scale {a : Node} (c : ℝ) (ha : Quiet a) : Quiet (a.scale c) := by
  show a.back (.val (0 * c)) = _
  rw [zero_mul]
  exact ha

theorem Quiet.add {a b : Node} (ha : Quiet a) (hb : Quiet b) : Quiet (a.add b) := by
  show (a.back _).add (b.back _) = _
  rw [ha, hb]
  show F.val _ = _
  rw [add_zero]

/-! ### The distribution function -/

theorem ndtr_tracks {a : Node} {f t} (ha : Tracks a f t) : Tracks (ndtr id erf erfc a) (fun t => Phi (f t)) t := by
  have hs : (0 : ℝ) < √0.5 := Real.sqrt_pos.2 (by norm_num)
  have e5 : √(1 / 2) = √0.5 := by norm_num
  have hx : Tracks (((a.cast id).scale (id √0.5)).cast id) (fun t => √0.5 * f t) t := (ha.cast.scale _).cast
  unfold ndtr
  simp only
  set x := ((a.cast id).scale (id √0.5)).cast id
  have hy : Lin (((Node.erfc erfc x.abs).scale 0.5).cast id) := ((hx.lin.abs.erfc _).scale _).cast _
  have ev : ∀ s, Phi (f s) = 0.5 * erf (√0.5 * f s) + 0.5 := fun s => by
    rw [Phi_erf, e5, mul_comm (f s)]; norm_num; ring
  have hval : x.abs.val = .val |√0.5 * f t| := by rw [Node.abs, hx.value]; rfl
  by_cases h1 : |√0.5 * f t| < √0.5
  · refine Tracks.sel_pos (by rw [hval]; exact h1) ?_ ?_
    · refine (((hx.erf.scale 0.5).cast.shift 0.5).cast).congr (Eventually.of_forall ev)
    · exact Quiet.sel _ ((hy.scale _).shift _ |>.cast _).quiet hy.quiet
  refine Tracks.sel_neg (by rw [hval]; exact h1) (((hx.erf.scale 0.5).cast.shift 0.5).cast).quiet ?_
  by_cases h2 : 0 < √0.5 * f t
  · refine Tracks.sel_pos (by rw [hx.value]; exact h2) ?_ hy.quiet
    refine ((((((hx.abs_pos h2).erfc.scale 0.5).cast).scale (-1)).shift 1).cast).congr (Eventually.of_forall fun s => ?_)
    simp only [ev, erfc]
    ring
  · refine Tracks.sel_neg (by rw [hx.value]; exact h2) ((hy.scale _).shift _ |>.cast _).quiet ?_
    have h3 : √0.5 * f t < 0 := by
      rcases lt_or_eq_of_le (not_lt.1 h2) with h | h
      · exact h
      · rw [h, abs_zero] at h1
        exact absurd hs h1
    refine (((hx.abs_neg h3).erfc.scale 0.5).cast).congr (Eventually.of_forall fun s => ?_)
    simp only [ev, erfc, erf_neg]
    ring

/-- **C144 (ndtr).** In exact arithmetic the gradient of `ndtr` is the normal density, everywhere. -/
theorem C144_ndtr (x : ℝ) :
    (ndtr id erf erfc (Node.leaf x)).val = .val (Phi x) ∧ (ndtr id erf erfc (Node.leaf x)).grad = .val (phi x) := by
  have h := ndtr_tracks (tracks_leaf x)
  refine ⟨h.value, ?_⟩
  obtain ⟨g, h1, h2⟩ := h.grad
  rw [h1, h2.unique (hasDerivAt_Phi x)]

/-! ### The asymptotic series -/

/-- What the logarithm of the series is taken of. -/
noncomputable def inner (x : ℝ) : ℝ := 1 + (-1 / x ^ 2 + 1 / x ^ 4 - 3 / x ^ 6)

/-- It is not zero at rational numbers, which floating point numbers are. -/
theorem inner_ne_zero {q : ℚ} (hq : q ≠ 0) : inner q ≠ 0 := by
  intro h
  have hq' : (q : ℝ) ≠ 0 := by exact_mod_cast hq
  have h1 : (q : ℝ) ^ 6 - q ^ 4 + q ^ 2 - 3 = 0 := by
    have : (q : ℝ) ^ 6 - q ^ 4 + q ^ 2 - 3 = q ^ 6 * inner q := by unfold inner; field_simp; ring
    rw [this, h, mul_zero]
  have h2 : q ^ 6 - q ^ 4 + q ^ 2 - 3 = 0 := by exact_mod_cast h1
  have hd : (q.den : ℚ) ≠ 0 := by exact_mod_cast q.den_nz
  have h3 : (q.num : ℚ) ^ 6 - q.num ^ 4 * q.den ^ 2 + q.num ^ 2 * q.den ^ 4 - 3 * q.den ^ 6 = 0 := by
    have e : (q.num : ℚ) = q * q.den := (Rat.mul_den_eq_num q).symm
    rw [e]
    linear_combination (q.den : ℚ) ^ 6 * h2
  have h4 : (q.num : ℤ) ^ 6 - q.num ^ 4 * (q.den : ℤ) ^ 2 + q.num ^ 2 * (q.den : ℤ) ^ 4 - 3 * (q.den : ℤ) ^ 6 = 0 := by
    exact_mod_cast h3
  have h5 := congrArg (Int.cast : ℤ → ZMod 4) h4
  push_cast at h5
  have key : ∀ a b : ZMod 4, a ^ 6 - a ^ 4 * b ^ 2 + a ^ 2 * b ^ 4 - 3 * b ^ 6 = 0 → 2 * a = 0 ∧ 2 * b = 0 := by decide
  obtain ⟨k1, k2⟩ := key _ _ h5
  have d1 : ((4 : ℕ) : ℤ) ∣ 2 * q.num := (ZMod.intCast_zmod_eq_zero_iff_dvd _ 4).1 (by push_cast; exact k1)
  have d2 : 4 ∣ 2 * q.den := (ZMod.natCast_eq_zero_iff _ 4).1 (by push_cast; exact k2)
  have n1 : 2 ∣ q.num.natAbs := by omega
  have n2 : 2 ∣ q.den := by omega
  have := Nat.dvd_gcd n1 n2
  rw [q.reduced.gcd_eq_one] at this
  omega

/-- The sum of the three terms. -/
theorem terms_tracks {a : Node} {f t} (ha : Tracks a f t) (h0 : f t ≠ 0) :
    Tracks ((List.range' 1 3).foldl (SeriesN.step a) ⟨Node.const 0, a.sq, 1, -1⟩).t2 (fun t => inner (f t) - 1) t := by
  have h2 : f t ^ 2 ≠ 0 := pow_ne_zero 2 h0
  have h4 : f t ^ 2 * f t ^ 2 ≠ 0 := mul_ne_zero h2 h2
  have h6 : f t ^ 2 * f t ^ 2 * f t ^ 2 ≠ 0 := mul_ne_zero h4 h2
  have e : List.range' 1 3 = [1, 2, 3] := rfl
  simp only [e, List.foldl_cons, List.foldl_nil, SeriesN.step]
  refine ((((tracks_const 0 t).add ((ha.sq.recip h2).scale _)).add (((ha.sq.times ha.sq).recip h4).scale _)).add
    ((((ha.sq.times ha.sq).times ha.sq).recip h6).scale _)).congr (Eventually.of_forall fun s => ?_)
  have e4 : f s ^ 2 * f s ^ 2 = f s ^ 4 := by ring
  have e6 : f s ^ 2 * f s ^ 2 * f s ^ 2 = f s ^ 6 := by ring
  simp only [e6, e4, inner]
  push_cast
  ring

theorem series_tracks {a : Node} {f t} (ha : Tracks a f t) (h0 : f t < 0) (h1 : 0 < inner (f t)) :
    Tracks (series a) (fun t => logNdtrSeries (f t)) t := by
  unfold series
  refine ((((ha.sq.shift _).scale _).add (((ha.scale (-1)).log (by linarith)).scale (-1))).add
    ((terms_tracks ha h0.ne).log1p (by linarith))).congr (Eventually.of_forall fun s => ?_)
  simp only [logNdtrSeries_three, inner]
  ring_nf

theorem series_quiet {a : Node} {f t} (ha : Tracks a f t) (h0 : f t ≠ 0) (h1 : inner (f t) ≠ 0) : Quiet (series a) := by
  unfold series
  have hl := ha.scale (-1)
  have ht := terms_tracks ha h0
  exact (((ha.sq.shift _).scale _).quiet.add ((hl.lin.log hl.value (by simpa using h0)).scale _)).add
    (ht.lin.log1p ht.value (by simpa using h1))

theorem inner_pos {x : ℝ} (h : x ≤ -10) : 0 < inner x := by
  have h0 : x ≠ 0 := by linarith
  unfold inner
  set w := (x ^ 2)⁻¹ with hw
  have hx2 : 100 ≤ x ^ 2 := by nlinarith
  have hw0 : 0 < w := by positivity
  have hw1 : w ≤ 1 / 100 := by
    rw [hw, inv_le_comm₀ (by positivity) (by norm_num)]
    norm_num; nlinarith
  have : 1 + (-1 / x ^ 2 + 1 / x ^ 4 - 3 / x ^ 6) = 1 - w + w ^ 2 - 3 * w ^ 3 := by
    rw [hw]; field_simp; ring
  rw [this]
  nlinarith [mul_pos hw0 hw0, mul_pos (mul_pos hw0 hw0) hw0, mul_le_mul hw1 hw1 hw0.le (by norm_num : (0:ℝ) ≤ 1/100)]

/-! ### The logarithm -/

/-- Above the cutoff the gradient is that of the logarithm of the distribution function. -/
theorem logNdtr_tracks {d : Dtype} (hd : d ≠ .other) {a : Node} {f t} (ha : Tracks a f t) (h0 : f t ≠ 0)
    (h1 : inner (f t) ≠ 0) (hc : cutoff d ≤ f t) :
    ∃ n, logNdtr id erf erfc d a = .ok n ∧ Tracks n (fun t => Real.log (Phi (f t))) t := by
  obtain ⟨⟨m, n⟩, hmn, hm⟩ : ∃ mn : ℝ × ℝ, thresholds d = .ok mn ∧ mn.1 = cutoff d := by
    cases d with
    | float32 => exact ⟨_, rfl, rfl⟩
    | float64 => exact ⟨_, rfl, rfl⟩
    | other => exact absurd rfl hd
  simp only at hm
  subst hm
  have p1 := ndtr_tracks ha
  have p2 := (ndtr_tracks (ha.scale (-1))).scale (-1)
  have q : Tracks ((ndtr id erf erfc (a.scale (-1))).scale (-1)).log1p (fun t => Real.log (Phi (f t))) t := by
    refine (p2.log1p ?_).congr (Eventually.of_forall fun s => ?_)
    · have := Phi_lt_one (-1 * f t)
      linarith
    · simp only [neg_mul, one_mul, Phi_neg]
      ring_nf
  refine ⟨_, by rw [logNdtr, hmn]; rfl, ?_⟩
  simp only
  by_cases c : n < f t
  · exact Tracks.sel_pos (by rw [ha.value]; exact c) q (Quiet.sel _ (p1.log (Phi_pos _)).quiet (series_quiet ha h0 h1))
  · refine Tracks.sel_neg (by rw [ha.value]; exact c) q.quiet ?_
    exact Tracks.sel_pos (by rw [ha.value]; exact not_lt.2 hc) (p1.log (Phi_pos _)) (series_quiet ha h0 h1)

/-- Below the cutoff the gradient is that of the series. -/
theorem logNdtr_tracks_series {d : Dtype} (hd : d ≠ .other) {a : Node} {f t} (ha : Tracks a f t) (hc : f t < cutoff d) :
    ∃ n, logNdtr id erf erfc d a = .ok n ∧ Tracks n (fun t => logNdtrSeries (f t)) t := by
  have h10 := cutoff_le hd
  obtain ⟨⟨m, n⟩, hmn, hm, hn⟩ : ∃ mn : ℝ × ℝ, thresholds d = .ok mn ∧ mn.1 = cutoff d ∧ 0 < mn.2 := by
    cases d with
    | float32 => exact ⟨_, rfl, rfl, by norm_num⟩
    | float64 => exact ⟨_, rfl, rfl, by norm_num⟩
    | other => exact absurd rfl hd
  simp only at hm hn
  subst hm
  have p1 := ndtr_tracks ha
  have p2 := (ndtr_tracks (ha.scale (-1))).scale (-1)
  have q : Quiet ((ndtr id erf erfc (a.scale (-1))).scale (-1)).log1p :=
    (p2.log1p (by have := Phi_lt_one (-1 * f t); linarith)).quiet
  refine ⟨_, by rw [logNdtr, hmn]; rfl, ?_⟩
  simp only
  refine Tracks.sel_neg (by rw [ha.value]; exact not_lt.2 (by linarith)) q ?_
  exact Tracks.sel_neg (by rw [ha.value]; exact not_not.2 hc) (p1.log (Phi_pos _)).quiet
    (series_tracks ha (by linarith) (inner_pos (by linarith)))

/-- **C144 (log_ndtr).** In exact arithmetic: at every floating point number but zero and the cutoff to the series, the gradient of
`log_ndtr` is the derivative of the function that `log_ndtr` computes. Above the cutoff it is the density divided by the
distribution function. Zero is excepted rightly: `C144_violated_zero`. -/
theorem C144_log_ndtr_partial {d : Dtype} (hd : d ≠ .other) (x : ℚ) (h0 : x ≠ 0) (hc : (x : ℝ) ≠ cutoff d) :
    ∃ n, ∃ f : ℝ → ℝ, ∃ g, logNdtr id erf erfc d (Node.leaf x) = .ok n ∧ (∀ t, Functional.logNdtr d t = .ok (f t)) ∧
      n.val = .val (f x) ∧ n.grad = .val g ∧ HasDerivAt f g x ∧ (cutoff d < x → g = phi x / Phi x) := by
  obtain ⟨f, hf⟩ : ∃ f : ℝ → ℝ, ∀ t, Functional.logNdtr d t = .ok (f t) := by
    cases d with
    | float32 => exact ⟨_, fun t => rfl⟩
    | float64 => exact ⟨_, fun t => rfl⟩
    | other => exact absurd rfl hd
  have h0' : (x : ℝ) ≠ 0 := by exact_mod_cast h0
  rcases lt_or_gt_of_ne hc with h | h
  · obtain ⟨n, hn, ht⟩ := logNdtr_tracks_series hd (tracks_leaf (x : ℝ)) h
    have ht' : Tracks n f x := by
      refine ht.congr ?_
      filter_upwards [Iio_mem_nhds h] with s hs
      have := hf s
      have h5 : s < 5 := lt_trans hs (by have := cutoff_le hd; linarith)
      have h8 : s < 8 := by linarith
      cases d with
      | float32 =>
        rw [show Functional.logNdtr .float32 s = .ok (logNdtrWith (-10) 5 s) from rfl, logNdtrWith, if_neg h5.not_gt,
          if_neg (not_le.2 hs)] at this
        exact (Except.ok.inj this).symm
      | float64 =>
        rw [show Functional.logNdtr .float64 s = .ok (logNdtrWith (-20) 8 s) from rfl, logNdtrWith, if_neg h8.not_gt,
          if_neg (not_le.2 hs)] at this
        exact (Except.ok.inj this).symm
      | other => exact absurd rfl hd
    obtain ⟨g, h1, h2⟩ := ht'.grad
    exact ⟨n, f, g, hn, hf, ht'.value, h1, h2, fun h3 => absurd h3 h.not_gt⟩
  · obtain ⟨n, hn, ht⟩ := logNdtr_tracks hd (tracks_leaf (x : ℝ)) h0' (inner_ne_zero h0) h.le
    have ht' : Tracks n f x := by
      refine ht.congr ?_
      filter_upwards [Ioi_mem_nhds h] with s hs
      have h1 := hf s
      rw [logNdtr_eq hd (le_of_lt hs), ndtr_eq_Phi] at h1
      exact (Except.ok.inj h1).symm
    obtain ⟨g, h1, h2⟩ := ht'.grad
    obtain ⟨g', h3, h4⟩ := ht.grad
    have e : g = g' := F.val.inj (h1.symm.trans h3)
    refine ⟨n, f, g, hn, hf, ht'.value, h1, h2, fun _ => ?_⟩
    rw [e]
    exact h4.unique ((hasDerivAt_Phi _).log (Phi_pos _).ne')

/-! ### Probabilities of a normal distribution -/

/-- The variable that is differentiated by. -/
inductive Var
  | value
  | loc
  | scale
deriving DecidableEq

/-- An argument that is `x`: the variable if it is the one differentiated by. -/
def arg (w w' : Var) (x : ℝ) : Node := if w = w' then Node.leaf x else Node.const x

/-- An argument with `t` in place of the variable. -/
def put (w w' : Var) (t x : ℝ) : ℝ := if w = w' then t else x

/-- The value of the variable. -/
def Var.of (v loc scale : ℝ) : Var → ℝ
  | .value => v
  | .loc => loc
  | .scale => scale

theorem arg_tracks (w w' : Var) (v loc scale : ℝ) :
    Tracks (arg w w' (w'.of v loc scale)) (fun t => put w w' t (w'.of v loc scale)) (w.of v loc scale) := by
  unfold arg put
  by_cases h : w = w'
  · subst h
    simp only [if_true]
    exact tracks_leaf _
  · simp only [if_neg h]
    exact tracks_const _ _

theorem standardized_tracks {v l s : Node} {V L S : ℝ → ℝ} {t : ℝ} (hv : Tracks v V t) (hl : Tracks l L t)
    (hs : Tracks s S t) (h0 : S t ≠ 0) : Tracks (standardized v l s) (fun t => (V t - L t) / S t) t := by
  refine ((hv.add (hl.scale (-1))).over hs h0).congr (Eventually.of_forall fun s => ?_)
  simp only
  ring

theorem inner_neg (x : ℝ) : inner (-x) = inner x := by
  unfold inner
  have e2 : (-x) ^ 2 = x ^ 2 := by ring
  have e4 : (-x) ^ 4 = x ^ 4 := by ring
  have e6 : (-x) ^ 6 = x ^ 6 := by ring
  rw [e2, e4, e6]

theorem logs_track {d : Dtype} (hd : d ≠ .other) {v l s : Node} {V L S : ℝ → ℝ} {t : ℝ} (hv : Tracks v V t)
    (hl : Tracks l L t) (hs : Tracks s S t) (h0 : S t ≠ 0) (hz : (V t - L t) / S t ≠ 0)
    (hi : inner ((V t - L t) / S t) ≠ 0) (hc : |(V t - L t) / S t| ≤ -cutoff d) :
    (∃ n, logCdf id erf erfc d v l s = .ok n ∧ Tracks n (fun t => Real.log (Phi ((V t - L t) / S t))) t) ∧
    ∃ n, logSf id erf erfc d v l s = .ok n ∧ Tracks n (fun t => Real.log (1 - Phi ((V t - L t) / S t))) t := by
  have h := standardized_tracks hv hl hs h0
  rw [abs_le] at hc
  refine ⟨logNdtr_tracks hd h hz hi (by linarith), ?_⟩
  obtain ⟨n, h1, h2⟩ := logNdtr_tracks hd (h.scale (-1)) (by simpa using hz) (by simpa [inner_neg] using hi)
    (by linarith [hc.2])
  refine ⟨n, h1, h2.congr (Eventually.of_forall fun s => ?_)⟩
  simp only [neg_mul, one_mul, Phi_neg]

theorem logProb_tracks {d : Dtype} (hd : d ≠ .other) {v l s : Node} {V L S : ℝ → ℝ} {t : ℝ} (hv : Tracks v V t)
    (hl : Tracks l L t) (hs : Tracks s S t) (h0 : 0 < S t) (p0 : (V t + 0.5 - L t) / S t ≠ 0)
    (p1 : inner ((V t + 0.5 - L t) / S t) ≠ 0) (p2 : |(V t + 0.5 - L t) / S t| ≤ -cutoff d)
    (n0 : (V t + -0.5 - L t) / S t ≠ 0) (n1 : inner ((V t + -0.5 - L t) / S t) ≠ 0)
    (n2 : |(V t + -0.5 - L t) / S t| ≤ -cutoff d) :
    ∃ n, logProb id erf erfc d v l s = .ok n ∧
      Tracks n (fun t => Real.log (Phi ((V t + 0.5 - L t) / S t) - Phi ((V t + -0.5 - L t) / S t))) t := by
  obtain ⟨⟨cp, ecp, tcp⟩, sp, esp, tsp⟩ := logs_track hd (hv.shift 0.5) hl hs h0.ne' p0 p1 p2
  obtain ⟨⟨cn, ecn, tcn⟩, sn, esn, tsn⟩ := logs_track hd (hv.shift (-0.5)) hl hs h0.ne' n0 n1 n2
  have hlt : ∀ᶠ x in 𝓝 t, Phi ((V x + -0.5 - L x) / S x) < Phi ((V x + 0.5 - L x) / S x) := by
    filter_upwards [hs.cont.eventually (lt_mem_nhds h0)] with x hx
    exact Phi_strictMono (div_lt_div_of_pos_right (by linarith) hx)
  refine ⟨_, by rw [logProb, esp, esn, ecp, ecn]; rfl, ?_⟩
  have lem : ∀ (x y : Node) (f k : ℝ → ℝ), (∀ s, 0 < f s) → (∀ s, 0 < k s) → Tracks x (fun s => Real.log (f s)) t →
      Tracks y (fun s => Real.log (k s)) t →
      (∀ s, f s - k s = Phi ((V s + 0.5 - L s) / S s) - Phi ((V s + -0.5 - L s) / S s)) →
      Tracks ((((y.add (x.scale (-1))).exp.scale (-1)).log1p).add x)
        (fun s => Real.log (Phi ((V s + 0.5 - L s) / S s) - Phi ((V s + -0.5 - L s) / S s))) t := by
    intro x y f k hf hk hx hy he
    have ex : ∀ s, Real.exp (Real.log (k s) + -1 * Real.log (f s)) = k s / f s := fun s => by
      rw [exp_add, exp_log (hk s), neg_mul, one_mul, exp_neg, exp_log (hf s)]; rfl
    have lt0 : k t < f t := by have := hlt.self_of_nhds; have := he t; linarith
    refine ((((hy.add (hx.scale (-1))).exp.scale (-1)).log1p ?_).add hx).congr ?_
    · simp only [ex]
      have : k t / f t < 1 := (div_lt_one (hf t)).2 lt0
      linarith
    · filter_upwards [hlt] with s h
      have lts : k s < f s := by have := he s; linarith
      simp only [ex, ← he s]
      have : k s / f s < 1 := (div_lt_one (hf s)).2 lts
      rw [← Real.log_mul (by linarith) (hf s).ne']
      congr 1
      have := (hf s).ne'
      field_simp
      ring
  have pos := fun x => Phi_pos x
  have pos' := fun x => sub_pos.2 (Phi_lt_one x)
  by_cases c : sp.val.Lt cp.val
  · exact lem _ _ _ _ (fun s => pos' _) (fun s => pos' _) (Tracks.sel_pos c tsn tcp.quiet) (Tracks.sel_pos c tsp tcn.quiet)
      (fun s => by ring)
  · exact lem _ _ _ _ (fun s => pos _) (fun s => pos _) (Tracks.sel_neg c tsn.quiet tcp) (Tracks.sel_neg c tsp.quiet tcn)
      (fun s => rfl)

/-- **C144 (log_prob).** In exact arithmetic: for a normal distribution, where the ends of the interval around the value are not the
mean and are within 10 (single precision) or 20 (double precision) standard deviations, the gradients of `log_prob` by the
value, by the mean and by the standard deviation are the derivatives of the logarithm of the probability. -/
theorem C144_log_prob_partial {d : Dtype} (hd : d ≠ .other) (w : Var) (v loc scale : ℚ) (hs : 0 < scale)
    (p0 : v + 1 / 2 ≠ loc) (n0 : v - 1 / 2 ≠ loc) (p2 : |(v : ℝ) + 1 / 2 - loc| ≤ -cutoff d * scale)
    (n2 : |(v : ℝ) - 1 / 2 - loc| ≤ -cutoff d * scale) :
    ∃ n g, logProb id erf erfc d (arg w .value v) (arg w .loc loc) (arg w .scale scale) = .ok n ∧
      n.val = .val (Real.log (prob (.normal loc scale) v)) ∧ n.grad = .val g ∧
      HasDerivAt (fun t => Real.log (prob (.normal (put w .loc t loc) (put w .scale t scale)) (put w .value t v))) g
        (w.of v loc scale) := by
  have hs' : (0 : ℝ) < scale := by exact_mod_cast hs
  have pv : ∀ w', put w w' (w.of v loc scale) (w'.of (v : ℝ) loc scale) = w'.of v loc scale := fun w' => by
    unfold put
    split_ifs with h
    · rw [h]
    · rfl
  have e1 : ((v : ℝ) + 0.5 - loc) / scale = (((v + 1 / 2 - loc) / scale : ℚ) : ℝ) := by push_cast; norm_num
  have e2 : ((v : ℝ) + -0.5 - loc) / scale = (((v - 1 / 2 - loc) / scale : ℚ) : ℝ) := by push_cast; norm_num; ring
  have q1 : (v + 1 / 2 - loc) / scale ≠ 0 := div_ne_zero (sub_ne_zero.2 p0) hs.ne'
  have q2 : (v - 1 / 2 - loc) / scale ≠ 0 := div_ne_zero (sub_ne_zero.2 n0) hs.ne'
  have b : ∀ x : ℝ, |x| ≤ -cutoff d * scale → |x / scale| ≤ -cutoff d := fun x hx => by
    rw [abs_div, abs_of_pos hs', div_le_iff₀ hs']; exact hx
  have tv := arg_tracks w .value v loc scale
  have tl := arg_tracks w .loc v loc scale
  have ts := arg_tracks w .scale v loc scale
  have ev := pv .value
  have el := pv .loc
  have es := pv .scale
  simp only [Var.of] at tv tl ts ev el es
  obtain ⟨n, hn, ht⟩ := logProb_tracks hd tv tl ts
    (by simp only [es]; exact hs') (by simp only [ev, el, es, e1]; exact_mod_cast q1)
    (by simp only [ev, el, es, e1]; exact inner_ne_zero q1)
    (by simp only [ev, el, es]; exact b _ (by convert p2 using 3; norm_num))
    (by simp only [ev, el, es, e2]; exact_mod_cast q2)
    (by simp only [ev, el, es, e2]; exact inner_ne_zero q2)
    (by simp only [ev, el, es]; exact b _ (by convert n2 using 3; norm_num; ring))
  have hp : ∀ loc scale v, prob (.normal loc scale) v =
      Phi ((v + 0.5 - loc) / scale) - Phi ((v + -0.5 - loc) / scale) := fun loc scale v => by
    rw [C46_prob, normal_cdf, normal_cdf]; norm_num [sub_eq_add_neg]
  obtain ⟨g, h1, h2⟩ := ht.grad
  refine ⟨n, g, hn, ?_, h1, ?_⟩
  · rw [ht.value]
    simp only [ev, el, es, hp]
  · simp only [hp]
    exact h2

/-- Both are not vacuous: one standard deviation above the mean, below the cutoff, and a value near the mean. -/
example : (1 : ℚ) ≠ 0 ∧ ((1 : ℚ) : ℝ) ≠ cutoff .float32 ∧ ((-30 : ℚ) : ℝ) < cutoff .float64 := by
  norm_num [cutoff]

example (w : Var) : ∃ n g, logProb id erf erfc .float32 (arg w .value (0 : ℚ)) (arg w .loc (1 / 4 : ℚ)) (arg w .scale (2 : ℚ)) = .ok n ∧
    n.grad = .val g := by
  obtain ⟨n, g, h1, -, h2, -⟩ := C144_log_prob_partial (d := .float32) (by decide) w 0 (1 / 4) 2 (by norm_num) (by norm_num)
    (by norm_num) (by norm_num [cutoff, abs_le]) (by norm_num [cutoff, abs_le])
  exact ⟨n, g, h1, h2⟩

theorem normCdf_tracks {v l s : Node} {V L S : ℝ → ℝ} {t : ℝ} (hv : Tracks v V t) (hl : Tracks l L t) (hs : Tracks s S t)
    (h0 : S t ≠ 0) : Tracks (normCdf v l s) (fun t => Phi ((V t - L t) / S t)) t := by
  refine ((((((hv.add (hl.scale (-1))).times (hs.recip h0)).scale (1 / √2)).erf.shift 1).scale 0.5)).congr
    (Eventually.of_forall fun x => ?_)
  simp only
  rw [← scale_erf, show (V x - L x) / S x / √2 = 1 / √2 * ((V x + -1 * L x) * (1 / S x)) by ring]
  ring

theorem survival_tracks {v l s : Node} {V L S : ℝ → ℝ} {t : ℝ} (hv : Tracks v V t) (hl : Tracks l L t) (hs : Tracks s S t)
    (h0 : S t ≠ 0) : Tracks (survival id erf erfc v l s) (fun t => 1 - Phi ((V t - L t) / S t)) t := by
  refine (ndtr_tracks ((standardized_tracks hv hl hs h0).scale (-1))).congr (Eventually.of_forall fun x => ?_)
  simp only [neg_mul, one_mul, Phi_neg]

theorem probNode_tracks {v l s : Node} {V L S : ℝ → ℝ} {t : ℝ} (hv : Tracks v V t) (hl : Tracks l L t) (hs : Tracks s S t)
    (h0 : S t ≠ 0) : Tracks (probNode id erf erfc v l s)
      (fun t => Phi ((V t + 0.5 - L t) / S t) - Phi ((V t + -0.5 - L t) / S t)) t := by
  have sp := survival_tracks (hv.shift 0.5) hl hs h0
  have sn := survival_tracks (hv.shift (-0.5)) hl hs h0
  have cp := normCdf_tracks (hv.shift 0.5) hl hs h0
  have cn := normCdf_tracks (hv.shift (-0.5)) hl hs h0
  have a := (sn.add (sp.scale (-1))).congr (g := fun t => Phi ((V t + 0.5 - L t) / S t) - Phi ((V t + -0.5 - L t) / S t))
    (Eventually.of_forall fun x => by simp only; ring)
  have b := (cp.add (cn.scale (-1))).congr (g := fun t => Phi ((V t + 0.5 - L t) / S t) - Phi ((V t + -0.5 - L t) / S t))
    (Eventually.of_forall fun x => by simp only; ring)
  unfold probNode
  simp only
  by_cases c : (survival id erf erfc (v.shift 0.5) l s).val.Lt (normCdf (v.shift 0.5) l s).val
  · exact Tracks.sel_pos c a b.quiet
  · exact Tracks.sel_neg c a.quiet b

/-- **C144 (prob).** In exact arithmetic: for a normal distribution, at every value, mean and positive standard deviation, the
gradients of `prob` by the value, by the mean and by the standard deviation are the derivatives of the probability. -/
theorem C144_prob (w : Var) (v loc scale : ℝ) (hs : 0 < scale) :
    ∃ g, (probNode id erf erfc (arg w .value v) (arg w .loc loc) (arg w .scale scale)).val = .val (prob (.normal loc scale) v) ∧
      (probNode id erf erfc (arg w .value v) (arg w .loc loc) (arg w .scale scale)).grad = .val g ∧
      HasDerivAt (fun t => prob (.normal (put w .loc t loc) (put w .scale t scale)) (put w .value t v)) g
        (w.of v loc scale) := by
  have pv : ∀ w', put w w' (w.of v loc scale) (w'.of (v : ℝ) loc scale) = w'.of v loc scale := fun w' => by
    unfold put
    split_ifs with h
    · rw [h]
    · rfl
  have tv := arg_tracks w .value v loc scale
  have tl := arg_tracks w .loc v loc scale
  have ts := arg_tracks w .scale v loc scale
  have ev := pv .value
  have el := pv .loc
  have es := pv .scale
  simp only [Var.of] at tv tl ts ev el es
  have ht := probNode_tracks tv tl ts (by simp only [es]; exact hs.ne')
  have hp : ∀ loc scale v, prob (.normal loc scale) v =
      Phi ((v + 0.5 - loc) / scale) - Phi ((v + -0.5 - loc) / scale) := fun loc scale v => by
    rw [C46_prob, normal_cdf, normal_cdf]; norm_num [sub_eq_add_neg]
  obtain ⟨g, h1, h2⟩ := ht.grad
  refine ⟨g, ?_, h1, ?_⟩
  · rw [ht.value]
    simp only [ev, el, es, hp]
  · simp only [hp]
    exact h2

theorem Lin.erf {a : Node} (k : ℝ → ℝ) (ha : Lin a) : Lin (Node.erf k a) := by
  obtain ⟨v, d, h1, h2⟩ := ha
  refine ⟨k v, (2 / √π * Real.exp (-v ^ 2)) * d, by rw [Node.erf, h1]; rfl, fun g => ?_⟩
  show a.back (mul (.val g) (onVal _ a.val)) = _
  rw [h1]
  show a.back (.val (g * _)) = _
  rw [h2]; congr 1; ring

theorem Lin.add {a b : Node} (ha : Lin a) (hb : Lin b) : Lin (a.add b) := by
  obtain ⟨v, d, h1, h2⟩ := ha
  obtain ⟨w, e, k1, k2⟩ := hb
  refine ⟨v + w, d + e, by rw [Node.add, h1, k1]; rfl, fun g => ?_⟩
  show (a.back _).add (b.back _) = _
  rw [h2, k2, add_mul]; rfl

theorem ndtr_lin {r erf32 erfc32 : ℝ → ℝ} {a : Node} (ha : Lin a) : Lin (ndtr r erf32 erfc32 a) := by
  have hx := ((ha.cast r).scale (r √0.5)).cast r
  unfold ndtr
  simp only
  have hy := ((hx.abs.erfc erfc32).scale 0.5).cast r
  exact Lin.sel _ ((((hx.erf erf32).scale 0.5).cast r).shift 0.5 |>.cast r) (Lin.sel _ ((hy.scale _).shift _ |>.cast _) hy)

/-- **C144 (prob, single precision).** Whatever the rounding and the error functions of single precision: the gradients of `prob` are
finite at every value, mean and positive standard deviation, also where those of `log_prob` are not. -/
theorem C144_prob_finite (r erf32 erfc32 : ℝ → ℝ) (w : Var) (v loc scale : ℝ) (hs : 0 < scale) :
    ∃ g, (probNode r erf32 erfc32 (arg w .value v) (arg w .loc loc) (arg w .scale scale)).grad = .val g := by
  have pv : put w .scale (w.of v loc scale) scale = scale := by
    unfold put
    split_ifs with h
    · rw [h]; rfl
    · rfl
  have tv := arg_tracks w .value v loc scale
  have tl := arg_tracks w .loc v loc scale
  have ts := arg_tracks w .scale v loc scale
  simp only [Var.of] at tv tl ts
  have h0 : put w .scale (w.of v loc scale) scale ≠ 0 := by rw [pv]; exact hs.ne'
  have sf := fun c => ndtr_lin (r := r) (erf32 := erf32) (erfc32 := erfc32)
    ((standardized_tracks (tv.shift c) tl ts h0).scale (-1)).lin
  have cd := fun c => (normCdf_tracks (tv.shift c) tl ts h0).lin
  have h : Lin (probNode r erf32 erfc32 (arg w .value v) (arg w .loc loc) (arg w .scale scale)) :=
    Lin.sel _ ((sf _).add ((sf _).scale _)) ((cd _).add ((cd _).scale _))
  obtain ⟨_, d, -, h2⟩ := h
  exact ⟨d * 1, h2 1⟩

/-- Both are not vacuous. -/
example (w : Var) : ∃ g, (probNode id erf erfc (arg w .value (1 / 2)) (arg w .loc 0) (arg w .scale 1)).grad = .val g :=
  C144_prob_finite _ _ _ w _ _ _ one_pos

/-! ### Not-a-number at the mean -/

/-- Every gradient gives not-a-number. -/
def Dead (a : Node) : Prop := ∀ g, a.back g = .nan

theorem strict_leaf (x : ℝ) : Strict (Node.leaf x) := rfl

theorem Strict.scale {a : Node} (c : ℝ) (h : Strict a) : Strict (a.scale c) := by
  show a.back (mul .nan _) = _
  rw [nan_mul]; exact h

theorem Strict.log {a : Node} (h : Strict a) : Strict a.log := by
  show a.back (div .nan _) = _
  rw [nan_div]; exact h

theorem Strict.abs {a : Node} (h : Strict a) : Strict a.abs := by
  show a.back (mul .nan _) = _
  rw [nan_mul]; exact h

theorem Strict.erf {a : Node} (f : ℝ → ℝ) (h : Strict a) : Strict (Node.erf f a) := by
  show a.back (mul .nan _) = _
  rw [nan_mul]; exact h

theorem Strict.erfc {a : Node} (f : ℝ → ℝ) (h : Strict a) : Strict (Node.erfc f a) := by
  show a.back (mul .nan _) = _
  rw [nan_mul]; exact h

theorem sel_back_pos {a b : Node} {c : Prop} (hc : c) (g : F) :
    (Node.sel c a b).back g = (a.back g).add (b.back (.val 0)) := by simp only [Node.sel, hc, if_true]

theorem sel_back_neg {a b : Node} {c : Prop} (hc : ¬ c) (g : F) :
    (Node.sel c a b).back g = (a.back (.val 0)).add (b.back g) := by simp only [Node.sel, hc, if_false]

theorem Strict.sel {a b : Node} (c : Prop) (ha : Strict a) (hb : Strict b) : Strict (Node.sel c a b) := by
  unfold Strict
  by_cases hc : c
  · rw [sel_back_pos hc, ha, nan_add]
  · rw [sel_back_neg hc, hb, add_nan]

theorem Strict.over_left {a : Node} (b : Node) (h : Strict a) : Strict (a.over b) := by
  show (a.back (div .nan _)).add _ = _
  rw [nan_div, h, nan_add]

theorem Strict.over_right {b : Node} (a : Node) (h : Strict b) : Strict (a.over b) := by
  show (F.add _ (b.back (mul (mul _ .nan) _))) = _
  rw [mul_nan, nan_mul, h, add_nan]

theorem Strict.add_left {a : Node} (b : Node) (h : Strict a) : Strict (a.add b) := by
  show (a.back _).add _ = _
  rw [h, nan_add]

theorem Strict.add_right {b : Node} (a : Node) (h : Strict b) : Strict (a.add b) := by
  show (F.add _ (b.back _)) = _
  rw [h, add_nan]

theorem ndtr_strict {a : Node} (r f k : ℝ → ℝ) (h : Strict a) : Strict (ndtr r f k a) := by
  have h1 : Strict (((a.cast r).scale (r √0.5)).cast r) := Strict.scale (a := a.cast r) _ h
  have h2 : Strict (((Node.erfc k (((a.cast r).scale (r √0.5)).cast r).abs).scale 0.5).cast r) :=
    ((h1.abs.erfc k).scale 0.5 : Strict ((Node.erfc k (((a.cast r).scale (r √0.5)).cast r).abs).scale 0.5))
  exact Strict.sel _ ((h1.erf f).scale 0.5 : Strict ((Node.erf f (((a.cast r).scale (r √0.5)).cast r)).scale 0.5))
    (Strict.sel _ (h2.scale (-1)) h2)

theorem Dead.sel_right {b : Node} (c : Prop) (a : Node) (h : Dead b) : Dead (Node.sel c a b) := fun g => by
  show F.add _ (b.back _) = _
  rw [h, add_nan]

theorem Dead.sel_left {a : Node} (c : Prop) (b : Node) (h : Dead a) : Dead (Node.sel c a b) := fun g => by
  show F.add (a.back _) _ = _
  rw [h, nan_add]

theorem standardized_strict (w : Var) {c : ℝ} (v loc scale : ℝ) :
    Strict (standardized ((arg w .value v).shift c) (arg w .loc loc) (arg w .scale scale)) := by
  have hl : ∀ x, Strict (Node.leaf x) := fun _ => rfl
  cases w with
  | value => exact Strict.over_left _ (Strict.add_left _ (hl v : Strict ((Node.leaf v).shift c)))
  | loc => exact Strict.over_left _ (Strict.add_right _ ((hl loc).scale (-1)))
  | scale => exact Strict.over_right _ (hl scale)

theorem standardized_val (w : Var) {c v loc scale : ℝ} (hs : scale ≠ 0) :
    (standardized ((arg w .value v).shift c) (arg w .loc loc) (arg w .scale scale)).val = .val ((v + c - loc) / scale) := by
  have h : ∀ w' x, (arg w w' x).val = .val x := fun w' x => by unfold arg; split_ifs <;> rfl
  show div (((arg w .value v).val.add (.val c)).add (mul (.val (-1)) (arg w .loc loc).val)) (arg w .scale scale).val = _
  rw [h, h, h]
  show div (.val (v + c + -1 * loc)) (.val scale) = _
  rw [div_val hs]
  congr 2
  ring

/-- The series is evaluated at zero for the branch that is not taken: zero divided by zero. -/
theorem logNdtr_zero {d : Dtype} (hd : d ≠ .other) (r f k : ℝ → ℝ) {a : Node} (hv : a.val = .val 0) (hs : Strict a) :
    ∃ n, logNdtr r f k d a = .ok n ∧ Dead n := by
  obtain ⟨⟨m, n⟩, hmn, hm, hn⟩ : ∃ mn : ℝ × ℝ, thresholds d = .ok mn ∧ mn.1 < 0 ∧ 0 < mn.2 := by
    cases d with
    | float32 => exact ⟨_, rfl, by norm_num, by norm_num⟩
    | float64 => exact ⟨_, rfl, by norm_num, by norm_num⟩
    | other => exact absurd rfl hd
  refine ⟨_, by rw [logNdtr, hmn]; rfl, ?_⟩
  apply Dead.sel_right
  intro g
  have hlt : ¬ a.val.Lt (.val m) := by
    rw [hv]; exact not_lt.2 hm.le
  rw [sel_back_pos hlt]
  have : (series a).back (.val 0) = .nan := by
    show F.add (F.add _ (((a.scale (-1)).log.scale (-1)).back (.val 0))) _ = _
    have : ((a.scale (-1)).log.scale (-1)).back (.val 0) = .nan := by
      show (a.scale (-1)).back (div (.val (0 * -1)) (mul (.val (-1)) a.val)) = _
      rw [hv]
      show (a.scale (-1)).back (if -1 * (0 : ℝ) = 0 then infOf (0 * -1) else _) = _
      rw [if_pos (by norm_num), zero_mul, infOf_zero]
      exact hs.scale (-1)
    rw [this, add_nan, nan_add]
  rw [this, add_nan]

theorem logProb_dead {d : Dtype} {r f k : ℝ → ℝ} {v l s sfPos sfNeg cdfPos cdfNeg : Node}
    (h1 : logSf r f k d (v.shift 0.5) l s = .ok sfPos) (h2 : logSf r f k d (v.shift (-0.5)) l s = .ok sfNeg)
    (h3 : logCdf r f k d (v.shift 0.5) l s = .ok cdfPos) (h4 : logCdf r f k d (v.shift (-0.5)) l s = .ok cdfNeg)
    (h : Dead sfPos ∨ Dead cdfNeg) : ∃ n, logProb r f k d v l s = .ok n ∧ Dead n := by
  refine ⟨_, by rw [logProb, h1, h2, h3, h4]; rfl, fun g => ?_⟩
  have hb : Dead (Node.sel (sfPos.val.Lt cdfPos.val) sfPos cdfNeg) := by
    rcases h with h | h
    · exact h.sel_left _ _
    · exact h.sel_right _ _
  show F.add (F.add (Node.back (Node.sel (sfPos.val.Lt cdfPos.val) sfPos cdfNeg) _) _) _ = _
  rw [hb, nan_add, nan_add]

theorem logNdtr_ok {d : Dtype} (hd : d ≠ .other) (r f k : ℝ → ℝ) (a : Node) : ∃ n, logNdtr r f k d a = .ok n := by
  cases d with
  | float32 => exact ⟨_, rfl⟩
  | float64 => exact ⟨_, rfl⟩
  | other => exact absurd rfl hd

theorem logProb_ends {d : Dtype} (hd : d ≠ .other) (r f k : ℝ → ℝ) {v l s : Node}
    (h : (∃ n, logSf r f k d (v.shift 0.5) l s = .ok n ∧ Dead n) ∨
      ∃ n, logCdf r f k d (v.shift (-0.5)) l s = .ok n ∧ Dead n) :
    ∃ n, logProb r f k d v l s = .ok n ∧ Dead n := by
  obtain ⟨n1, h1⟩ := logNdtr_ok hd r f k ((standardized (v.shift 0.5) l s).scale (-1))
  obtain ⟨n2, h2⟩ := logNdtr_ok hd r f k ((standardized (v.shift (-0.5)) l s).scale (-1))
  obtain ⟨n3, h3⟩ := logNdtr_ok hd r f k (standardized (v.shift 0.5) l s)
  obtain ⟨n4, h4⟩ := logNdtr_ok hd r f k (standardized (v.shift (-0.5)) l s)
  rcases h with ⟨n, h, hn⟩ | ⟨n, h, hn⟩
  · exact logProb_dead h h2 h3 h4 (.inl hn)
  · exact logProb_dead h1 h2 h3 h (.inr hn)

/-- **C144 is violated at the mean.** Whatever the rounding and the error functions: the gradients of `log_cdf` and
`log_survival_function` of a normal distribution at its mean, by the value, by the mean and by the standard deviation, are
not-a-number; so is the gradient of `log_prob` half a unit above and half a unit below the mean. The derivatives exist: at the
mean of the standard normal distribution that of the logarithm of the distribution function is twice the density. -/
theorem C144_violated_zero {d : Dtype} (hd : d ≠ .other) (r f k : ℝ → ℝ) (w : Var) (loc scale : ℝ) (hs : scale ≠ 0) :
    (∃ n, logCdf r f k d (arg w .value loc) (arg w .loc loc) (arg w .scale scale) = .ok n ∧ n.grad = .nan) ∧
    (∃ n, logSf r f k d (arg w .value loc) (arg w .loc loc) (arg w .scale scale) = .ok n ∧ n.grad = .nan) ∧
    (∃ n, logProb r f k d (arg w .value (loc + 0.5)) (arg w .loc loc) (arg w .scale scale) = .ok n ∧ n.grad = .nan) ∧
    (∃ n, logProb r f k d (arg w .value (loc - 0.5)) (arg w .loc loc) (arg w .scale scale) = .ok n ∧ n.grad = .nan) ∧
    HasDerivAt (fun x => Real.log (Phi x)) (2 * phi 0) 0 := by
  have z : ∀ v c, v + c = loc → ∃ n, logCdf r f k d ((arg w .value v).shift c) (arg w .loc loc) (arg w .scale scale) = .ok n ∧
      Dead n := fun v c h => by
    refine logNdtr_zero hd r f k ?_ (standardized_strict w v loc scale)
    rw [standardized_val w hs, h, sub_self, zero_div]
  have z' : ∀ v c, v + c = loc → ∃ n, logSf r f k d ((arg w .value v).shift c) (arg w .loc loc) (arg w .scale scale) = .ok n ∧
      Dead n := fun v c h => by
    refine logNdtr_zero hd r f k ?_ ((standardized_strict w v loc scale).scale (-1))
    show mul _ (Node.val _) = _
    rw [standardized_val w hs, h, sub_self, zero_div]
    show F.val _ = _
    rw [mul_zero]
  have e0 : ∀ a : Node, ∀ x, a.val = .val x → a.shift 0 = a := fun a x hx => by
    cases a
    simp only at hx
    subst hx
    show Node.mk (F.val (x + 0)) _ = _
    rw [add_zero]
  have ev : ∀ x, (arg w .value x).val = .val x := fun x => by unfold arg; split_ifs <;> rfl
  refine ⟨?_, ?_, ?_, ?_, ?_⟩
  · obtain ⟨n, h1, h2⟩ := z loc 0 (add_zero _)
    rw [e0 _ _ (ev loc)] at h1
    exact ⟨n, h1, h2 _⟩
  · obtain ⟨n, h1, h2⟩ := z' loc 0 (add_zero _)
    rw [e0 _ _ (ev loc)] at h1
    exact ⟨n, h1, h2 _⟩
  · obtain ⟨n, h1, h2⟩ := logProb_ends hd r f k (.inr (z (loc + 0.5) (-0.5) (by ring)))
    exact ⟨n, h1, h2 _⟩
  · obtain ⟨n, h1, h2⟩ := logProb_ends hd r f k (.inl (z' (loc - 0.5) 0.5 (by ring)))
    exact ⟨n, h1, h2 _⟩
  · have := (hasDerivAt_Phi 0).log (Phi_pos 0).ne'
    rw [Phi_zero] at this
    convert this using 1
    ring

/-! ### Not-a-number in single precision -/

/-- Numbers close to one round to one. -/
theorem f32_one {w : ℝ} (h : |w - 1| ≤ 2 ^ (-26 : ℤ)) : f32 w = 1 := by
  have hb : (2 : ℝ) ^ (-26 : ℤ) = 1 / 67108864 := by norm_num
  rw [hb, abs_le] at h
  have hw : 0 < w := by linarith [h.1]
  rcases lt_or_ge w 1 with h1 | h1
  · have hl : Int.log 2 |w| = -1 := by
      rw [abs_of_pos hw]
      apply le_antisymm
      · have := (Int.lt_zpow_iff_log_lt (b := 2) (by norm_num) hw (x := 0)).1 (by simpa using h1)
        omega
      · exact (Int.zpow_le_iff_le_log (b := 2) (by norm_num) hw).1 (by push_cast; norm_num; linarith [h.1])
    have hu : ulp32 w = 2 ^ (-24 : ℤ) := by
      unfold ulp32
      rw [if_neg hw.ne', hl]
      norm_num
    have e : (2 : ℝ) ^ (-24 : ℤ) = 1 / 16777216 := by norm_num
    unfold f32
    rw [hu, e, roundHalfEven_of_near (w / (1 / 16777216)) 16777216]
    · norm_num
    · rw [abs_lt]
      push_cast
      constructor <;> (rw [div_div_eq_mul_div, div_one]; linarith [h.1, h.2])
  · have hl : Int.log 2 |w| = 0 := by
      rw [abs_of_pos hw]
      apply le_antisymm
      · have := (Int.lt_zpow_iff_log_lt (b := 2) (by norm_num) hw (x := 1)).1 (by push_cast; norm_num; linarith [h.2])
        omega
      · exact (Int.zpow_le_iff_le_log (b := 2) (by norm_num) hw).1 (by simpa using h1)
    have hu : ulp32 w = 2 ^ (-23 : ℤ) := by
      unfold ulp32
      rw [if_neg hw.ne', hl]
      norm_num
    have e : (2 : ℝ) ^ (-23 : ℤ) = 1 / 8388608 := by norm_num
    unfold f32
    rw [hu, e, roundHalfEven_of_near (w / (1 / 8388608)) 8388608]
    · norm_num
    · rw [abs_lt]
      push_cast
      constructor <;> (rw [div_div_eq_mul_div, div_one]; linarith [h.1, h.2])

/-- The complementary error function from 4.2 on. -/
theorem erfc_small {x : ℝ} (hx : 4.2 ≤ x) : 0 ≤ erfc x ∧ erfc x ≤ 2 ^ (-27 : ℤ) := by
  rw [erfc_eq]
  have hs : (1.4142 : ℝ) < √2 := by apply Real.lt_sqrt_of_sq_lt; norm_num
  have hsq : √2 ^ 2 = (2 : ℝ) := Real.sq_sqrt (by norm_num)
  set t := x * √2 with ht
  have ht1 : 5.9 ≤ t := by rw [ht]; nlinarith
  have ht2 : 35.28 ≤ t ^ 2 := by rw [ht, mul_pow, hsq]; nlinarith
  have hlt := Phi_lt_one t
  refine ⟨by linarith, ?_⟩
  have h := tail_upper (show 0 < t by linarith)
  have hb : t⁻¹ - (t ^ 3)⁻¹ + 3 * (t ^ 5)⁻¹ ≤ 1 / 4 := by
    have h1 : t⁻¹ ≤ 1 / 5 := by
      rw [inv_le_comm₀ (by linarith) (by norm_num)]; norm_num; linarith
    have h3 : 0 ≤ (t ^ 3)⁻¹ := by positivity
    have h5 : (t ^ 5)⁻¹ ≤ 1 / 60 := by
      rw [inv_le_comm₀ (by positivity) (by norm_num)]
      have : (60 : ℝ) ≤ t ^ 5 := by
        calc (60 : ℝ) ≤ 5 ^ 5 := by norm_num
          _ ≤ t ^ 5 := pow_le_pow_left₀ (by norm_num) (by linarith) 5
      norm_num
      linarith
    linarith
  have hphi : phi t ≤ 1 / 2 * 2 ^ (-25 : ℤ) := by
    unfold phi
    have hpi : (√(2 * π))⁻¹ ≤ 1 / 2 := by
      rw [inv_le_comm₀ (by positivity) (by norm_num)]
      apply Real.le_sqrt_of_sq_le
      norm_num
      linarith [Real.pi_gt_three]
    have hexp : exp (-t ^ 2 / 2) ≤ 2 ^ (-25 : ℤ) := by
      rw [show (2 : ℝ) ^ (-25 : ℤ) = exp (Real.log 2 * ((-25 : ℤ) : ℝ)) by
        rw [← Real.rpow_intCast, Real.rpow_def_of_pos (by norm_num)]]
      apply Real.exp_le_exp.2
      have := Real.log_two_lt_d9
      push_cast
      linarith
    exact mul_le_mul hpi hexp (exp_pos _).le (by norm_num)
  have hp := phi_pos t
  have e1 : (1 / 2 : ℝ) * 2 ^ (-25 : ℤ) = 1 / 67108864 := by norm_num
  have e : (2 : ℝ) ^ (-27 : ℤ) = 1 / 134217728 := by norm_num
  rw [e1] at hphi
  rw [e]
  nlinarith

/-- From six standard deviations on the distribution function rounds to one. -/
theorem ndtr_one {f k : ℝ → ℝ} (h : Accurate k erfc) {a : Node} {x : ℝ} (ha : a.val = .val x) (hx : 6 ≤ x) :
    (ndtr f32 f k a).val = .val 1 := by
  have hx1 := f32_rel' (x := x) (by rw [abs_of_pos (by linarith)]; linarith)
  rw [abs_of_pos (show 0 < x by linarith), abs_le] at hx1
  have hx2 : 5.99 ≤ f32 x := by nlinarith [hx1.1]
  obtain ⟨s1, s2⟩ := f32_sqrt_half
  have hp : 4.23 ≤ f32 √0.5 * f32 x := by nlinarith
  have hz := f32_rel' (x := f32 √0.5 * f32 x) (by rw [abs_of_pos (by linarith)]; linarith)
  rw [abs_of_pos (show 0 < f32 √0.5 * f32 x by linarith), abs_le] at hz
  set z := f32 (f32 √0.5 * f32 x) with hzd
  have hz1 : 4.2 ≤ z := by nlinarith [hz.1]
  have habs : |z| = z := abs_of_pos (by linarith)
  have v0 : (((a.cast f32).scale (f32 √0.5)).cast f32).val = .val z := by
    show onVal f32 (mul (.val (f32 √0.5)) (onVal f32 a.val)) = _
    rw [ha]; rfl
  have v1 : (((a.cast f32).scale (f32 √0.5)).cast f32).abs.val = .val z := by
    show onVal _ (Node.val _) = _
    rw [v0]
    show F.val |z| = _
    rw [habs]
  have hval : (ndtr f32 f k a).val = .val (f32 (-1 * f32 (0.5 * k z) + 1)) := by
    unfold ndtr
    simp only [Node.sel]
    rw [v1, v0, if_neg (show ¬ (F.val z).Lt (.val (f32 √0.5)) from not_lt.2 (by linarith)),
      if_pos (show (F.val 0).Lt (.val z) from (by linarith : (0 : ℝ) < z))]
    show onVal f32 (F.add (mul (.val (-1)) (onVal f32 (mul (.val 0.5) (onVal k (Node.val _))))) (.val 1)) = _
    rw [v1]; rfl
  rw [hval]
  congr 1
  apply f32_one
  obtain ⟨-, hk⟩ := h z
  obtain ⟨c1, c2⟩ := erfc_small hz1
  rw [abs_of_nonneg c1] at hk
  have b27 : (2 : ℝ) ^ (-27 : ℤ) = 1 / 134217728 := by norm_num
  have b23 : (2 : ℝ) ^ (-23 : ℤ) = 1 / 8388608 := by norm_num
  have b26 : (2 : ℝ) ^ (-26 : ℤ) = 1 / 67108864 := by norm_num
  have b149 : (2 : ℝ) ^ (-149 : ℤ) ≤ 1 / 1000000000000 := by norm_num
  have b0 : (0 : ℝ) < 2 ^ (-149 : ℤ) := by positivity
  have hn := f32_near (0.5 * k z)
  have hu := ulp32_le (0.5 * k z)
  rw [b27] at c2
  rw [b23] at hk hu
  rw [b26]
  generalize (2 : ℝ) ^ (-149 : ℤ) = u at *
  have hk2 : |k z| ≤ 1 / 100000000 := by
    rw [abs_le] at hk ⊢
    constructor <;> linarith [hk.1, hk.2]
  have hk3 : |0.5 * k z| ≤ 1 / 200000000 := by
    rw [abs_mul, abs_of_pos (by norm_num)]; linarith
  have hf : |f32 (0.5 * k z)| ≤ 1 / 100000000 := by
    have h1 : |f32 (0.5 * k z)| ≤ |f32 (0.5 * k z) - 0.5 * k z| + |0.5 * k z| := by
      have := abs_add_le (f32 (0.5 * k z) - 0.5 * k z) (0.5 * k z)
      simpa using this
    linarith
  rw [show -1 * f32 (0.5 * k z) + 1 - 1 = -f32 (0.5 * k z) by ring, abs_neg]
  linarith

/-- Six standard deviations below the mean the branch that is not taken divides zero by zero. -/
theorem logNdtr_dead {d : Dtype} (hd : d ≠ .other) {f k : ℝ → ℝ} (hk : Accurate k erfc) {a : Node} {x : ℝ}
    (ha : a.val = .val x) (hx : x ≤ -6) (hs : Strict a) : ∃ n, logNdtr f32 f k d a = .ok n ∧ Dead n := by
  obtain ⟨⟨m, n⟩, hmn, hn⟩ : ∃ mn : ℝ × ℝ, thresholds d = .ok mn ∧ 0 < mn.2 := by
    cases d with
    | float32 => exact ⟨_, rfl, by norm_num⟩
    | float64 => exact ⟨_, rfl, by norm_num⟩
    | other => exact absurd rfl hd
  refine ⟨_, by rw [logNdtr, hmn]; rfl, fun g => ?_⟩
  have hlt : ¬ (F.val n).Lt a.val := by
    rw [ha]; exact not_lt.2 (by linarith : x ≤ n)
  rw [sel_back_neg hlt]
  have h1 : (a.scale (-1)).val = .val (-1 * x) := by
    show mul _ a.val = _
    rw [ha]; rfl
  have h2 := ndtr_one (f := f) hk h1 (by linarith)
  have h3 : Strict ((ndtr f32 f k (a.scale (-1))).scale (-1)) := (ndtr_strict _ _ _ (hs.scale _)).scale _
  have : (((ndtr f32 f k (a.scale (-1))).scale (-1)).log1p).back (.val 0) = .nan := by
    show ((ndtr f32 f k (a.scale (-1))).scale (-1)).back (div (.val 0) ((mul (.val (-1)) (Node.val _)).add (.val 1))) = _
    rw [h2]
    show ((ndtr f32 f k (a.scale (-1))).scale (-1)).back (if (-1 * 1 + 1 : ℝ) = 0 then infOf 0 else _) = _
    rw [if_pos (by norm_num), infOf_zero]
    exact h3
  rw [this, nan_add]

/-- **C144 is violated in the tails.** `ndtr` computes in single precision, whatever accurate error functions torch has: six or more
standard deviations below the mean the gradient of `log_ndtr` is not-a-number. -/
theorem C144_violated_tail {d : Dtype} (hd : d ≠ .other) {f k : ℝ → ℝ} (hk : Accurate k erfc) (x : ℝ) (hx : x ≤ -6) :
    ∃ n, logNdtr f32 f k d (Node.leaf x) = .ok n ∧ n.grad = .nan := by
  obtain ⟨n, h1, h2⟩ := logNdtr_dead hd hk (a := Node.leaf x) (x := x) (f := f) rfl hx rfl
  exact ⟨n, h1, h2 _⟩

/-- **C144 is violated for `log_prob`.** In single precision: when the upper end of the interval around the value is at least six
standard deviations above the mean, or its lower end six below, the gradients of `log_prob` by the value, the mean and the standard
deviation are not-a-number. If the standard deviation is at most a twelfth, that is so at every value: such a
distribution cannot be trained. -/
theorem C144_violated_log_prob {d : Dtype} (hd : d ≠ .other) {f k : ℝ → ℝ} (hk : Accurate k erfc) (w : Var)
    (v loc scale : ℝ) (hs : 0 < scale)
    (h : 6 ≤ (v + 1 / 2 - loc) / scale ∨ (v - 1 / 2 - loc) / scale ≤ -6 ∨ scale ≤ 1 / 12) :
    ∃ n, logProb f32 f k d (arg w .value v) (arg w .loc loc) (arg w .scale scale) = .ok n ∧ n.grad = .nan := by
  have h' : 6 ≤ (v + 1 / 2 - loc) / scale ∨ (v - 1 / 2 - loc) / scale ≤ -6 := by
    rcases h with h | h | h
    · exact .inl h
    · exact .inr h
    · by_contra hc
      push Not at hc
      have e : (v + 1 / 2 - loc) / scale - (v - 1 / 2 - loc) / scale = 1 / scale := by
        rw [← sub_div]; ring
      have : 12 ≤ 1 / scale := by
        rw [le_div_iff₀ hs]; linarith
      linarith
  have key : ∃ n, logProb f32 f k d (arg w .value v) (arg w .loc loc) (arg w .scale scale) = .ok n ∧ Dead n := by
    refine logProb_ends hd f32 f k ?_
    rcases h' with h | h
    · refine .inl (logNdtr_dead hd hk (x := -1 * ((v + 0.5 - loc) / scale)) ?_ ?_
        ((standardized_strict w v loc scale).scale (-1)))
      · show mul _ (Node.val _) = _
        rw [standardized_val w hs.ne']; rfl
      · have : (v + 0.5 - loc) / scale = (v + 1 / 2 - loc) / scale := by norm_num
        rw [this]; linarith
    · refine .inr (logNdtr_dead hd hk (standardized_val w hs.ne') ?_ (standardized_strict w v loc scale))
      have : (v + -0.5 - loc) / scale = (v - 1 / 2 - loc) / scale := by congr 2; norm_num; ring
      rw [this]; exact h
  obtain ⟨n, h1, h2⟩ := key
  exact ⟨n, h1, h2 _⟩

/-- Neither statement is vacuous: accurate error functions exist, and a standard deviation of a twentieth. -/
example : ∃ n, logProb f32 (fun x => f32 (erf x)) (fun x => f32 (erfc x)) .float32 (arg .loc .value 3) (arg .loc .loc 3)
    (arg .loc .scale (1 / 20)) = .ok n ∧ n.grad = .nan :=
  C144_violated_log_prob (by decide) (accurate_round erfc) .loc 3 3 (1 / 20) (by norm_num) (.inr (.inr (by norm_num)))

/-! ### The logarithm of the exponential minus one -/

/-- **C144 (log_expm1).** With numbers up to `big`, at least `e ^ 15`: at every positive number but 15 the gradient of `log_expm1` is the derivative
of the value that it returns, `log (e ^ x - 1)` below 15 and `x` above; at 15 it is one. The exponential of a large number
is infinite, but does not reach the gradient. -/
theorem C144_log_expm1 {big : ℝ} (hb : exp 15 ≤ big) (x : ℝ) (hx : 0 < x) :
    (x < 15 → (logExpm1 big (Node.leaf x)).val = .val (Real.log (exp x - 1)) ∧
      ∃ g, (logExpm1 big (Node.leaf x)).grad = .val g ∧ HasDerivAt (fun t => Real.log (exp t - 1)) g x) ∧
    (15 ≤ x → (logExpm1 big (Node.leaf x)).val = .val x ∧ (logExpm1 big (Node.leaf x)).grad = .val 1) := by
  have hpos : 0 < exp (min x 15) - 1 := by
    have h2 : 0 < min x 15 := lt_min hx (by norm_num)
    have := Real.add_one_lt_exp h2.ne'
    linarith
  have hle : exp (min x 15) ≤ big := (Real.exp_le_exp.2 (min_le_right _ _)).trans hb
  have hv : (((Node.leaf x).minc 15).expm1 big).val = .val (exp (min x 15) - 1) := by
    show (if exp (min x 15) ≤ big then F.val (exp (min x 15) - 1) else .posInf) = _
    rw [if_pos hle]
  have hback : ∀ g : ℝ, ((((Node.leaf x).minc 15).expm1 big).log).back (.val g) =
      ((Node.leaf x).minc 15).back (.val (g / (exp (min x 15) - 1) * exp (min x 15))) := fun g => by
    show ((Node.leaf x).minc 15).back (mul (div (.val g) (((Node.leaf x).minc 15).expm1 big).val)
      ((((Node.leaf x).minc 15).expm1 big).val.add (.val 1))) = _
    rw [hv, div_val hpos.ne']
    show ((Node.leaf x).minc 15).back (.val (g / (exp (min x 15) - 1) * (exp (min x 15) - 1 + 1))) = _
    rw [sub_add_cancel]
  constructor
  · intro h
    have hm : min x 15 = x := min_eq_left h.le
    rw [hm] at hback hv hpos
    have ht : Tracks (((Node.leaf x).minc 15).expm1 big).log (fun t => Real.log (exp t - 1)) x := by
      refine ⟨exp x / (exp x - 1), ?_, fun g => ?_, ?_⟩
      · show logF (Node.val _) = _
        rw [hv, logF_val hpos]
      · rw [hback]
        show (if x = 15 then _ else if x < 15 then F.val _ else _) = _
        rw [if_neg h.ne, if_pos h]
        congr 1
        ring
      · exact ((Real.hasDerivAt_exp x).sub_const 1).log hpos.ne'
    have := Tracks.sel_pos (b := Node.leaf x) (show (Node.leaf x).val.Lt (.val 15) from h) ht rfl
    exact ⟨this.value, this.grad⟩
  · intro h
    have hq : Quiet (((Node.leaf x).minc 15).expm1 big).log := by
      unfold Quiet
      rw [hback, zero_div, zero_mul]
      show (if x = 15 then div (.val 0) (.val 2) else if x < 15 then F.val 0 else .val 0) = _
      rw [ite_self, div_val (by norm_num), zero_div, ite_self]
    have := Tracks.sel_neg (b := Node.leaf x) (show ¬ (Node.leaf x).val.Lt (.val 15) from not_lt.2 h) hq (tracks_leaf x)
    refine ⟨this.value, ?_⟩
    obtain ⟨g, h1, h2⟩ := this.grad
    rw [show (logExpm1 big (Node.leaf x)).grad = .val g from h1, h2.unique (hasDerivAt_id x)]

end Verif.Functional.Gradients
