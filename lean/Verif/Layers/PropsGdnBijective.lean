import Verif.Layers.GdnTrain
import Verif.Layers.PropsNorm
import Mathlib.LinearAlgebra.FiniteDimensional.Basic
import Mathlib.Tactic.Linarith
import Mathlib.Tactic.Ring
import Mathlib.Tactic.FieldSimp

/-!
C149: GDN layers lose nothing.  The statements use the layers of `Layers/Norm.lean` and `Layers/GdnTrain.lean` only.
-/

namespace Verif.Layers.GdnBijective

open Verif.Layers.Norm

variable {C P : ℕ}

/-! ### Uniqueness by comparison of ratios -/

/-- Two vectors without negative entries and with the same zeros are equal, if every common bound on their ratios can be
improved. -/
theorem eq_of_ratios (u v : Fin C → ℝ) (hu : ∀ i, 0 ≤ u i) (hv : ∀ i, 0 ≤ v i) (hz : ∀ i, u i = 0 ↔ v i = 0)
    (h : ∀ t : ℝ, 1 < t → (∀ j, u j ≤ t * v j ∧ v j ≤ t * u j) → ∀ i, 0 < v i → u i < t * v i ∧ v i < t * u i) :
    u = v := by
  have hpos : ∀ i, 0 < v i ↔ 0 < u i := fun i =>
    ⟨fun h => lt_of_le_of_ne (hu i) fun e => h.ne' ((hz i).1 e.symm),
      fun h => lt_of_le_of_ne (hv i) fun e => h.ne' ((hz i).2 e.symm)⟩
  set s : Finset (Fin C) := Finset.univ.filter fun i => 0 < v i with hs
  by_cases hne : s.Nonempty
  · obtain ⟨m, hm, hmax⟩ := s.exists_max_image (fun i => max (u i / v i) (v i / u i)) hne
    have hvm : 0 < v m := (Finset.mem_filter.1 hm).2
    have hum : 0 < u m := (hpos m).1 hvm
    set t := max (u m / v m) (v m / u m) with ht
    have hb : ∀ j, u j ≤ t * v j ∧ v j ≤ t * u j := by
      intro j
      rcases (hv j).lt_or_eq with hj | hj
      · have h1 := hmax j (Finset.mem_filter.2 ⟨Finset.mem_univ j, hj⟩)
        have hj' := (hpos j).1 hj
        exact ⟨(div_le_iff₀ hj).1 ((le_max_left _ _).trans h1), (div_le_iff₀ hj').1 ((le_max_right _ _).trans h1)⟩
      · rw [← hj, (hz j).2 hj.symm]; simp
    rcases lt_or_ge 1 t with h1 | h1
    · obtain ⟨a, b⟩ := h t h1 hb m hvm
      have : t < t := by
        conv_lhs => rw [ht]
        exact max_lt ((div_lt_iff₀ hvm).2 a) ((div_lt_iff₀ hum).2 b)
      exact absurd this (lt_irrefl _)
    · funext j
      have := hb j
      exact le_antisymm (this.1.trans (by nlinarith [hv j])) (this.2.trans (by nlinarith [hu j]))
  · funext j
    have : ¬ 0 < v j := fun h => hne ⟨j, Finset.mem_filter.2 ⟨Finset.mem_univ j, h⟩⟩
    have hj : v j = 0 := le_antisymm (not_lt.1 this) (hv j)
    rw [hj, (hz j).2 hj]

/-- The divisor of a layer as a function of the absolute values. -/
theorem norm_clamp (g : Gdn C) (x : Fin C → ℝ) (i : Fin C) :
    g.clamp.norm x i = ∑ j, max (g.gamma i j) 0 * |x j| + max (g.beta i) g.betaMin := rfl

theorem beta_pos (g : Gdn C) (hb : 0 < g.betaMin) (i : Fin C) : 0 < max (g.beta i) g.betaMin :=
  lt_of_lt_of_le hb (le_max_right _ _)

/-- A positive constant plus a weighted sum, of which the sum grows by a factor of at most `t`. -/
theorem grow (γ : Fin C → ℝ) (hγ : ∀ j, 0 ≤ γ j) (β : ℝ) (hβ : 0 < β) (u v : Fin C → ℝ) (t : ℝ) (ht : 1 < t)
    (h : ∀ j, u j ≤ t * v j) : ∑ j, γ j * u j + β < t * (∑ j, γ j * v j + β) := by
  have : ∑ j, γ j * u j ≤ t * ∑ j, γ j * v j := by
    rw [Finset.mul_sum]
    exact Finset.sum_le_sum fun j _ => by nlinarith [hγ j, h j, mul_le_mul_of_nonneg_left (h j) (hγ j)]
  nlinarith

theorem sum_nonneg' (γ : Fin C → ℝ) (hγ : ∀ j, 0 ≤ γ j) (u : Fin C → ℝ) (hu : ∀ j, 0 ≤ u j) : 0 ≤ ∑ j, γ j * u j :=
  Finset.sum_nonneg fun j _ => mul_nonneg (hγ j) (hu j)

theorem clamp_clamp (g : Gdn C) : g.clamp.clamp = g.clamp := by
  unfold Gdn.clamp
  congr 1
  · funext i j; exact max_eq_left (le_max_right _ _)
  · funext i; exact max_eq_left (le_max_right _ _)

theorem call_forward (g : Gdn C) (x : Fin P → Fin C → ℝ) (p : Fin P) : (GdnTrain.call false g x).2 p = (g.forward (x p)).2 := by
  show (fun i => x p i / g.clamp.clamp.norm (x p) i) = fun i => x p i / g.clamp.norm (x p) i
  rw [clamp_clamp]

theorem call_inverse (g : Gdn C) (x : Fin P → Fin C → ℝ) (p : Fin P) : (GdnTrain.call true g x).2 p = (g.inverse (x p)).2 := by
  show (fun i => x p i * g.clamp.clamp.norm (x p) i) = fun i => x p i * g.clamp.norm (x p) i
  rw [clamp_clamp]

/-! ### C149 -/

/-- GDN at one pixel is injective. -/
theorem forward_injective (g : Gdn C) (hb : 0 < g.betaMin) : Function.Injective fun x => (g.forward x).2 := by
  intro x y hxy
  have e : ∀ i, x i / g.clamp.norm x i = y i / g.clamp.norm y i := fun i => congrFun hxy i
  have hx : ∀ i, 0 < g.clamp.norm x i := fun i => lt_of_lt_of_le hb (norm_ge g x i)
  have hy : ∀ i, 0 < g.clamp.norm y i := fun i => lt_of_lt_of_le hb (norm_ge g y i)
  have ea : ∀ i, |x i| * g.clamp.norm y i = |y i| * g.clamp.norm x i := by
    intro i
    have := congrArg abs (e i)
    rw [abs_div, abs_div, abs_of_pos (hx i), abs_of_pos (hy i), div_eq_div_iff (hx i).ne' (hy i).ne'] at this
    exact this
  have habs : (fun i => |x i|) = fun i => |y i| := by
    refine eq_of_ratios _ _ (fun i => abs_nonneg _) (fun i => abs_nonneg _) (fun i => ?_) fun t ht h i hi => ?_
    · constructor
      · intro h
        have := ea i
        rw [h, zero_mul] at this
        exact (mul_eq_zero.1 this.symm).resolve_right (hx i).ne'
      · intro h
        have := ea i
        rw [h, zero_mul] at this
        exact (mul_eq_zero.1 this).resolve_right (hy i).ne'
    · have g1 := grow (fun j => max (g.gamma i j) 0) (fun j => le_max_right _ _) _ (beta_pos g hb i)
        (fun j => |x j|) (fun j => |y j|) t ht fun j => (h j).1
      have g2 := grow (fun j => max (g.gamma i j) 0) (fun j => le_max_right _ _) _ (beta_pos g hb i)
        (fun j => |y j|) (fun j => |x j|) t ht fun j => (h j).2
      rw [← norm_clamp, ← norm_clamp] at g1 g2
      have hxi : 0 < |x i| := by
        rcases (abs_nonneg (x i)).lt_or_eq with h0 | h0
        · exact h0
        · have := ea i
          rw [← h0, zero_mul] at this
          exact absurd ((mul_eq_zero.1 this.symm).resolve_right (hx i).ne') hi.ne'
      have := ea i
      constructor
      · by_contra hc
        push Not at hc
        nlinarith [mul_lt_mul_of_pos_left g1 hi, mul_le_mul_of_nonneg_right hc (hy i).le]
      · by_contra hc
        push Not at hc
        nlinarith [mul_lt_mul_of_pos_left g2 hxi, mul_le_mul_of_nonneg_right hc (hx i).le]
  have hn : ∀ i, g.clamp.norm x i = g.clamp.norm y i := fun i => by
    rw [norm_clamp, norm_clamp]
    simp only [fun j => congrFun habs j]
  funext i
  have := e i
  rw [hn i] at this
  exact (div_left_inj' (hy i).ne').1 this

/-- Inverse GDN at one pixel is injective. -/
theorem inverse_injective (g : Gdn C) (hb : 0 < g.betaMin) : Function.Injective fun x => (g.inverse x).2 := by
  intro x y hxy
  have e : ∀ i, x i * g.clamp.norm x i = y i * g.clamp.norm y i := fun i => congrFun hxy i
  have hx : ∀ i, 0 < g.clamp.norm x i := fun i => lt_of_lt_of_le hb (norm_ge g x i)
  have hy : ∀ i, 0 < g.clamp.norm y i := fun i => lt_of_lt_of_le hb (norm_ge g y i)
  have ea : ∀ i, |x i| * g.clamp.norm x i = |y i| * g.clamp.norm y i := by
    intro i
    have := congrArg abs (e i)
    rwa [abs_mul, abs_mul, abs_of_pos (hx i), abs_of_pos (hy i)] at this
  have habs : (fun i => |x i|) = fun i => |y i| := by
    refine eq_of_ratios _ _ (fun i => abs_nonneg _) (fun i => abs_nonneg _) (fun i => ?_) fun t ht h i hi => ?_
    · constructor
      · intro h
        have := ea i
        rw [h, zero_mul] at this
        exact (mul_eq_zero.1 this.symm).resolve_right (hy i).ne'
      · intro h
        have := ea i
        rw [h, zero_mul] at this
        exact (mul_eq_zero.1 this).resolve_right (hx i).ne'
    · have g1 := grow (fun j => max (g.gamma i j) 0) (fun j => le_max_right _ _) _ (beta_pos g hb i)
        (fun j => |x j|) (fun j => |y j|) t ht fun j => (h j).1
      have g2 := grow (fun j => max (g.gamma i j) 0) (fun j => le_max_right _ _) _ (beta_pos g hb i)
        (fun j => |y j|) (fun j => |x j|) t ht fun j => (h j).2
      rw [← norm_clamp, ← norm_clamp] at g1 g2
      have hxi : 0 < |x i| := by
        rcases (abs_nonneg (x i)).lt_or_eq with h0 | h0
        · exact h0
        · have := ea i
          rw [← h0, zero_mul] at this
          exact absurd ((mul_eq_zero.1 this.symm).resolve_right (hy i).ne') hi.ne'
      have := ea i
      constructor
      · by_contra hc
        push Not at hc
        nlinarith [mul_lt_mul_of_pos_left g2 hi, mul_le_mul_of_nonneg_right hc (hx i).le]
      · by_contra hc
        push Not at hc
        nlinarith [mul_lt_mul_of_pos_left g1 hxi, mul_le_mul_of_nonneg_right hc (hy i).le]
  have hn : ∀ i, g.clamp.norm x i = g.clamp.norm y i := fun i => by
    rw [norm_clamp, norm_clamp]
    simp only [fun j => congrFun habs j]
  funext i
  have := e i
  rw [hn i] at this
  exact mul_right_cancel₀ (hy i).ne' this

/-- Vectors without negative entries that divide to given values. -/
theorem exists_fixed (γ : Fin C → Fin C → ℝ) (hγ : ∀ i j, 0 ≤ γ i j) (β : Fin C → ℝ) (hβ : ∀ i, 0 < β i)
    (a : Fin C → ℝ) (ha : ∀ i, 0 ≤ a i) :
    ∃ u : Fin C → ℝ, (∀ i, 0 ≤ u i) ∧ ∀ i, u i * (∑ j, γ i j * u j + β i) = a i := by
  set T : (Fin C → ℝ) → Fin C → ℝ := fun u i => a i / (∑ j, γ i j * u j + β i) with hT
  have hd : ∀ u : Fin C → ℝ, (∀ i, 0 ≤ u i) → ∀ i, 0 < ∑ j, γ i j * u j + β i := fun u hu i =>
    add_pos_of_nonneg_of_pos (sum_nonneg' _ (hγ i) u hu) (hβ i)
  have T0 : ∀ u, (∀ i, 0 ≤ u i) → ∀ i, 0 ≤ T u i := fun u hu i => div_nonneg (ha i) (hd u hu i).le
  have anti : ∀ u v, (∀ i, 0 ≤ u i) → (∀ i, u i ≤ v i) → ∀ i, T v i ≤ T u i := by
    intro u v hu huv i
    refine div_le_div_of_nonneg_left (ha i) (hd u hu i) ?_
    have := Finset.sum_le_sum fun (j : Fin C) (_ : j ∈ Finset.univ) => mul_le_mul_of_nonneg_left (huv j) (hγ i j)
    linarith
  have mono : ∀ u v, (∀ i, 0 ≤ u i) → (∀ i, u i ≤ v i) → ∀ i, T (T u) i ≤ T (T v) i := fun u v hu huv =>
    anti (T v) (T u) (T0 v fun i => (hu i).trans (huv i)) (anti u v hu huv)
  set S : Set (Fin C → ℝ) := {u | (∀ i, 0 ≤ u i) ∧ ∀ i, u i ≤ T (T u) i} with hS
  have top : ∀ u, (∀ i, 0 ≤ u i) → ∀ i, T u i ≤ T 0 i := fun u hu => anti 0 u (fun _ => le_refl _) hu
  have hbdd : ∀ u ∈ S, ∀ i, u i ≤ T 0 i := fun u hu i => (hu.2 i).trans (top (T u) (T0 u hu.1) i)
  have zero_mem : (0 : Fin C → ℝ) ∈ S := ⟨fun _ => le_refl _, fun i => T0 _ (T0 0 fun _ => le_refl _) i⟩
  set p : Fin C → ℝ := fun i => sSup ((fun u : Fin C → ℝ => u i) '' S) with hp
  have hbb : ∀ i, BddAbove ((fun u : Fin C → ℝ => u i) '' S) := fun i =>
    ⟨T 0 i, by rintro _ ⟨u, hu, rfl⟩; exact hbdd u hu i⟩
  have le_p : ∀ u ∈ S, ∀ i, u i ≤ p i := fun u hu i => le_csSup (hbb i) ⟨u, hu, rfl⟩
  have p0 : ∀ i, 0 ≤ p i := fun i => le_p 0 zero_mem i
  have p1 : ∀ i, p i ≤ T (T p) i := by
    intro i
    refine csSup_le ⟨_, 0, zero_mem, rfl⟩ ?_
    rintro _ ⟨u, hu, rfl⟩
    exact (hu.2 i).trans (mono u p hu.1 (le_p u hu) i)
  have p2 : ∀ i, T (T p) i ≤ p i := le_p _ ⟨T0 _ (T0 p p0), mono p _ p0 p1⟩
  have hfix : ∀ i, T (T p) i = p i := fun i => le_antisymm (p2 i) (p1 i)
  set q := T p with hq
  have q0 : ∀ i, 0 ≤ q i := T0 p p0
  have eq : ∀ i, q i * (∑ j, γ i j * p j + β i) = a i := fun i => div_mul_cancel₀ _ (hd p p0 i).ne'
  have ep : ∀ i, p i * (∑ j, γ i j * q j + β i) = a i := fun i => by
    rw [← hfix i]; exact div_mul_cancel₀ _ (hd q q0 i).ne'
  have hpq : p = q := by
    refine eq_of_ratios p q p0 q0 (fun i => ?_) fun t ht h i hi => ?_
    · constructor
      · intro h
        have := (ep i).trans (eq i).symm
        rw [h, zero_mul] at this
        exact (mul_eq_zero.1 this.symm).resolve_right (hd p p0 i).ne'
      · intro h
        have := (ep i).trans (eq i).symm
        rw [h, zero_mul] at this
        exact (mul_eq_zero.1 this).resolve_right (hd q q0 i).ne'
    · have g1 := grow (γ i) (hγ i) (β i) (hβ i) p q t ht fun j => (h j).1
      have g2 := grow (γ i) (hγ i) (β i) (hβ i) q p t ht fun j => (h j).2
      have e := (ep i).trans (eq i).symm
      have hpi : 0 < p i := by
        rcases (p0 i).lt_or_eq with h0 | h0
        · exact h0
        · rw [← h0, zero_mul] at e
          exact absurd ((mul_eq_zero.1 e.symm).resolve_right (hd p p0 i).ne') hi.ne'
      constructor
      · by_contra hc
        push Not at hc
        nlinarith [mul_lt_mul_of_pos_left g1 hi, mul_le_mul_of_nonneg_right hc (hd q q0 i).le]
      · by_contra hc
        push Not at hc
        nlinarith [mul_lt_mul_of_pos_left g2 hpi, mul_le_mul_of_nonneg_right hc (hd p p0 i).le]
  refine ⟨p, p0, fun i => ?_⟩
  have := ep i
  rwa [← hpq] at this

/-- Inverse GDN at one pixel is surjective. -/
theorem inverse_surjective (g : Gdn C) (hb : 0 < g.betaMin) : Function.Surjective fun x => (g.inverse x).2 := by
  intro y
  obtain ⟨u, hu, h⟩ := exists_fixed (fun i j => max (g.gamma i j) 0) (fun i j => le_max_right _ _)
    (fun i => max (g.beta i) g.betaMin) (beta_pos g hb) (fun i => |y i|) fun i => abs_nonneg _
  refine ⟨fun i => if 0 ≤ y i then u i else -u i, ?_⟩
  have habs : ∀ j, |if 0 ≤ y j then u j else -u j| = u j := by
    intro j
    split
    · exact abs_of_nonneg (hu j)
    · rw [abs_neg]; exact abs_of_nonneg (hu j)
  funext i
  show (if 0 ≤ y i then u i else -u i) * g.clamp.norm _ i = y i
  rw [norm_clamp]
  simp only [habs]
  have := h i
  split
  · next h0 => rw [this, abs_of_nonneg h0]
  · next h0 => rw [neg_mul, this, abs_of_neg (not_le.1 h0), neg_neg]

/-- **C149, GDN.** For all parameters, two images of any size that differ give outputs that differ: the layer loses
nothing. -/
theorem C149_gdn (g : Gdn C) (hb : 0 < g.betaMin) :
    Function.Injective fun x : Fin P → Fin C → ℝ => (GdnTrain.call false g x).2 := by
  intro x y h
  funext p
  exact forward_injective g hb ((call_forward g x p).symm.trans ((congrFun h p).trans (call_forward g y p)))

/-- **C149, inverse GDN.** For all parameters, every image is the output of exactly one image. -/
theorem C149_inverse (g : Gdn C) (hb : 0 < g.betaMin) :
    Function.Bijective fun x : Fin P → Fin C → ℝ => (GdnTrain.call true g x).2 := by
  constructor
  · intro x y h
    funext p
    exact inverse_injective g hb ((call_inverse g x p).symm.trans ((congrFun h p).trans (call_inverse g y p)))
  · intro y
    choose x hx using fun p => inverse_surjective g hb (y p)
    exact ⟨x, funext fun p => (call_inverse g x p).trans (hx p)⟩

/-- **C149, outputs of GDN.** Every image whose values are below the reciprocal of the sum of the weights of their channel is
an output of the layer, for all parameters. -/
theorem C149_onto (g : Gdn C) (hb : 0 < g.betaMin) (z : Fin P → Fin C → ℝ)
    (hz : ∀ p i, |z p i| * ∑ j, max (g.gamma i j) 0 < 1) :
    ∃ x : Fin P → Fin C → ℝ, (GdnTrain.call false g x).2 = z := by
  have one : ∀ z : Fin C → ℝ, (∀ i, |z i| * ∑ j, max (g.gamma i j) 0 < 1) → ∃ x, (g.forward x).2 = z := by
    intro z hz
    set M : Fin C → Fin C → ℝ := fun i j => |z i| * max (g.gamma i j) 0 with hM
    have M0 : ∀ i j, 0 ≤ M i j := fun i j => mul_nonneg (abs_nonneg _) (le_max_right _ _)
    have M1 : ∀ i, ∑ j, M i j < 1 := fun i => by rw [hM, ← Finset.mul_sum]; exact hz i
    set L : (Fin C → ℝ) →ₗ[ℝ] (Fin C → ℝ) :=
      { toFun := fun u i => u i - ∑ j, M i j * u j
        map_add' := fun u v => by
          funext i
          simp only [Pi.add_apply, mul_add, Finset.sum_add_distrib]
          ring
        map_smul' := fun c u => by
          funext i
          simp only [Pi.smul_apply, smul_eq_mul, RingHom.id_apply, mul_sub, Finset.mul_sum]
          congr 1
          exact Finset.sum_congr rfl fun j _ => by ring } with hL
    have small : ∀ u : Fin C → ℝ, (∀ i, 0 ≤ L u i) → ∀ i, 0 ≤ u i := by
      intro u hu
      by_contra hc
      push Not at hc
      obtain ⟨k, hk⟩ := hc
      obtain ⟨m, -, hm⟩ := Finset.univ.exists_min_image u ⟨k, Finset.mem_univ k⟩
      have hneg : u m < 0 := lt_of_le_of_lt (hm k (Finset.mem_univ k)) hk
      have h1 : ∑ j, M m j * u m ≤ ∑ j, M m j * u j :=
        Finset.sum_le_sum fun j _ => mul_le_mul_of_nonneg_left (hm j (Finset.mem_univ j)) (M0 m j)
      rw [← Finset.sum_mul] at h1
      have h2 : 0 ≤ u m - ∑ j, M m j * u j := hu m
      nlinarith [M1 m]
    have inj : Function.Injective L := by
      rw [injective_iff_map_eq_zero]
      intro u hu
      funext i
      refine le_antisymm ?_ (small u (fun i => by rw [hu]; exact le_refl _) i)
      have := small (-u) (fun i => by rw [map_neg, hu, neg_zero]; exact le_refl _) i
      rw [Pi.neg_apply] at this
      exact neg_nonneg.1 this
    obtain ⟨u, hu⟩ := LinearMap.surjective_of_injective inj (fun i => |z i| * max (g.beta i) g.betaMin)
    have u0 : ∀ i, 0 ≤ u i := small u fun i => by
      rw [hu]; exact mul_nonneg (abs_nonneg _) (beta_pos g hb i).le
    have hu' : ∀ i, u i = |z i| * (∑ j, max (g.gamma i j) 0 * u j + max (g.beta i) g.betaMin) := by
      intro i
      have : u i - ∑ j, M i j * u j = |z i| * max (g.beta i) g.betaMin := congrFun hu i
      rw [mul_add, Finset.mul_sum, ← this]
      have : ∑ j, M i j * u j = ∑ j, |z i| * (max (g.gamma i j) 0 * u j) :=
        Finset.sum_congr rfl fun j _ => by rw [hM]; ring
      rw [this]
      ring
    have hd : ∀ i, 0 < ∑ j, max (g.gamma i j) 0 * u j + max (g.beta i) g.betaMin := fun i =>
      add_pos_of_nonneg_of_pos (sum_nonneg' _ (fun j => le_max_right _ _) u u0) (beta_pos g hb i)
    refine ⟨fun i => if 0 ≤ z i then u i else -u i, ?_⟩
    have habs : ∀ j, |if 0 ≤ z j then u j else -u j| = u j := by
      intro j
      split
      · exact abs_of_nonneg (u0 j)
      · rw [abs_neg]; exact abs_of_nonneg (u0 j)
    funext i
    show (if 0 ≤ z i then u i else -u i) / g.clamp.norm _ i = z i
    rw [norm_clamp]
    simp only [habs]
    rw [div_eq_iff (hd i).ne']
    split
    · next h0 => rw [hu' i, abs_of_nonneg h0]
    · next h0 => rw [hu' i, abs_of_neg (not_le.1 h0)]; ring
  choose x hx using fun p => one (z p) (hz p)
  exact ⟨x, funext fun p => (call_forward g x p).trans (hx p)⟩

/-- **C149 is violated: the inverse layer is not the inverse.** If a channel of a GDN layer has a weight on itself, as every
new layer has, no inverse GDN layer, whatever its parameters, undoes it. -/
theorem C149_violated_inverse (g g' : Gdn C) (hb : 0 < g.betaMin) (i : Fin C) (hi : 0 < g.gamma i i) (P : ℕ) :
    ∃ x : Fin (P + 1) → Fin C → ℝ, (GdnTrain.call true g' (GdnTrain.call false g x).2).2 ≠ x := by
  set A := 1 / g.gamma i i with hA
  have hA0 : 0 < A := one_div_pos.2 hi
  set B := A * (∑ j, max (g'.gamma i j) 0 * A + |max (g'.beta i) g'.betaMin|) with hB
  set x : Fin C → ℝ := fun j => if j = i then B + 1 else 0 with hx
  refine ⟨fun _ => x, fun h => ?_⟩
  have h1 : (g'.inverse (g.forward x).2).2 i = x i := by
    have := congrFun (congrFun h 0) i
    rwa [call_inverse, call_forward] at this
  have hxi : x i = B + 1 := if_pos rfl
  have hz : |(g.forward x).2 i| ≤ A := C48_saturates g hb x i hi
  have hzj : ∀ j, |(g.forward x).2 j| ≤ A := by
    intro j
    by_cases hj : j = i
    · rw [hj]; exact hz
    · have : (g.forward x).2 j = 0 := by
        show x j / _ = 0
        rw [show x j = 0 from if_neg hj, zero_div]
      rw [this, abs_zero]
      exact hA0.le
  set z := (g.forward x).2 with hzdef
  have h2 : (g'.inverse z).2 i = z i * (∑ j, max (g'.gamma i j) 0 * |z j| + max (g'.beta i) g'.betaMin) := rfl
  have h3 : |(g'.inverse z).2 i| ≤ B := by
    rw [h2, abs_mul, hB]
    refine mul_le_mul hz ?_ (abs_nonneg _) hA0.le
    refine (abs_add_le _ _).trans ?_
    rw [abs_of_nonneg (Finset.sum_nonneg fun j _ => mul_nonneg (le_max_right _ _) (abs_nonneg _))]
    have := Finset.sum_le_sum fun (j : Fin C) (_ : j ∈ Finset.univ) =>
      mul_le_mul_of_nonneg_left (hzj j) (le_max_right (g'.gamma i j) 0)
    linarith
  rw [h1, hxi] at h3
  linarith [le_abs_self (B + 1)]

/-- C149 is not vacuous: two channels with weights on each other, one of them negative before the clamping. -/
example : let g : Gdn 2 := ⟨fun i j => if i = j then 1 / 10 else (i : ℕ) - 1 / 2, fun _ => 1, 1e-6⟩
    (Function.Injective fun x : Fin 6 → Fin 2 → ℝ => (GdnTrain.call false g x).2) ∧
      (Function.Bijective fun x : Fin 6 → Fin 2 → ℝ => (GdnTrain.call true g x).2) ∧
      (g.forward ![3, -2]).2 0 = 3 / (1 + 3 / 10) ∧ (g.forward ![3, -2]).2 1 = -2 / (1 + 2 / 10 + 3 / 2) := by
  intro g
  refine ⟨C149_gdn g (by norm_num [g]), C149_inverse g (by norm_num [g]), ?_, ?_⟩
  · show (3 : ℝ) / g.clamp.norm ![3, -2] 0 = _
    rw [norm_clamp]
    norm_num [g, Fin.sum_univ_two]
  · show (-2 : ℝ) / g.clamp.norm ![3, -2] 1 = _
    rw [norm_clamp]
    norm_num [g, Fin.sum_univ_two]

end Verif.Layers.GdnBijective
