import Verif.Diffusion.Lemmas

/-
A concrete lawful coder, used to show that the hypotheses of the theorems can be met: messages
are natural numbers, `prior` and `obs` code digits, `post` is range ANS with two symbols whose
frequencies depend on the network.
-/
namespace Verif.Diffusion.Example

open Verif.Diffusion

/-- Uniform digits in base 2. -/
def bit : PCodec Nat Nat := ⟨fun m x => m * 2 + x, fun m => some (m / 2, m % 2)⟩

/-- Range ANS on natural numbers for symbols 0 and 1 with frequencies `f` and `4 - f`. -/
def ans (f : Nat) : PCodec Nat Nat where
  push m x := if x = 0 then m / f * 4 + m % f else m / (4 - f) * 4 + (f + m % (4 - f))
  pop m := some (if m % 4 < f then (m / 4 * f + m % 4, 0) else (m / 4 * (4 - f) + (m % 4 - f), 1))

/-- One pixel of 8 bits. -/
def pixel (off : Nat) : PCodec Nat Arr where
  push m d := m * 256 + ((d.vals.headD 0).toNat + off) % 256
  pop m := some (m / 256, ⟨[1, 1, 1, 1], [(((m % 256 + (256 - off % 256)) % 256 : Nat) : Int)]⟩)

def VD (d : Arr) : Prop := arrInRange 8 d = true ∧ arrShapeOk [1, 1, 1, 1] d = true ∧ d.vals.length = 1

theorem bit_lawful : Lawful bit (· < 2) where
  pop_push m x hx := by
    have hx : x < 2 := hx
    simp only [bit, Option.some.injEq, Prod.mk.injEq]; omega
  push_pop m m' x h := by
    simp only [bit, Option.some.injEq, Prod.mk.injEq] at h ⊢
    omega

theorem ans_lawful (f : Nat) (h0 : 0 < f) (h4 : f < 4) : Lawful (ans f) (· < 2) := by
  obtain rfl | rfl | rfl : f = 1 ∨ f = 2 ∨ f = 3 := by omega
  all_goals
    constructor
    · intro m x hx
      have hx : x < 2 := hx
      simp only [ans, Option.some.injEq]
      split <;> split <;> simp only [Prod.mk.injEq] <;> omega
    · intro m m' x h
      simp only [ans, Option.some.injEq] at h ⊢
      split at h <;> simp only [Prod.mk.injEq] at h <;> split <;> omega

theorem pixel_lawful (off : Nat) : Lawful (pixel off) VD where
  pop_push m d hd := by
    obtain ⟨h1, h2, h3⟩ := hd
    rcases d with ⟨shape, vals⟩
    match vals, h3 with
    | [v], _ =>
      simp only [arrInRange, List.isEmpty_cons, Bool.not_false, List.all_cons, List.all_nil,
        Bool.and_true, Bool.and_eq_true, decide_eq_true_eq, arrShapeOk] at h1 h2
      subst h2
      simp only [pixel, List.headD_cons, Option.some.injEq, Prod.mk.injEq, Arr.mk.injEq, true_and,
        List.cons.injEq, and_true]
      omega
  push_pop m m' x h := by
    simp only [pixel, Option.some.injEq, Prod.mk.injEq] at h
    obtain ⟨rfl, rfl⟩ := h
    refine ⟨⟨?_, rfl, rfl⟩, ?_⟩
    · simp only [arrInRange, List.isEmpty_cons, Bool.not_false, List.all_cons, List.all_nil,
        Bool.and_true, Bool.and_eq_true, decide_eq_true_eq]
      have := Nat.mod_lt (m % 256 + (256 - off % 256)) (show 256 > 0 by decide)
      refine ⟨trivial, Int.natCast_nonneg _, ?_⟩
      norm_num
      omega
    · simp only [pixel, List.headD_cons]
      omega

/-- Three diffusion steps; the "network" mixes its inputs. -/
def S : Setup Nat Arr Nat Nat Nat Nat where
  steps := 3
  infer x := x % 3 + 1
  generate z step x := match x with
    | none => z + step
    | some x => z + x + 2 * step
  toData d := (d.vals.headD 0).toNat
  std := 0
  toLatent d := d.inds * 5 + d.params
  prior := bit
  post p q := ans ((p + q) % 3 + 1)
  obs p := pixel p
  nbytes m := Nat.log2 m
  track := true

theorem S_ok : CoderOk S (· < 2) VD where
  prior := bit_lawful
  post p q := ans_lawful _ (by omega) (by omega)
  obs p := pixel_lawful p

def zero : Counters := ⟨fun _ => 0, fun _ => 0⟩

def start : State Nat := ⟨123456789, 0, 0, zero, 26⟩

def pix (v : Int) : Arr := ⟨[1, 1, 1, 1], [v]⟩

end Verif.Diffusion.Example
