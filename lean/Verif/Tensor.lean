import Mathlib.Data.List.Basic
import Mathlib.Data.List.GetD
import Mathlib.Tactic.Ring
import Mathlib.Tactic.Linarith

/-
Dense tensors in row-major order, as far as the modelled PyTorch code needs them: the shape, and
the elements by flat position.  `reshape` keeps the elements, `permute`, `pad`, `crop` rearrange
them by index.
-/
namespace Verif

/-- A contiguous tensor: only positions below the product of the shape are meaningful. -/
structure Tensor (α : Type) where
  shape : List Nat
  data : Nat → α

namespace Tensor

/-- Number of elements. -/
def numel : List Nat → Nat
  | [] => 1
  | n :: ns => n * numel ns

/-- Row-major position of an index. -/
def ravel : List Nat → List Nat → Nat
  | _ :: ns, i :: is => i * numel ns + ravel ns is
  | _, _ => 0

/-- Index of a row-major position. -/
def unravel : List Nat → Nat → List Nat
  | [], _ => []
  | _ :: ns, k => (k / numel ns) :: unravel ns (k % numel ns)

/-- Same number of coordinates, each below its size. -/
def InRange : List Nat → List Nat → Prop
  | [], [] => True
  | n :: ns, i :: is => i < n ∧ InRange ns is
  | _, _ => False

variable {α : Type}

/-- Element at an index. -/
def get (t : Tensor α) (idx : List Nat) : α := t.data (ravel t.shape idx)

/-- Tensor from its elements by index. -/
def ofFn (shape : List Nat) (f : List Nat → α) : Tensor α := ⟨shape, fun k => f (unravel shape k)⟩

/-- Same shape and same elements. -/
def Same (s t : Tensor α) : Prop := s.shape = t.shape ∧ ∀ idx, InRange s.shape idx → s.get idx = t.get idx

/-- Index of the input of `permute` for an index of its output. -/
def permIdx (perm idx : List Nat) : List Nat :=
  (List.range perm.length).map (fun p => idx.getD (perm.idxOf p) 0)

/-- `tensor.permute(perm).contiguous()`. -/
def permute (t : Tensor α) (perm : List Nat) : Tensor α :=
  ofFn (perm.map (fun p => t.shape.getD p 0)) (fun idx => t.get (permIdx perm idx))

/-- `tensor.reshape(shape)`; raises if the number of elements differs. -/
def reshape (t : Tensor α) (shape : List Nat) : Option (Tensor α) :=
  if numel shape = numel t.shape then some ⟨shape, t.data⟩ else none

/-- `tensor.reshape(-1, *rest)`: the first size is inferred; raises if it cannot be. -/
def reshapeInfer (t : Tensor α) (rest : List Nat) : Option (Tensor α) :=
  if numel rest = 0 then none
  else if numel t.shape % numel rest = 0 then some ⟨numel t.shape / numel rest :: rest, t.data⟩
  else none

theorem ravel_lt : ∀ (shape idx : List Nat), InRange shape idx → ravel shape idx < numel shape
  | [], [], _ => by simp [ravel, numel]
  | n :: ns, i :: is, h => by
    have := ravel_lt ns is h.2
    simp only [ravel, numel]
    calc i * numel ns + ravel ns is < i * numel ns + numel ns := by omega
      _ = (i + 1) * numel ns := by ring
      _ ≤ n * numel ns := Nat.mul_le_mul_right _ h.1

theorem unravel_ravel : ∀ (shape idx : List Nat), InRange shape idx → unravel shape (ravel shape idx) = idx
  | [], [], _ => rfl
  | n :: ns, i :: is, h => by
    have h1 := ravel_lt ns is h.2
    have h2 := unravel_ravel ns is h.2
    simp only [ravel, unravel]
    rw [Nat.mul_comm, Nat.mul_add_div (by omega), Nat.div_eq_of_lt h1, Nat.mul_add_mod,
      Nat.mod_eq_of_lt h1, h2, Nat.add_zero]

theorem get_ofFn (shape : List Nat) (f : List Nat → α) (idx : List Nat) (h : InRange shape idx) :
    (ofFn shape f).get idx = f idx := by
  show f (unravel shape (ravel shape idx)) = f idx
  rw [unravel_ravel shape idx h]

theorem get_permute (t : Tensor α) (perm idx : List Nat)
    (h : InRange (perm.map (fun p => t.shape.getD p 0)) idx) :
    (t.permute perm).get idx = t.get (permIdx perm idx) := get_ofFn _ _ _ h

theorem reshape_some (t : Tensor α) (shape : List Nat) (h : numel shape = numel t.shape) :
    t.reshape shape = some ⟨shape, t.data⟩ := by
  simp only [reshape, h, if_true]

theorem reshapeInfer_some (t : Tensor α) (B : Nat) (rest : List Nat) (hr : 0 < numel rest)
    (h : numel t.shape = B * numel rest) : t.reshapeInfer rest = some ⟨B :: rest, t.data⟩ := by
  unfold reshapeInfer
  rw [if_neg (by omega), h, Nat.mul_mod_left, if_pos rfl, Nat.mul_div_cancel _ hr]

end Tensor

end Verif
