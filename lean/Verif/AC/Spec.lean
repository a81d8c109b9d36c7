import Verif.AC.Model

/-
Specification vocabulary for the arithmetic coder properties.
-/
namespace Verif.AC

/-- All symbols of the message have a non-empty slot `[low, high)` below `2^16` in
the CDF state in which they are coded. -/
def Codable {σ : Type} (cdf : CdfFun σ) : List Nat → σ → Prop
  | [], _ => True
  | s :: rest, c =>
    (cdf s c).1 < (cdf s c).2.1 ∧ (cdf s c).2.1 ≤ 65536 ∧ Codable cdf rest (cdf s c).2.2

/-- `inverse_cdf_fun` agrees with `cdf_fun`: started in related states, looking up
any value inside a symbol's slot yields that slot and symbol, and the updated
states are related again. -/
def Agree {σ τ : Type} (cdf : CdfFun σ) (icdf : InvCdfFun τ) (R : σ → τ → Prop) : Prop :=
  ∀ c t, R c t → ∀ s v, (cdf s c).1 ≤ v → v < (cdf s c).2.1 → (cdf s c).2.1 ≤ 65536 →
    ∃ t', icdf v t = ((cdf s c).1, (cdf s c).2.1, s, t') ∧ R (cdf s c).2.2 t'

/-- `inverse_cdf_fun` always returns a slot that contains the value it was asked
for, in every state satisfying the invariant `T`. -/
def Total {τ : Type} (icdf : InvCdfFun τ) (T : τ → Prop) : Prop :=
  ∀ t, T t → ∀ v, v < 65536 →
    (icdf v t).1 ≤ v ∧ v < (icdf v t).2.1 ∧ (icdf v t).2.1 ≤ 65536 ∧ T (icdf v t).2.2.2

/-- Product of the frequencies of a message's symbols. -/
def freqProd {σ : Type} (cdf : CdfFun σ) : List Nat → σ → Nat
  | [], _ => 1
  | s :: rest, c => ((cdf s c).2.1 - (cdf s c).1) * freqProd cdf rest (cdf s c).2.2

/-- States the decoder can be in while decoding the bytes `arr`. -/
inductive DecReach {τ : Type} (fuel : Nat) (icdf : InvCdfFun τ) (arr : List Nat) (t₀ : τ) :
    Dec → τ → Prop
  | start : DecReach fuel icdf arr t₀ (loadBits arr 32 decInit) t₀
  | step {d t d' s t'} : DecReach fuel icdf arr t₀ d t →
      dequeue fuel icdf arr d t = .ok (d', s, t') → DecReach fuel icdf arr t₀ d' t'

/-- States the encoder can be in after coding some symbols. -/
inductive EncReach {σ : Type} (fuel : Nat) (cdf : CdfFun σ) (cap : Nat) (c₀ : σ) :
    Enc → σ → Prop
  | start : EncReach fuel cdf cap c₀ (encInit cap) c₀
  | step {e c s e' c'} : EncReach fuel cdf cap c₀ e c →
      (cdf s c).1 < (cdf s c).2.1 → (cdf s c).2.1 ≤ 65536 →
      enqueue fuel cdf s e c = .ok (e', c') → EncReach fuel cdf cap c₀ e' c'

/-! ### A concrete family of CDF models: fixed tables -/

/-- Table lookup `cdf[s], cdf[s+1]`; symbols outside the table get an empty slot. -/
def tableCdf (tbl : List Nat) : CdfFun Unit :=
  fun s _ => (tbl.getD s 0, tbl.getD (s + 1) 0, ())

/-- Index of the last entry `≤ v` by scanning the table. -/
def tableFind (v : Nat) : List Nat → Nat
  | [] => 0
  | [_] => 0
  | _ :: b :: rest => if b ≤ v then tableFind v (b :: rest) + 1 else 0

/-- Inverse lookup by scanning the table. -/
def tableInv (tbl : List Nat) : InvCdfFun Unit :=
  fun v _ => (tbl.getD (tableFind v tbl) 0, tbl.getD (tableFind v tbl + 1) 0, tableFind v tbl, ())

/-- A valid table: starts at `0`, ends at `2^16`, strictly increasing. -/
structure ValidTable (tbl : List Nat) : Prop where
  first : tbl.head? = some 0
  last : tbl.getLast? = some 65536
  incr : tbl.Pairwise (· < ·)

end Verif.AC
