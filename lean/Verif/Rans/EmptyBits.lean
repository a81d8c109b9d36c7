import Verif.Rans.Empty

/-
Bits-back coding with table codecs from a stack that may run empty.
-/
namespace Verif.Rans

/-- A latent-variable model given by CDF tables: prior `P`, posterior `Q x`, likelihood
`O z`; data vectors in `X`.  Any latent vector the posterior can produce has positive prior
probability and gives the data positive likelihood. -/
structure BBModel (pP pQ pO wZ wX L : Nat) (P : List (List Nat)) (Q O : List Nat → List (List Nat))
    (X : List Nat → Prop) : Prop where
  prior : Tables pP wZ L P
  post : ∀ x, X x → Tables pQ wZ L (Q x)
  lik : ∀ z, TableSymbols P z → Tables pO wX L (O z)
  cont : ∀ x z, X x → TableSymbols (Q x) z → TableSymbols P z ∧ TableSymbols (O z) x
  precP : pP ≤ 24
  precQ : pQ ≤ 24
  precO : pO ≤ 24

/-- The bits-back codec of such a model, with `allow_empty_pops` for the posterior. -/
def bbCodec (pP pQ pO wZ wX : Nat) (P : List (List Nat)) (Q O : List Nat → List (List Nat))
    (a b : Bool) : Codec (List Nat) Unit :=
  bitsback (fixedArrayCodec P pP wZ a) (fun x => fixedArrayCodec (Q x) pQ wZ true)
    (fun z => fixedArrayCodec (O z) pO wX b)

theorem bb_row {pP pQ pO wZ wX L cap : Nat} {P : List (List Nat)} {Q O : List Nat → List (List Nat)}
    {X : List Nat → Prop} (M : BBModel pP pQ pO wZ wX L P Q O X) (a b : Bool) {x : List Nat} (hx : X x)
    {m : Msg} {s : St} (hm : Abs cap m s) (hs : Ok L s) (hclean : CleanStart L s)
    (hroom : s.stack.length + 6 * L ≤ cap) :
    ∃ m' s' E, (bbCodec pP pQ pO wZ wX P Q O a b).push x m () = .ok (m', ()) ∧ Abs cap m' s' ∧ Ok L s' ∧
      s'.stack.length ≤ s.stack.length + 6 * L ∧ E.length ≤ 3 * L ∧ (∀ y ∈ E, y < 256) ∧
      ∀ Y cap' m'', cap + E.length + Y.length ≤ cap' → (∀ y ∈ Y, y < 256) →
        Abs cap' m'' ⟨s'.heads, s'.stack ++ Y⟩ →
        ∃ m0, (bbCodec pP pQ pO wZ wX P Q O a b).pop none m'' () = .ok (m0, x, ()) ∧
          Abs cap' m0 ⟨s.heads, s.stack ++ E ++ Y⟩ := by
  obtain ⟨m1, s1, z, E, p1, hz, a1, ok1, l1, lE, bE, b1⟩ :=
    table_popE M.precQ (M.post x hx) hm hs hclean (by omega) true
  obtain ⟨hzP, hxO⟩ := M.cont x z hx hz
  obtain ⟨m2, s2, p2, a2, ok2, l2, b2⟩ :=
    table_push M.precO (M.lik z hzP) a1 ok1 hxO (by omega) b
  obtain ⟨m3, s3, p3, a3, ok3, l3, b3⟩ :=
    table_push M.precP M.prior a2 ok2 hzP (by omega) a
  refine ⟨m3, s3, E, ?_, a3, ok3, by omega, lE, bE, ?_⟩
  · simp only [bbCodec, bitsback]
    show ((fixedArrayCodec (Q x) pQ wZ true).pop (some true) m (Q x) >>= _) = _
    rw [p1]
    show ((fixedArrayCodec (O z) pO wX b).push x m1 (O z) >>= _) = _
    rw [p2]
    show ((fixedArrayCodec P pP wZ a).push z m2 P >>= _) = _
    rw [p3]
    rfl
  · intro Y cap' m'' hc hY ha
    obtain ⟨n2, q2, d2⟩ := b3 Y cap' m'' (by omega) hY ha (some a)
    obtain ⟨n1, q1, d1⟩ := b2 Y cap' n2 (by omega) hY d2 (some b)
    obtain ⟨n0, q0, d0⟩ := b1 Y cap' n1 (by omega) hY d1
    refine ⟨n0, ?_, d0⟩
    simp only [bbCodec, bitsback]
    show ((fixedArrayCodec P pP wZ a).pop (some a) m'' P >>= _) = _
    rw [q2]
    show ((fixedArrayCodec (O z) pO wX b).pop (some b) n2 (O z) >>= _) = _
    rw [q1]
    show ((fixedArrayCodec (Q x) pQ wZ true).push z n1 (Q x) >>= _) = _
    rw [q0]
    rfl

theorem bb_rows {pP pQ pO wZ wX L cap : Nat} {P : List (List Nat)} {Q O : List Nat → List (List Nat)}
    {X : List Nat → Prop} (M : BBModel pP pQ pO wZ wX L P Q O X) (a b : Bool)
    {m : Msg} {s : St} (hm : Abs cap m s) (hs : Ok L s) :
    ∀ msg : List (List Nat), (∀ x ∈ msg, X x) → (L = 1 ∨ (msg.length ≤ 1 ∧ CleanStart L s)) →
    s.stack.length + 6 * L * msg.length ≤ cap →
    ∃ m' s' E, pushAll (bbCodec pP pQ pO wZ wX P Q O a b) msg m () = .ok (m', ()) ∧ Abs cap m' s' ∧
      Ok L s' ∧ s'.stack.length ≤ s.stack.length + 6 * L * msg.length ∧ E.length ≤ 3 * L * msg.length ∧
      (∀ y ∈ E, y < 256) ∧
      ∀ Y cap' m'', cap + E.length + Y.length ≤ cap' → (∀ y ∈ Y, y < 256) →
        Abs cap' m'' ⟨s'.heads, s'.stack ++ Y⟩ →
        ∃ m0, popAll (bbCodec pP pQ pO wZ wX P Q O a b) msg.length m'' () = .ok (m0, msg, ()) ∧
          Abs cap' m0 ⟨s.heads, s.stack ++ E ++ Y⟩ := by
  intro msg
  induction msg with
  | nil =>
    intro _ _ _
    refine ⟨m, s, [], rfl, hm, hs, by simp, by simp, by simp, ?_⟩
    intro Y cap' m'' _ _ ha
    exact ⟨m'', rfl, by simpa using ha⟩
  | cons x rest ih =>
    intro hX hL hroom
    simp only [List.length_cons, Nat.mul_add, Nat.mul_one] at hL hroom
    obtain ⟨m1, s1, E1, p1, a1, ok1, l1, lE1, bE1, b1⟩ := ih (fun y hy => hX y (by simp [hy]))
      (by rcases hL with h | ⟨h, h'⟩
          · exact Or.inl h
          · exact Or.inr ⟨by omega, h'⟩) (by omega)
    have hclean : CleanStart L s1 := by
      rcases hL with h | ⟨h, h'⟩
      · exact Or.inr (Or.inr h)
      · have : rest = [] := List.length_eq_zero_iff.mp (by omega)
        subst this
        simp only [pushAll, Except.ok.injEq, Prod.mk.injEq, and_true] at p1
        subst p1
        have hl1 := a1.limit
        have hl2 := hm.limit
        have : s1.stack.length = s.stack.length := by omega
        rcases h' with h' | h' | h'
        · left; rw [h'] at this; simpa using this
        · right; left; omega
        · right; right; exact h'
    obtain ⟨m2, s2, E2, p2, a2, ok2, l2, lE2, bE2, b2⟩ := bb_row M a b (hX x (by simp)) a1 ok1 hclean (by omega)
    refine ⟨m2, s2, E1 ++ E2, ?_, a2, ok2, ?_, ?_, ?_, ?_⟩
    · simp only [pushAll]
      rw [p1]
      exact p2
    · simp only [List.length_cons, Nat.mul_add, Nat.mul_one]; omega
    · simp only [List.length_cons, Nat.mul_add, Nat.mul_one, List.length_append]; omega
    · intro y hy
      rcases List.mem_append.mp hy with h | h
      · exact bE1 y h
      · exact bE2 y h
    · intro Y cap' m'' hc hY ha
      rw [List.length_append] at hc
      obtain ⟨n1, q1, d1⟩ := b2 Y cap' m'' (by omega) hY ha
      obtain ⟨n0, q0, d0⟩ := b1 (E2 ++ Y) cap' n1 (by rw [List.length_append]; omega)
        (by intro y hy
            rcases List.mem_append.mp hy with h | h
            · exact bE2 y h
            · exact hY y h) (by simpa using d1)
      refine ⟨n0, ?_, by simpa using d0⟩
      simp only [List.length_cons, popAll]
      rw [q1]
      show (popAll _ rest.length n1 () >>= _) = _
      rw [q0]
      rfl

end Verif.Rans
