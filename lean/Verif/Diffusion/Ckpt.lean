import Verif.Diffusion.Example

/-
C21: checkpoints of the diffusion codec.
-/
namespace Verif.Diffusion

variable {M D R Λ P I F : Type}

theorem load_stateDict (flatten : M → F) (unflatten : F → M) (h : ∀ m, unflatten (flatten m) = m)
    (a b : Attrs M) :
    loadStateDict unflatten (stateDict flatten a) b =
      ⟨{ a.st with extraBytes := b.st.extraBytes }, ("extr_bytes", a.st.extraBytes) :: b.other⟩ := by
  simp [stateDict, loadStateDict, loadKey, setAttr, h]

/-- **C21** (what is restored).  Loading the state dict of any codec into any other codec restores the
message, the number of data points, all byte counters and the initial size, so everything that
`decode` returns and every statistic except the "used" rate is the same.
Missing from the full statement: `extra_bytes`, see `C21_violated`. -/
theorem C21_partial (S : Setup M D R Λ P I) (flatten : M → F) (unflatten : F → M)
    (h : ∀ m, unflatten (flatten m) = m) (a b : Attrs M) (batch : Int) :
    let r := loadStateDict unflatten (stateDict flatten a) b
    r.st.message = a.st.message ∧ r.st.dataCount = a.st.dataCount ∧ r.st.counters = a.st.counters ∧
    r.st.initialBytes = a.st.initialBytes ∧
    (decode S r.st).2 = (decode S a.st).2 ∧
    (statistics S.nbytes batch r.st).1 = (statistics S.nbytes batch a.st).1 ∧
    (statistics S.nbytes batch r.st).2.1 = (statistics S.nbytes batch a.st).2.1 ∧
    (statistics S.nbytes batch r.st).2.2.2 = (statistics S.nbytes batch a.st).2.2.2 := by
  simp only [load_stateDict flatten unflatten h]
  refine ⟨trivial, trivial, trivial, trivial, ?_, rfl, rfl, rfl⟩
  unfold decode
  simp only
  rcases priorPop S S.steps [] a.st.counters a.st.message with ⟨k, _ | ⟨m1, ls⟩⟩
  · rfl
  · simp only
    rcases trackPop S (likelihood S ls) 0 k m1 with ⟨k1, _ | ⟨m2, d⟩⟩ <;> rfl

/-- Encoding continues identically as well, once something was encoded. -/
theorem C21_partial_encode (S : Setup M D R Λ P I) (flatten : M → F) (unflatten : F → M)
    (h : ∀ m, unflatten (flatten m) = m) (a b : Attrs M) (rg sh : D → Bool) (d : D) :
    (encode S rg sh (loadStateDict unflatten (stateDict flatten a) b).st d).2 =
      (encode S rg sh a.st d).2 := by
  rw [load_stateDict flatten unflatten h]
  unfold encode
  split
  · rfl
  split
  · rfl
  unfold encodeCore
  simp only
  rcases posteriorPop S (S.toData d) S.steps [] a.st.counters a.st.message with ⟨k, _ | ⟨m1, ls⟩⟩ <;> rfl

/-- What is not restored: the bytes of the "used" rate are those of the saved codec exactly if both codecs had the same
`extra_bytes` before. -/
theorem C21_used (flatten : M → F) (unflatten : F → M) (h : ∀ m, unflatten (flatten m) = m) (nbytes : M → Nat) (a b : Attrs M)
    (batch : Int) : (statistics nbytes batch (loadStateDict unflatten (stateDict flatten a) b).st).2.2.1 =
      (statistics nbytes batch a.st).2.2.1 ↔ b.st.extraBytes = a.st.extraBytes := by
  rw [load_stateDict flatten unflatten h]
  simp [statistics]

/-- **C21 is violated**: after one `encode`, the checkpoint loaded into a fresh codec loses
`extra_bytes` (the state dict calls it `extr_bytes`), and the "used" rate changes. -/
theorem C21_violated :
    let a := (encode Example.S (arrInRange 8) (arrShapeOk [1, 1, 1, 1]) Example.start (Example.pix 77)).1
    let r := loadStateDict (fun m : Nat => m) (stateDict (fun m : Nat => m) ⟨a, []⟩) ⟨Example.start, []⟩
    a.extraBytes ≠ 0 ∧ r.st.extraBytes ≠ a.extraBytes ∧
    (statistics Example.S.nbytes 1 r.st).2.2.1 ≠ (statistics Example.S.nbytes 1 a).2.2.1 := by
  decide +kernel

/-- With the key spelled `extra_bytes` the property holds for all states: the misspelt key is the
only defect. -/
theorem C21_repaired (flatten : M → F) (unflatten : F → M) (h : ∀ m, unflatten (flatten m) = m)
    (a b : Attrs M) :
    (loadStateDict unflatten
      ((stateDict flatten a).map (fun kv => (if kv.1 = "extr_bytes" then "extra_bytes" else kv.1, kv.2)))
      b).st = a.st := by
  simp [stateDict, loadStateDict, loadKey, setAttr, h]

end Verif.Diffusion
