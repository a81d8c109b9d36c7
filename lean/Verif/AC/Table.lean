import Verif.AC.Spec
import Mathlib.Data.List.GetD
import Mathlib.Tactic.ByContra

/-
Fixed tables form a CDF model in the sense of `Agree` and `Total`.
-/
namespace Verif.AC

theorem tableFind_eq : ∀ (l : List Nat) (s v : Nat), l.Pairwise (· < ·) → s + 1 < l.length →
    l.getD s 0 ≤ v → v < l.getD (s + 1) 0 → tableFind v l = s := by
  intro l
  induction l with
  | nil => intro s v _ h; simp at h
  | cons a l ih =>
    intro s v hp hs h1 h2
    cases l with
    | nil => simp at hs
    | cons b rest =>
      cases s with
      | zero =>
        simp at h2
        simp only [tableFind]
        rw [if_neg (by omega)]
      | succ s =>
        have hb : b ≤ v := by
          cases s with
          | zero => simpa using h1
          | succ s =>
            have hp2 := (List.pairwise_cons.mp (List.pairwise_cons.mp hp).2).1
            have hlt : s < rest.length := by simp at hs; omega
            have : b < rest[s] := hp2 _ (List.getElem_mem hlt)
            have h1' : rest.getD s 0 ≤ v := by simpa using h1
            rw [List.getD_eq_getElem _ _ hlt] at h1'
            omega
        simp only [tableFind]
        rw [if_pos hb, ih s v (List.pairwise_cons.mp hp).2 (by simp at hs ⊢; omega)
          (by simpa using h1) (by simpa using h2)]

theorem tableFind_total : ∀ (l : List Nat) (a v w : Nat), l.head? = some a → a ≤ v →
    l.getLast? = some w → v < w →
    tableFind v l + 1 < l.length ∧ l.getD (tableFind v l) 0 ≤ v ∧
      v < l.getD (tableFind v l + 1) 0 := by
  intro l
  induction l with
  | nil => intro a v w h; simp at h
  | cons x l ih =>
    intro a v w h1 h2 h3 h4
    simp at h1; subst h1
    cases l with
    | nil => simp at h3; omega
    | cons b rest =>
      simp only [tableFind]
      by_cases hb : b ≤ v
      · rw [if_pos hb]
        have h3' : (b :: rest).getLast? = some w := by simpa using h3
        obtain ⟨i1, i2, i3⟩ := ih b v w rfl hb h3' h4
        refine ⟨by simpa using i1, by simpa using i2, by simpa using i3⟩
      · rw [if_neg hb]
        refine ⟨by simp, by simpa using h2, by simp; omega⟩

theorem table_agree {tbl : List Nat} (h : ValidTable tbl) :
    Agree (tableCdf tbl) (tableInv tbl) (fun _ _ => True) := by
  intro c t _ s v h1 h2 _
  refine ⟨(), ?_, trivial⟩
  simp only [tableCdf] at *
  have hs : s + 1 < tbl.length := by
    by_contra hn
    have : tbl.getD (s + 1) 0 = 0 := by
      simp [List.getD, List.getElem?_eq_none (show tbl.length ≤ s + 1 by omega)]
    omega
  simp only [tableInv, tableFind_eq tbl s v h.incr hs h1 h2]

theorem le_of_pairwise_last : ∀ (l : List Nat) (w : Nat), l.Pairwise (· < ·) →
    l.getLast? = some w → ∀ i, i < l.length → l.getD i 0 ≤ w := by
  intro l w hp hl i hi
  have hne : l ≠ [] := by rintro rfl; simp at hi
  rw [List.getLast?_eq_some_getLast hne] at hl
  have hlast : l.getLast hne = w := by simpa using hl
  rw [List.getD_eq_getElem _ _ hi]
  by_cases h : i = l.length - 1
  · subst h; rw [← hlast, List.getLast_eq_getElem]; exact Nat.le_refl _
  · have := List.pairwise_iff_getElem.mp hp i (l.length - 1) hi (by omega) (by omega)
    rw [← hlast, List.getLast_eq_getElem]
    exact Nat.le_of_lt this

theorem table_total {tbl : List Nat} (h : ValidTable tbl) :
    Total (tableInv tbl) (fun _ => True) := by
  intro t _ v hv
  obtain ⟨i1, i2, i3⟩ := tableFind_total tbl 0 v 65536 h.first (Nat.zero_le _) h.last hv
  exact ⟨i2, i3, le_of_pairwise_last tbl 65536 h.incr h.last _ i1, trivial⟩

/-- Every message over the table's symbols is codable. -/
theorem table_codable {tbl : List Nat} (h : ValidTable tbl) : ∀ (msg : List Nat),
    (∀ s ∈ msg, s + 1 < tbl.length) → Codable (tableCdf tbl) msg () := by
  intro msg
  induction msg with
  | nil => intro _; trivial
  | cons s rest ih =>
    intro hm
    have hs := hm s (by simp)
    refine ⟨?_, ?_, ih (fun x hx => hm x (by simp [hx]))⟩
    · simp only [tableCdf]
      rw [List.getD_eq_getElem _ _ hs, List.getD_eq_getElem _ _ (show s < tbl.length by omega)]
      exact List.pairwise_iff_getElem.mp h.incr s (s + 1) (by omega) hs (by omega)
    · exact le_of_pairwise_last tbl 65536 h.incr h.last _ hs

end Verif.AC
