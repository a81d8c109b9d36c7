import Mathlib.Data.List.GetD
import Verif.Rans.Range

/-
CDF tables: the inverse lookup, and the fixed-table codec as a pair of inverse
CDF functions.
-/
namespace Verif.Rans

theorem argminGe_spec (v : Nat) : ∀ (l : List Nat), (∃ x ∈ l, v < x) →
    argminGe v l < l.length ∧ v < l.getD (argminGe v l) 0 ∧
      ∀ j, j < argminGe v l → l.getD j 0 ≤ v := by
  intro l
  induction l with
  | nil => rintro ⟨x, hx, _⟩; simp at hx
  | cons c l ih =>
    intro hex
    by_cases hc : c ≤ v
    · have hex' : ∃ x ∈ l, v < x := by
        obtain ⟨x, hx, hv⟩ := hex
        rcases List.mem_cons.mp hx with rfl | hx
        · omega
        · exact ⟨x, hx, hv⟩
      have hall : l.all (fun x => decide (x ≤ v)) = false := by
        rw [List.all_eq_false]
        obtain ⟨x, hx, hv⟩ := hex'
        exact ⟨x, hx, by simp; omega⟩
      obtain ⟨i1, i2, i3⟩ := ih hex'
      simp only [argminGe, if_pos hc, hall, Bool.false_eq_true, if_false, List.length_cons]
      refine ⟨by omega, by simpa using i2, ?_⟩
      intro j hj
      cases j with
      | zero => simpa using hc
      | succ j => simpa using i3 j (by omega)
    · simp only [argminGe, if_neg hc, List.length_cons]
      exact ⟨by omega, by simp; omega, fun j hj => by omega⟩

theorem findSymbol_spec {p : Nat} {tbl : List Nat} (h : ValidTable p tbl) {v : Nat} (hv : v < 2 ^ p) :
    (findSymbol v tbl).toNat + 1 < tbl.length ∧ 0 ≤ findSymbol v tbl ∧
    tbl.getD (findSymbol v tbl).toNat 0 ≤ v ∧ v < tbl.getD ((findSymbol v tbl).toNat + 1) 0 := by
  have hmem : 2 ^ p ∈ tbl := by
    have := h.last
    exact List.mem_of_getLast? this
  obtain ⟨i1, i2, i3⟩ := argminGe_spec v tbl ⟨_, hmem, hv⟩
  have hpos : 1 ≤ argminGe v tbl := by
    rcases Nat.eq_zero_or_pos (argminGe v tbl) with h0 | h0
    · rw [h0] at i2
      have h1 := h.first
      cases tbl with
      | nil => simp at h1
      | cons c l => simp only [List.head?_cons, Option.some.injEq] at h1; simp [h1] at i2
    · exact h0
  have e : (findSymbol v tbl).toNat = argminGe v tbl - 1 := by simp only [findSymbol]; omega
  rw [e, show argminGe v tbl - 1 + 1 = argminGe v tbl by omega]
  exact ⟨i1, by simp only [findSymbol]; omega, i3 _ (by omega), i2⟩

theorem getD_mono {tbl : List Nat} (h : tbl.Pairwise (· ≤ ·)) {i j : Nat} (hij : i ≤ j)
    (hj : j < tbl.length) : tbl.getD i 0 ≤ tbl.getD j 0 := by
  rcases Nat.eq_or_lt_of_le hij with rfl | hlt
  · exact le_refl _
  · rw [List.getD_eq_getElem _ _ hj, List.getD_eq_getElem _ _ (by omega)]
    exact List.pairwise_iff_getElem.mp h i j (by omega) hj hlt

theorem owner_unique {tbl : List Nat} (h : tbl.Pairwise (· ≤ ·)) {v s s' : Nat}
    (hs : s + 1 < tbl.length) (h1 : tbl.getD s 0 ≤ v) (h2 : v < tbl.getD (s + 1) 0)
    (hs' : s' + 1 < tbl.length) (h1' : tbl.getD s' 0 ≤ v) (h2' : v < tbl.getD (s' + 1) 0) : s = s' := by
  by_contra hne
  rcases Nat.lt_or_gt_of_ne hne with hlt | hlt
  · have := getD_mono h (show s + 1 ≤ s' by omega) (by omega); omega
  · have := getD_mono h (show s' + 1 ≤ s by omega) (by omega); omega

/-- Symbols, one per lane, each a row of its table with non-zero frequency. -/
def TableSymbols (tbls : List (List Nat)) (x : List Nat) : Prop :=
  List.Forall₂ (fun t s => s + 1 < t.length ∧ t.getD s 0 < t.getD (s + 1) 0) tbls x

theorem table_pair {p width : Nat} {tbls : List (List Nat)} (ht : ∀ t ∈ tbls, ValidTable p t)
    (hw : ∀ t ∈ tbls, t.length ≤ width + 1) :
    CdfPair tableCdf tableInv p tbls.length width (fun c x => c = tbls ∧ TableSymbols tbls x)
      (fun c t => c = tbls ∧ t = tbls) := by
  refine ⟨?_, ?_, ?_⟩
  · rintro c x ⟨rfl, hx⟩
    refine ⟨by simp [tableCdf, hx.length_eq], ?_⟩
    simp only [tableCdf]
    revert ht hw
    induction hx with
    | nil => intro _ _; exact .nil
    | @cons t s ts ss hd _ ih =>
      intro ht hw
      refine .cons ⟨hd.2, ?_⟩ (ih (fun t h => ht t (by simp [h])) (fun t h => hw t (by simp [h])))
      have hv := ht t (by simp)
      have hle := getD_mono hv.mono (show s + 1 ≤ t.length - 1 by omega) (by omega)
      have hlast : t.getD (t.length - 1) 0 = 2 ^ p := by
        have := hv.last
        rw [List.getLast?_eq_getElem?] at this
        rw [List.getD_eq_getElem?_getD, this]; rfl
      show t.getD (s + 1) 0 ≤ 2 ^ p
      omega
  · rintro c x ⟨rfl, hx⟩ s hs
    have : ∀ s ∈ x, ∃ t ∈ c, s + 1 < t.length := by
      clear hs hw ht s
      induction hx with
      | nil => simp
      | cons hd _ ih =>
        intro s hs
        rcases List.mem_cons.mp hs with rfl | hs
        · exact ⟨_, by simp, hd.1⟩
        · obtain ⟨t, h1, h2⟩ := ih s hs; exact ⟨t, by simp [h1], h2⟩
    obtain ⟨t, h1, h2⟩ := this s hs
    have := hw t h1
    omega
  · rintro c x v t' ⟨rfl, hx⟩ hv ⟨_, rfl⟩
    refine ⟨t', ?_, rfl, rfl⟩
    have key : List.zipWith (fun t v => (findSymbol v t).toNat) t' v = x := by
      clear hw
      simp only [tableCdf] at hv
      induction hx generalizing v with
      | nil => cases v <;> simp_all [Within]
      | @cons t s ts ss hd hr ih =>
        cases v with
        | nil => simp [Within] at hv
        | cons v vs =>
          simp only [List.zipWith_cons_cons, Within] at hv
          have hvt := ht t (by simp)
          have hle := getD_mono hvt.mono (show s + 1 ≤ t.length - 1 by omega) (by omega)
          have hlast : t.getD (t.length - 1) 0 = 2 ^ p := by
            have := hvt.last
            rw [List.getLast?_eq_getElem?] at this
            rw [List.getD_eq_getElem?_getD, this]; rfl
          obtain ⟨f1, f2, f3, f4⟩ := findSymbol_spec hvt (v := v) (by omega)
          rw [List.zipWith_cons_cons, ih _ (fun t h => ht t (by simp [h])) hv.2.2 rfl]
          rw [owner_unique hvt.mono f1 f3 f4 hd.1 hv.1 hv.2.1]
    simp only [tableInv, tableCdf, key]

theorem table_total {p width : Nat} {tbls : List (List Nat)} (ht : ∀ t ∈ tbls, ValidTable p t) :
    CdfTotal tableCdf tableInv p tbls.length width (TableSymbols tbls) tbls := by
  constructor
  intro v hl hv
  have h0 : TableSymbols tbls (List.zipWith (fun t v => (findSymbol v t).toNat) tbls v) ∧
      Within v (List.zipWith (fun t s => t.getD s 0) tbls (List.zipWith (fun t v => (findSymbol v t).toNat) tbls v))
        (List.zipWith (fun t s => t.getD (s + 1) 0) tbls (List.zipWith (fun t v => (findSymbol v t).toNat) tbls v)) := by
    induction tbls generalizing v with
    | nil => cases v <;> simp_all [TableSymbols, Within]
    | cons t ts ih =>
      cases v with
      | nil => simp at hl
      | cons v vs =>
        obtain ⟨i1, i2⟩ := ih (fun t h => ht t (by simp [h])) vs (by simpa using hl)
          (fun x hx => hv x (by simp [hx]))
        obtain ⟨f1, f2, f3, f4⟩ := findSymbol_spec (ht t (by simp)) (hv v (by simp))
        simp only [TableSymbols, List.zipWith_cons_cons, Within]
        exact ⟨.cons ⟨f1, by omega⟩ i1, f3, f4, i2⟩
  exact ⟨h0.1, rfl, rfl, h0.2⟩

end Verif.Rans
