import Verif.Train.LogCache
import Mathlib.Tactic.Linarith
import Mathlib.Tactic.IntervalCases
import Mathlib.Data.Nat.Digits.Lemmas
import Mathlib.Data.List.Infix

/-!
C99: the images that a training run logs are those with the configured indices, whatever is in the cache.
-/

namespace Verif.Train.LogCache

variable {D Img Draw H : Type}

/-! ### The key -/

theorem digitChar_inj (a b : ℕ) (ha : a < 10) (hb : b < 10) (h : digitChar a = digitChar b) : a = b := by
  interval_cases a <;> interval_cases b <;> first | rfl | (exact absurd h (by decide))

/-- A character of a number. -/
def numeral (c : Char) : Prop := c ≠ '[' ∧ c ≠ ']' ∧ c ≠ ',' ∧ c ≠ ' '

theorem digitChar_numeral (a : ℕ) (ha : a < 10) : numeral (digitChar a) ∧ digitChar a ≠ '-' := by
  unfold numeral
  interval_cases a <;> decide

theorem map_digitChar_inj : ∀ l l' : List ℕ, (∀ a ∈ l, a < 10) → (∀ a ∈ l', a < 10) →
    l.map digitChar = l'.map digitChar → l = l'
  | [], [], _, _, _ => rfl
  | [], b :: l', _, _, h => by simp at h
  | a :: l, [], _, _, h => by simp at h
  | a :: l, b :: l', h1, h2, h => by
    rw [List.map_cons, List.map_cons, List.cons.injEq] at h
    rw [digitChar_inj a b (h1 a List.mem_cons_self) (h2 b List.mem_cons_self) h.1,
      map_digitChar_inj l l' (fun x hx => h1 x (List.mem_cons_of_mem _ hx)) (fun x hx => h2 x (List.mem_cons_of_mem _ hx)) h.2]

theorem strNat_eq (n : ℕ) : ∃ ds : List ℕ, strNat n = ds.map digitChar ∧ (∀ d ∈ ds, d < 10) ∧ Nat.ofDigits 10 ds.reverse = n ∧
    ds ≠ [] := by
  unfold strNat
  by_cases h : n = 0
  · subst h
    exact ⟨[0], by decide, by simp, by simp, by simp⟩
  · refine ⟨(Nat.digits 10 n).reverse, by rw [if_neg h], ?_, ?_, ?_⟩
    · intro d hd
      exact Nat.digits_lt_base (by decide) (List.mem_reverse.1 hd)
    · rw [List.reverse_reverse, Nat.ofDigits_digits]
    · simpa [Nat.digits_ne_nil_iff_ne_zero] using h

theorem strNat_inj (m n : ℕ) (h : strNat m = strNat n) : m = n := by
  obtain ⟨a, ha, hl, hv, _⟩ := strNat_eq m
  obtain ⟨b, hb, hl', hv', _⟩ := strNat_eq n
  rw [ha, hb] at h
  rw [← hv, ← hv', map_digitChar_inj a b hl hl' h]

theorem strNat_numeral (n : ℕ) : (∀ c ∈ strNat n, numeral c ∧ c ≠ '-') ∧ strNat n ≠ [] := by
  obtain ⟨a, ha, hl, _, hn⟩ := strNat_eq n
  rw [ha]
  refine ⟨?_, by simpa using hn⟩
  intro c hc
  obtain ⟨d, hd, rfl⟩ := List.mem_map.1 hc
  exact digitChar_numeral d (hl d hd)

theorem strInt_numeral (i : ℤ) : (∀ c ∈ strInt i, numeral c) ∧ strInt i ≠ [] := by
  cases i with
  | ofNat n => exact ⟨fun c hc => ((strNat_numeral n).1 c hc).1, (strNat_numeral n).2⟩
  | negSucc n =>
    refine ⟨?_, by simp [strInt]⟩
    intro c hc
    rcases List.mem_cons.1 hc with rfl | h
    · unfold numeral; decide
    · exact ((strNat_numeral _).1 c h).1

theorem strInt_inj (i j : ℤ) (h : strInt i = strInt j) : i = j := by
  cases i with
  | ofNat m =>
    cases j with
    | ofNat n => rw [strNat_inj m n h]
    | negSucc n =>
      exfalso
      have : '-' ∈ strNat m := by
        have : strNat m = '-' :: strNat (n + 1) := h
        rw [this]; exact List.mem_cons_self
      exact ((strNat_numeral m).1 _ this).2 rfl
  | negSucc m =>
    cases j with
    | ofNat n =>
      exfalso
      have : '-' ∈ strNat n := by
        have : '-' :: strNat (m + 1) = strNat n := h
        rw [← this]; exact List.mem_cons_self
      exact ((strNat_numeral n).1 _ this).2 rfl
    | negSucc n =>
      have : strNat (m + 1) = strNat (n + 1) := (List.cons.inj h).2
      have := strNat_inj _ _ this
      have : m = n := by omega
      rw [this]

theorem append_cons_inj {α : Type} (c : α) (a a' b b' : List α) (ha : c ∉ a) (ha' : c ∉ a') (h : a ++ c :: b = a' ++ c :: b') :
    a = a' ∧ b = b' := by
  induction a generalizing a' with
  | nil =>
    cases a' with
    | nil => exact ⟨rfl, (List.cons.inj h).2⟩
    | cons x a' =>
      exfalso
      have : c = x := (List.cons.inj h).1
      exact ha' (this ▸ List.mem_cons_self)
  | cons x a ih =>
    cases a' with
    | nil =>
      exfalso
      have : x = c := (List.cons.inj h).1
      exact ha (this ▸ List.mem_cons_self)
    | cons y a' =>
      have h' := List.cons.inj h
      obtain ⟨h1, h2⟩ := ih a' (fun hm => ha (List.mem_cons_of_mem _ hm)) (fun hm => ha' (List.mem_cons_of_mem _ hm)) h'.2
      exact ⟨by rw [h'.1, h1], h2⟩

/-- The inside of the brackets. -/
def inside (l : List ℤ) : List Char := ((l.map strInt).intersperse [',', ' ']).flatten

theorem inside_cons (i j : ℤ) (l : List ℤ) : inside (i :: j :: l) = strInt i ++ ',' :: ' ' :: inside (j :: l) := by
  simp [inside]

theorem inside_one (i : ℤ) : inside [i] = strInt i := by simp [inside]

theorem inside_inj : ∀ l l' : List ℤ, inside l = inside l' → l = l'
  | [], [], _ => rfl
  | [], [j], h => by rw [inside_one] at h; exact absurd h.symm (strInt_numeral j).2
  | [], j :: k :: l', h => by rw [inside_cons] at h; exact absurd h.symm (by simp [inside])
  | [i], [], h => by rw [inside_one] at h; exact absurd h (strInt_numeral i).2
  | i :: k :: l, [], h => by rw [inside_cons] at h; exact absurd h (by simp [inside])
  | [i], [j], h => by rw [inside_one, inside_one] at h; rw [strInt_inj i j h]
  | [i], j :: k :: l', h => by
    rw [inside_one, inside_cons] at h
    have : ',' ∈ strInt i := by rw [h]; simp
    exact absurd rfl ((strInt_numeral i).1 _ this).2.2.1
  | i :: k :: l, [j], h => by
    rw [inside_one, inside_cons] at h
    have : ',' ∈ strInt j := by rw [← h]; simp
    exact absurd rfl ((strInt_numeral j).1 _ this).2.2.1
  | i :: k :: l, j :: k' :: l', h => by
    rw [inside_cons, inside_cons] at h
    obtain ⟨h1, h2⟩ := append_cons_inj ',' _ _ _ _ (fun hm => ((strInt_numeral i).1 _ hm).2.2.1 rfl)
      (fun hm => ((strInt_numeral j).1 _ hm).2.2.1 rfl) h
    rw [strInt_inj i j h1, inside_inj (k :: l) (k' :: l') (List.cons.inj h2).2]

theorem inside_no (l : List ℤ) : '[' ∉ inside l ∧ ']' ∉ inside l := by
  have : ∀ c ∈ inside l, c ≠ '[' ∧ c ≠ ']' := by
    induction l with
    | nil => intro c hc; simp [inside] at hc
    | cons i l ih =>
      cases l with
      | nil =>
        intro c hc
        rw [inside_one] at hc
        exact ⟨((strInt_numeral i).1 c hc).1, ((strInt_numeral i).1 c hc).2.1⟩
      | cons j l =>
        intro c hc
        rw [inside_cons, List.mem_append, List.mem_cons, List.mem_cons] at hc
        rcases hc with h | rfl | rfl | h
        · exact ⟨((strInt_numeral i).1 c h).1, ((strInt_numeral i).1 c h).2.1⟩
        · decide
        · decide
        · exact ih c h
  exact ⟨fun h => (this _ h).1 rfl, fun h => (this _ h).2 rfl⟩

/-- **C99, the key.** The hashed text determines the class and both lists of indices (the name of a class has no bracket). -/
theorem C99_key (c c' : Config D) (h : '[' ∉ c.target) (h' : '[' ∉ c'.target) (e : hashed c = hashed c') :
    c.target = c'.target ∧ c.train = c'.train ∧ c.val = c'.val := by
  have form : ∀ c : Config D, hashed c = c.target ++ '[' :: (inside c.train ++ ']' :: '[' :: (inside c.val ++ [']'])) := by
    intro c
    simp [hashed, strList, inside]
  rw [form, form] at e
  obtain ⟨e1, e⟩ := append_cons_inj '[' _ _ _ _ h h' e
  obtain ⟨e2, e⟩ := append_cons_inj ']' _ _ _ _ (inside_no _).2 (inside_no _).2 e
  have e3 := List.append_cancel_right (List.cons.inj e).2
  exact ⟨e1, inside_inj _ _ e2, inside_inj _ _ e3⟩

/-! ### Any interleaving -/

variable [DecidableEq H]

/-- The configurations that are started. -/
def started (es : List (Event D Draw)) (c : Config D) : Prop := ∃ p, Event.start p c ∈ es

/-- Every complete file holds images of a configuration with its key, and every process has a known configuration. -/
def Inv (sha : List Char → H) (item : List Char → D → Bool → ℤ → Draw → Img) (K : Config D → Prop) (s : State D Img H) : Prop :=
  (∀ h x, s.file h = some (.complete x) → ∃ c w, K c ∧ sha (hashed c) = h ∧ x = collect item c w) ∧
    ∀ p f c, s.proc p = some (f, c) → K c

theorem update_some {α β : Type} [DecidableEq α] {f : α → Option β} {a : α} {v : Option β} {x : α} {y : β}
    (h : Function.update f a v x = some y) : (x = a ∧ v = some y) ∨ (x ≠ a ∧ f x = some y) := by
  by_cases e : x = a
  · subst e; rw [Function.update_self] at h; exact Or.inl ⟨rfl, h⟩
  · rw [Function.update_of_ne e] at h; exact Or.inr ⟨e, h⟩

theorem step_inv (sha : List Char → H) (item : List Char → D → Bool → ℤ → Draw → Img) (K : Config D → Prop)
    (s : State D Img H) (e : Event D Draw) (hK : ∀ p c, e = .start p c → K c) (h : Inv sha item K s) :
    Inv sha item K (step sha item s e).1 ∧ ∀ c x, (step sha item s e).2 = some (c, .images x) →
      K c ∧ ∃ c' w, K c' ∧ sha (hashed c') = sha (hashed c) ∧ x = collect item c' w := by
  obtain ⟨h1, h2⟩ := h
  cases e with
  | start p c =>
    cases hp : s.proc p with
    | some y =>
      simp only [step, hp]
      exact ⟨⟨h1, h2⟩, by simp⟩
    | none =>
      simp only [step, hp]
      refine ⟨⟨h1, ?_⟩, by simp⟩
      intro q f c' hq
      rcases update_some hq with ⟨-, hv⟩ | ⟨-, hv⟩
      · simp only [Option.some.injEq, Prod.mk.injEq] at hv
        rw [← hv.2]; exact hK p c rfl
      · exact h2 q f c' hv
  | kill p =>
    simp only [step]
    refine ⟨⟨h1, ?_⟩, by simp⟩
    intro q f c' hq
    rcases update_some hq with ⟨-, hv⟩ | ⟨-, hv⟩
    · cases hv
    · exact h2 q f c' hv
  | read p =>
    cases hp : s.proc p with
    | none =>
      simp only [step, hp]
      exact ⟨⟨h1, h2⟩, by simp⟩
    | some y =>
      obtain ⟨f, c⟩ := y
      have hpr : ∀ q f' c', Function.update s.proc p none q = some (f', c') → K c' := by
        intro q f' c' hq
        rcases update_some hq with ⟨-, hv⟩ | ⟨-, hv⟩
        · cases hv
        · exact h2 q f' c' hv
      cases f with
      | writing =>
        simp only [step, hp]
        exact ⟨⟨h1, h2⟩, by simp⟩
      | opened =>
        simp only [step, hp]
        exact ⟨⟨h1, h2⟩, by simp⟩
      | reading =>
        cases hf : s.file (sha (hashed c)) with
        | none =>
          simp only [step, hp, hf]
          exact ⟨⟨h1, hpr⟩, by simp⟩
        | some fl =>
          cases fl with
          | torn =>
            simp only [step, hp, hf]
            exact ⟨⟨h1, hpr⟩, by simp⟩
          | complete x =>
            simp only [step, hp, hf]
            refine ⟨⟨h1, hpr⟩, ?_⟩
            intro c' x' hr
            simp only [Option.some.injEq, Prod.mk.injEq, Result.images.injEq] at hr
            obtain ⟨rfl, rfl⟩ := hr
            exact ⟨h2 p _ _ hp, h1 _ _ hf⟩
  | openWrite p =>
    cases hp : s.proc p with
    | none =>
      simp only [step, hp]
      exact ⟨⟨h1, h2⟩, by simp⟩
    | some y =>
      obtain ⟨f, c⟩ := y
      cases f with
      | reading =>
        simp only [step, hp]
        exact ⟨⟨h1, h2⟩, by simp⟩
      | opened =>
        simp only [step, hp]
        exact ⟨⟨h1, h2⟩, by simp⟩
      | writing =>
        simp only [step, hp]
        refine ⟨⟨?_, ?_⟩, by simp⟩
        · intro k x hx
          rcases update_some hx with ⟨-, hv⟩ | ⟨-, hv⟩
          · cases hv
          · exact h1 k x hv
        · intro q f' c' hq
          rcases update_some hq with ⟨-, hv⟩ | ⟨-, hv⟩
          · simp only [Option.some.injEq, Prod.mk.injEq] at hv
            rw [← hv.2]; exact h2 p _ _ hp
          · exact h2 q f' c' hv
  | dump p w =>
    cases hp : s.proc p with
    | none =>
      simp only [step, hp]
      exact ⟨⟨h1, h2⟩, by simp⟩
    | some y =>
      obtain ⟨f, c⟩ := y
      cases f with
      | reading =>
        simp only [step, hp]
        exact ⟨⟨h1, h2⟩, by simp⟩
      | writing =>
        simp only [step, hp]
        exact ⟨⟨h1, h2⟩, by simp⟩
      | opened =>
        simp only [step, hp]
        refine ⟨⟨?_, ?_⟩, ?_⟩
        · intro k x hx
          rcases update_some hx with ⟨hk, hv⟩ | ⟨-, hv⟩
          · simp only [Option.some.injEq, File.complete.injEq] at hv
            exact ⟨c, w, h2 p _ _ hp, hk.symm, hv.symm⟩
          · exact h1 k x hv
        · intro q f' c' hq
          rcases update_some hq with ⟨-, hv⟩ | ⟨-, hv⟩
          · cases hv
          · exact h2 q f' c' hv
        · intro c' x hr
          simp only [Option.some.injEq, Prod.mk.injEq, Result.images.injEq] at hr
          obtain ⟨rfl, rfl⟩ := hr
          exact ⟨h2 p _ _ hp, c, w, h2 p _ _ hp, rfl, rfl⟩

theorem run_sound (sha : List Char → H) (item : List Char → D → Bool → ℤ → Draw → Img) (K : Config D → Prop)
    (es : List (Event D Draw)) : ∀ s : State D Img H, (∀ p c, Event.start p c ∈ es → K c) → Inv sha item K s →
    ∀ c x, (c, Result.images x) ∈ (run sha item es s).2 →
      K c ∧ ∃ c' w, K c' ∧ sha (hashed c') = sha (hashed c) ∧ x = collect item c' w := by
  induction es with
  | nil => intro s _ _ c x h; cases h
  | cons e es ih =>
    intro s hK hi c x h
    obtain ⟨hi', hr⟩ := step_inv sha item K s e (fun p c he => hK p c (he ▸ List.mem_cons_self)) hi
    have e1 : (run sha item (e :: es) s).2 = (step sha item s e).2.toList ++ (run sha item es (step sha item s e).1).2 := rfl
    rw [e1, List.mem_append] at h
    rcases h with h | h
    · exact hr c x (Option.mem_toList.1 h)
    · exact ih _ (fun p c hm => hK p c (List.mem_cons_of_mem _ hm)) hi' c x h

/-- **C99, soundness.** Whatever processes run at the same time, and whenever they are killed: if configurations of the same
class have the same data, a process that gets images gets those with the indices of its configuration. -/
theorem C99_sound_partial (sha : List Char → H) (hsha : Function.Injective sha) (item : List Char → D → Bool → ℤ → Draw → Img)
    (es : List (Event D Draw)) (hname : ∀ c, started es c → '[' ∉ c.target)
    (hdata : ∀ c c', started es c → started es c' → c.target = c'.target → c.data = c'.data)
    (c : Config D) (x : Images Img) (h : (c, Result.images x) ∈ (run sha item es {}).2) :
    ∃ w, x = (c.train.map fun i => item c.target c.data true i w, c.val.map fun i => item c.target c.data false i w) := by
  obtain ⟨hc, c', w, hc', hs, rfl⟩ := run_sound sha item (started es) es {} (fun p c hm => ⟨p, hm⟩)
    ⟨(fun h x hx => by cases hx), (fun p f c hp => by cases hp)⟩ c x h
  obtain ⟨e1, e2, e3⟩ := C99_key c' c (hname c' hc') (hname c hc) (hsha hs)
  refine ⟨w, ?_⟩
  unfold collect
  rw [e1, e2, e3, hdata c' c hc' hc e1]

/-- **C99, violated for other data.** A run of another directory, image size or transform with the same class and indices
gets the images of the earlier run. -/
theorem C99_violated_data (sha : List Char → H) (item : List Char → D → Bool → ℤ → Draw → Img) (c : Config D) (d : D) (w : Draw) :
    (run sha item [.start 0 c, .openWrite 0, .dump 0 w, .start 1 { c with data := d }, .read 1] {}).2 =
      [(c, .images (collect item c w)), ({ c with data := d }, .images (collect item c w))] := by
  have hk : hashed { c with data := d } = hashed c := rfl
  simp [run, step, hk]

/-- No process is about to write the file `h`. -/
def Torn (sha : List Char → H) (h : H) (s : State D Img H) : Prop :=
  s.file h = some .torn ∧ ∀ p f c, s.proc p = some (f, c) → sha (hashed c) = h → f = .reading

omit [DecidableEq H] in
theorem torn_none (sha : List Char → H) (h : H) (s : State D Img H)
    (h2 : ∀ p f c, s.proc p = some (f, c) → sha (hashed c) = h → f = .reading) (p : ℕ) :
    ∀ q f' c', Function.update s.proc p none q = some (f', c') → sha (hashed c') = h → f' = .reading := by
  intro q f' c' hq
  rcases update_some hq with ⟨-, hv⟩ | ⟨-, hv⟩
  · cases hv
  · exact h2 q f' c' hv

theorem step_torn (sha : List Char → H) (item : List Char → D → Bool → ℤ → Draw → Img) (h : H) (s : State D Img H)
    (e : Event D Draw) (ht : Torn sha h s) : Torn sha h (step sha item s e).1 ∧
      ∀ c r, (step sha item s e).2 = some (c, r) → sha (hashed c) = h → r = .raised := by
  obtain ⟨h1, h2⟩ := ht
  have hnone := fun p => torn_none sha h s h2 p
  cases e with
  | start p c =>
    cases hp : s.proc p with
    | some y =>
      simp only [step, hp]
      exact ⟨⟨h1, h2⟩, by simp⟩
    | none =>
      simp only [step, hp]
      refine ⟨⟨h1, ?_⟩, by simp⟩
      intro q f c' hq hh
      rcases update_some hq with ⟨-, hv⟩ | ⟨-, hv⟩
      · simp only [Option.some.injEq, Prod.mk.injEq] at hv
        rw [← hv.2] at hh
        rw [← hv.1, hh, h1]
        rfl
      · exact h2 q f c' hv hh
  | kill p =>
    simp only [step]
    exact ⟨⟨h1, hnone p⟩, by simp⟩
  | read p =>
    cases hp : s.proc p with
    | none =>
      simp only [step, hp]
      exact ⟨⟨h1, h2⟩, by simp⟩
    | some y =>
      obtain ⟨f, c⟩ := y
      cases f with
      | writing =>
        simp only [step, hp]
        exact ⟨⟨h1, h2⟩, by simp⟩
      | opened =>
        simp only [step, hp]
        exact ⟨⟨h1, h2⟩, by simp⟩
      | reading =>
        cases hf : s.file (sha (hashed c)) with
        | none =>
          simp only [step, hp, hf]
          exact ⟨⟨h1, hnone p⟩, by simp_all⟩
        | some fl =>
          cases fl with
          | torn =>
            simp only [step, hp, hf]
            exact ⟨⟨h1, hnone p⟩, by simp_all⟩
          | complete x =>
            simp only [step, hp, hf]
            refine ⟨⟨h1, hnone p⟩, ?_⟩
            intro c' r hr hh
            simp only [Option.some.injEq, Prod.mk.injEq] at hr
            rw [← hr.1] at hh
            rw [hh, h1] at hf
            cases hf
  | openWrite p =>
    cases hp : s.proc p with
    | none =>
      simp only [step, hp]
      exact ⟨⟨h1, h2⟩, by simp⟩
    | some y =>
      obtain ⟨f, c⟩ := y
      cases f with
      | reading =>
        simp only [step, hp]
        exact ⟨⟨h1, h2⟩, by simp⟩
      | opened =>
        simp only [step, hp]
        exact ⟨⟨h1, h2⟩, by simp⟩
      | writing =>
        have hne : sha (hashed c) ≠ h := fun hh => by cases h2 p _ _ hp hh
        simp only [step, hp]
        refine ⟨⟨?_, ?_⟩, by simp⟩
        · show Function.update s.file (sha (hashed c)) (some .torn) h = _
          rw [Function.update_of_ne (Ne.symm hne)]; exact h1
        · intro q f' c' hq hh
          rcases update_some hq with ⟨-, hv⟩ | ⟨-, hv⟩
          · simp only [Option.some.injEq, Prod.mk.injEq] at hv
            rw [← hv.2] at hh
            exact absurd hh hne
          · exact h2 q f' c' hv hh
  | dump p w =>
    cases hp : s.proc p with
    | none =>
      simp only [step, hp]
      exact ⟨⟨h1, h2⟩, by simp⟩
    | some y =>
      obtain ⟨f, c⟩ := y
      cases f with
      | reading =>
        simp only [step, hp]
        exact ⟨⟨h1, h2⟩, by simp⟩
      | writing =>
        simp only [step, hp]
        exact ⟨⟨h1, h2⟩, by simp⟩
      | opened =>
        have hne : sha (hashed c) ≠ h := fun hh => by cases h2 p _ _ hp hh
        simp only [step, hp]
        refine ⟨⟨?_, hnone p⟩, ?_⟩
        · show Function.update s.file (sha (hashed c)) _ h = _
          rw [Function.update_of_ne (Ne.symm hne)]; exact h1
        · intro c' r hr hh
          simp only [Option.some.injEq, Prod.mk.injEq] at hr
          rw [← hr.1] at hh
          exact absurd hh hne

/-- **C99, violated by a crash.** After a process was killed while it wrote the file, every process that starts later with
the same class and indices raises, in every history. -/
theorem C99_violated_crash (sha : List Char → H) (item : List Char → D → Bool → ℤ → Draw → Img) (c : Config D)
    (es : List (Event D Draw)) (c' : Config D) (r : Result Img) (hk : hashed c' = hashed c)
    (h : (c', r) ∈ (run sha item es (run sha item [.start 0 c, .openWrite 0, .kill 0] {}).1).2) : r = .raised := by
  have ht : Torn sha (sha (hashed c)) (run (Img := Img) (Draw := Draw) sha item [.start 0 c, .openWrite 0, .kill 0] {}).1 := by
    constructor
    · simp [run, step]
    · intro p f c' hp
      simp [run, step] at hp
  revert ht h
  generalize (run (Img := Img) (Draw := Draw) sha item [.start 0 c, .openWrite 0, .kill 0] {}).1 = s
  induction es generalizing s with
  | nil => intro h; cases h
  | cons e es ih =>
    intro h ht
    obtain ⟨ht', hr⟩ := step_torn sha item _ s e ht
    have e1 : (run sha item (e :: es) s).2 = (step sha item s e).2.toList ++ (run sha item es (step sha item s e).1).2 := rfl
    rw [e1, List.mem_append] at h
    rcases h with h | h
    · exact hr c' r (Option.mem_toList.1 h) (by rw [hk])
    · exact ih _ h ht'

/-- **C99, violated by a race.** Of two processes that start together, the second can raise because the first is still
writing; nobody is killed and the first gets its images. -/
theorem C99_violated_race (sha : List Char → H) (item : List Char → D → Bool → ℤ → Draw → Img) (c : Config D) (w : Draw) :
    (run sha item [.start 0 c, .openWrite 0, .start 1 c, .read 1, .dump 0 w] {}).2 =
      [(c, .raised), (c, .images (collect item c w))] := by
  simp [run, step]

/-- The events of a process that goes through the function alone. -/
def pass (p : ℕ) (c : Config D) (w : Draw) : List (Event D Draw) := [.start p c, .openWrite p, .dump p w, .read p]

/-- No process inside and no torn file. -/
def Quiet (s : State D Img H) : Prop := (∀ p, s.proc p = none) ∧ ∀ h, s.file h ≠ some .torn

theorem pass_quiet (sha : List Char → H) (item : List Char → D → Bool → ℤ → Draw → Img) (s : State D Img H) (hs : Quiet s)
    (p : ℕ) (c : Config D) (w : Draw) :
    Quiet (run sha item (pass p c w) s).1 ∧ ∃ x, (run sha item (pass p c w) s).2 = [(c, .images x)] := by
  obtain ⟨h1, h2⟩ := hs
  unfold pass
  cases hf : s.file (sha (hashed c)) with
  | none =>
    constructor
    · constructor
      · intro q
        by_cases hq : q = p
        · subst hq; simp [run, step, h1, hf]
        · simp [run, step, h1, hf, Function.update_of_ne hq]
      · intro k
        by_cases hk : k = sha (hashed c)
        · subst hk; simp [run, step, h1, hf]
        · simp only [run, step, h1, hf]
          simp [Function.update_of_ne hk]
          exact h2 k
    · exact ⟨collect item c w, by simp [run, step, h1, hf]⟩
  | some f =>
    cases f with
    | torn => exact absurd hf (h2 _)
    | complete x =>
      constructor
      · constructor
        · intro q
          by_cases hq : q = p
          · subst hq; simp [run, step, h1, hf]
          · simp [run, step, h1, hf, Function.update_of_ne hq]
        · intro k
          simp only [run, step, h1, hf]
          simp
          simp [hf]
          exact h2 k
      · exact ⟨x, by simp [run, step, h1, hf]⟩

theorem run_append (sha : List Char → H) (item : List Char → D → Bool → ℤ → Draw → Img) (es es' : List (Event D Draw)) :
    ∀ s : State D Img H, run sha item (es ++ es') s =
      ((run sha item es' (run sha item es s).1).1, (run sha item es s).2 ++ (run sha item es' (run sha item es s).1).2) := by
  induction es with
  | nil => intro s; rfl
  | cons e es ih =>
    intro s
    have e1 : ∀ l, run sha item (e :: l) s = ((run sha item l (step sha item s e).1).1,
        (step sha item s e).2.toList ++ (run sha item l (step sha item s e).1).2) := fun _ => rfl
    rw [List.cons_append, e1, e1, ih, List.append_assoc]

/-- **C99, progress.** Processes that go through the function one after the other all get images, one result each. -/
theorem C99_alone_partial (sha : List Char → H) (item : List Char → D → Bool → ℤ → Draw → Img)
    (ps : List (ℕ × Config D × Draw)) :
    ∃ xs : List (Images Img), (run sha item (ps.flatMap fun p => pass p.1 p.2.1 p.2.2) {}).2 =
      List.zipWith (fun p x => (p.2.1, Result.images x)) ps xs ∧ xs.length = ps.length := by
  have : ∀ s : State D Img H, Quiet s → ∃ xs : List (Images Img),
      (run sha item (ps.flatMap fun p => pass p.1 p.2.1 p.2.2) s).2 =
        List.zipWith (fun p x => (p.2.1, Result.images x)) ps xs ∧ xs.length = ps.length := by
    induction ps with
    | nil => intro s _; exact ⟨[], rfl, rfl⟩
    | cons p ps ih =>
      intro s hs
      obtain ⟨hq, x, hx⟩ := pass_quiet sha item s hs p.1 p.2.1 p.2.2
      obtain ⟨xs, h1, h2⟩ := ih _ hq
      refine ⟨x :: xs, ?_, by simp [h2]⟩
      rw [List.flatMap_cons, run_append, hx, h1]
      rfl
  exact this {} ⟨fun _ => rfl, fun _ h => by cases h⟩

/-! ### Instances -/

/-- A configuration. -/
def sample : Config ℕ := ⟨"open_images_datamodule.OpenImagesDataModule".toList, 256, [0, 85411], [0, -1]⟩

example : '[' ∉ sample.target ∧ hashed sample =
    "open_images_datamodule.OpenImagesDataModule[0, 85411][0, -1]".toList := by decide +kernel

/-- Images of another size are not those that were asked for. -/
example : (run (H := List Char) id (fun _ d _ i (_ : Unit) => (d, i))
    [.start 0 sample, .openWrite 0, .dump 0 (), .start 1 { sample with data := 128 }, .read 1] {}).2 =
      [(sample, .images ([(256, 0), (256, 85411)], [(256, 0), (256, -1)])),
        ({ sample with data := 128 }, .images ([(256, 0), (256, 85411)], [(256, 0), (256, -1)]))] :=
  C99_violated_data _ _ sample 128 ()

/-- Two processes of the same configuration: the second one reads what the first one wrote. -/
example : (run (H := List Char) id (fun _ d _ i (w : ℕ) => (d, i, w)) (pass 0 sample 3 ++ pass 1 sample 5) {}).2.length = 2 := by
  have := C99_alone_partial (H := List Char) id (fun _ d _ i (w : ℕ) => (d, i, w)) [(0, sample, 3), (1, sample, 5)]
  obtain ⟨xs, h, hl⟩ := this
  have e : ([(0, sample, 3), (1, sample, 5)] : List (ℕ × Config ℕ × ℕ)).flatMap (fun p => pass p.1 p.2.1 p.2.2) =
      pass 0 sample 3 ++ pass 1 sample 5 := rfl
  rw [e] at h
  rw [h]
  simp [hl]

end Verif.Train.LogCache
