import Verif.Script.Cifar
import Mathlib.Tactic.Linarith
import Mathlib.Data.Nat.Digits.Lemmas

/-!
C95: the prepared CIFAR-10 directory.
-/

namespace Verif.Script.Cifar

variable {Img : Type}

/-! ### File names -/

theorem digitChar_inj (a b : ℕ) (ha : a < 10) (hb : b < 10) (h : digitChar a = digitChar b) : a = b := by
  interval_cases a <;> interval_cases b <;> first | rfl | (exact absurd h (by decide))

theorem digitChar_zero : digitChar 0 = '0' := by decide

/-- Decimal digits, with zeros in front, as numbers. -/
def pad5Digits (i : ℕ) : List ℕ := List.replicate (5 - (Nat.digits 10 i).length) 0 ++ (Nat.digits 10 i).reverse

theorem pad5_eq (i : ℕ) : pad5 i = (pad5Digits i).map digitChar := by
  unfold pad5 pad5Digits
  simp [digitChar_zero]

theorem pad5Digits_lt (i : ℕ) : ∀ d ∈ pad5Digits i, d < 10 := by
  intro d hd
  rcases List.mem_append.1 hd with h | h
  · rw [(List.mem_replicate.1 h).2]
    decide
  · exact Nat.digits_lt_base (by decide) (List.mem_reverse.1 h)

theorem ofDigits_pad5 (i : ℕ) : Nat.ofDigits 10 (pad5Digits i).reverse = i := by
  unfold pad5Digits
  rw [List.reverse_append, List.reverse_reverse, List.reverse_replicate, Nat.ofDigits_append, Nat.ofDigits_digits]
  have : ∀ n, Nat.ofDigits 10 (List.replicate n 0) = 0 := by
    intro n
    induction n with
    | zero => rfl
    | succ n ih => rw [List.replicate_succ, Nat.ofDigits_cons, ih]
  rw [this]
  simp

theorem map_inj_of {α β : Type} (f : α → β) (P : α → Prop) (hf : ∀ a b, P a → P b → f a = f b → a = b) :
    ∀ l l' : List α, (∀ a ∈ l, P a) → (∀ a ∈ l', P a) → l.map f = l'.map f → l = l'
  | [], [], _, _, _ => rfl
  | [], b :: l', _, _, h => by simp at h
  | a :: l, [], _, _, h => by simp at h
  | a :: l, b :: l', h1, h2, h => by
    rw [List.map_cons, List.map_cons, List.cons.injEq] at h
    rw [hf a b (h1 a List.mem_cons_self) (h2 b List.mem_cons_self) h.1,
      map_inj_of f P hf l l' (fun x hx => h1 x (List.mem_cons_of_mem _ hx)) (fun x hx => h2 x (List.mem_cons_of_mem _ hx)) h.2]

theorem pad5_inj (i j : ℕ) (h : pad5 i = pad5 j) : i = j := by
  rw [pad5_eq, pad5_eq] at h
  have := map_inj_of digitChar (· < 10) (fun a b ha hb => digitChar_inj a b ha hb) _ _ (pad5Digits_lt i) (pad5Digits_lt j) h
  rw [← ofDigits_pad5 i, this, ofDigits_pad5]

theorem classes_no_underscore (label : ℕ) : '_' ∉ (classes[label]?.getD "").toList := by
  by_cases h : label < 10
  · interval_cases label <;> decide
  · have : classes[label]? = none := List.getElem?_eq_none (by
      show 10 ≤ label
      omega)
    rw [this]
    decide

theorem takeWhile_prefix (a b : List Char) (h : '_' ∉ a) : (a ++ '_' :: b).takeWhile (· ≠ '_') = a := by
  induction a with
  | nil => simp
  | cons x a ih =>
    have hx : x ≠ '_' := fun e => h (by rw [e]; exact List.mem_cons_self)
    rw [List.cons_append, List.takeWhile_cons]
    simp only [ne_eq, hx, not_false_eq_true, decide_true, if_true]
    rw [ih (fun h' => h (List.mem_cons_of_mem _ h'))]

/-- The class of CIFAR-10 with a label, in the order of the data set (airplane, automobile, ...), as the script abbreviates it. -/
def cifarClass : ℕ → String
  | 0 => "plane" | 1 => "car" | 2 => "bird" | 3 => "cat" | 4 => "deer"
  | 5 => "dog" | 6 => "frog" | 7 => "horse" | 8 => "ship" | _ => "truck"

/-- **C95, names.** Images with different numbers have different file names, and the class that the data loader takes from
the name is the class of the image. -/
theorem C95_names (label label' i j : ℕ) (hl : label < 10) :
    (fileName label i = fileName label' j → i = j) ∧
      className (fileName label i) = (cifarClass label).toList := by
  constructor
  · intro h
    have key : ∀ (a a' b b' : List Char), '_' ∉ a → '_' ∉ a' → a ++ '_' :: b = a' ++ '_' :: b' → b = b' := by
      intro a a' b b' ha ha' e
      have e1 : a = a' := by
        rw [← takeWhile_prefix a b ha, e, takeWhile_prefix a' b' ha']
      subst e1
      have := List.append_cancel_left e
      exact (List.cons.inj this).2
    have := key _ _ _ _ (classes_no_underscore label) (classes_no_underscore label') h
    exact pad5_inj i j (List.append_cancel_right this)
  · unfold className fileName
    rw [takeWhile_prefix _ _ (classes_no_underscore label)]
    interval_cases label <;> rfl

/-! ### Complete directories -/

/-- The directory has exactly the images of the data under their names, complete. -/
def Complete (data : Data Img) (d : Dir Img) : Prop :=
  (∀ i x, data[i]? = some x → d (fileName x.2 i) = some (some x.1)) ∧
    ∀ name, d name ≠ none → ∃ i x, data[i]? = some x ∧ name = fileName x.2 i

/-- Every file of the directory has the name of an image of the data, and is incomplete or has that image. -/
def Sound (data : Data Img) (d : Dir Img) : Prop :=
  ∀ name c, d name = some c → ∃ i x, data[i]? = some x ∧ name = fileName x.2 i ∧ (c = none ∨ c = some x.1)

def SoundOut (data : Bool → Data Img) (o : Out Img) : Prop := ∀ s d, o s = some d → Sound (data s) d

/-- A history of runs: each with or without overwriting, killed after some steps or completed. -/
inductive Run
  | killed (overwrite : Bool) (k : ℕ)
  | completed (overwrite : Bool)

def Run.apply (data : Bool → Data Img) (o : Out Img) : Run → Out Img
  | .killed w k => runKilled w data k o
  | .completed w => runCompleted w data o

/-- The output directory after a history; at first there is nothing. -/
def after (data : Bool → Data Img) (history : List Run) : Out Img := history.foldl (Run.apply data) fun _ => none

/-- An operation that writes an image of the data under its name, or its incomplete file. -/
def Good (data : Bool → Data Img) : Op Img → Prop
  | .mkdir _ => True
  | .write s name c => ∃ i x, (data s)[i]? = some x ∧ name = fileName x.2 i ∧ (c = none ∨ c = some x.1)

theorem mem_zipIdx_getElem? {α : Type} (l : List α) (x : α × ℕ) (h : x ∈ l.zipIdx) : l[x.2]? = some x.1 := by
  obtain ⟨a, i⟩ := x
  exact List.mem_zipIdx_iff_getElem?.1 h

theorem splitOps_good (data : Bool → Data Img) (s w : Bool) (o : Out Img) :
    ∀ op ∈ splitOps s w (data s) o, Good data op := by
  intro op hop
  unfold splitOps at hop
  split_ifs at hop
  · cases hop
  · rcases List.mem_cons.1 hop with rfl | hop
    · trivial
    · obtain ⟨x, hx, hop⟩ := List.mem_flatMap.1 hop
      have hi := mem_zipIdx_getElem? _ x hx
      unfold imageOps at hop
      rcases List.mem_cons.1 hop with rfl | hop
      · exact ⟨x.2, x.1, hi, rfl, Or.inl rfl⟩
      · rw [List.mem_singleton] at hop
        subst hop
        exact ⟨x.2, x.1, hi, rfl, Or.inr rfl⟩

theorem runOps_good (data : Bool → Data Img) (w : Bool) (o : Out Img) : ∀ op ∈ runOps w data o, Good data op := by
  intro op hop
  rcases List.mem_append.1 hop with h | h
  · exact splitOps_good data true w o op h
  · exact splitOps_good data false w o op h

theorem apply_sound (data : Bool → Data Img) (o : Out Img) (h : SoundOut data o) (op : Op Img) (hg : Good data op) :
    SoundOut data (op.apply o) := by
  intro s d hd
  cases op with
  | mkdir s' =>
    unfold Op.apply at hd
    cases ho : o s' with
    | some d' =>
      simp only [ho] at hd
      exact h s d hd
    | none =>
      simp only [ho] at hd
      by_cases e : s = s'
      · subst e
        rw [Function.update_self] at hd
        cases hd
        intro name c hc
        cases hc
      · rw [Function.update_of_ne e] at hd
        exact h s d hd
  | write s' name c =>
    unfold Op.apply at hd
    cases ho : o s' with
    | none =>
      simp only [ho] at hd
      exact h s d hd
    | some d' =>
      simp only [ho] at hd
      by_cases e : s = s'
      · subst e
        rw [Function.update_self] at hd
        cases hd
        intro name' c' hc'
        by_cases en : name' = name
        · subst en
          rw [Function.update_self] at hc'
          cases hc'
          exact hg
        · rw [Function.update_of_ne en] at hc'
          exact h s d' ho name' c' hc'
      · rw [Function.update_of_ne e] at hd
        exact h s d hd

theorem foldl_sound (data : Bool → Data Img) : ∀ (ops : List (Op Img)) (o : Out Img), SoundOut data o →
    (∀ op ∈ ops, Good data op) → SoundOut data (ops.foldl Op.apply o)
  | [], _, h, _ => h
  | op :: ops, o, h, hg => foldl_sound data ops (op.apply o) (apply_sound data o h op (hg op List.mem_cons_self))
      (fun op' h' => hg op' (List.mem_cons_of_mem _ h'))

theorem after_snoc (data : Bool → Data Img) (history : List Run) (r : Run) :
    after data (history ++ [r]) = r.apply data (after data history) := by
  unfold after
  rw [List.foldl_append]
  rfl

/-- **C95, safety.** After any history, killed runs included, every file has the name of an image, and is incomplete or
has exactly this image. -/
theorem C95_sound (data : Bool → Data Img) (history : List Run) : SoundOut data (after data history) := by
  induction history using List.reverseRecOn with
  | nil => intro s d h; cases h
  | append_singleton l r ih =>
    rw [after_snoc]
    cases r with
    | killed w k => exact foldl_sound data _ _ ih (fun op h => runOps_good data w _ op (List.mem_of_mem_take h))
    | completed w => exact foldl_sound data _ _ ih (runOps_good data w _)

/-! What writing all images of a split does. -/

/-- The writes of a split, for the images from number `k` on. -/
def writes (s : Bool) (k : ℕ) (data : Data Img) : List (Op Img) := (data.zipIdx k).flatMap fun x => imageOps s x.1 x.2

theorem imageOps_apply (s : Bool) (x : Img × ℕ) (i : ℕ) (o : Out Img) (d : Dir Img) (h : o s = some d) :
    (imageOps s x i).foldl Op.apply o = Function.update o s (some (Function.update d (fileName x.2 i) (some (some x.1)))) := by
  show Op.apply (Op.apply o (.write s (fileName x.2 i) none)) (.write s (fileName x.2 i) (some x.1)) = _
  have h1 : Op.apply o (.write s (fileName x.2 i) none) =
      Function.update o s (some (Function.update d (fileName x.2 i) (some none))) := by
    unfold Op.apply
    simp only [h]
  rw [h1]
  unfold Op.apply
  simp only [Function.update_self, Function.update_idem]

theorem writes_apply (s : Bool) : ∀ (data : Data Img) (k : ℕ) (o : Out Img) (d : Dir Img), o s = some d →
    ∃ d', (writes s k data).foldl Op.apply o = Function.update o s (some d') ∧
      (∀ i x, data[i]? = some x → d' (fileName x.2 (k + i)) = some (some x.1)) ∧
      ∀ name, (∀ i x, data[i]? = some x → name ≠ fileName x.2 (k + i)) → d' name = d name
  | [], k, o, d, h => ⟨d, by
      show o = _
      rw [← h, Function.update_eq_self], by simp, fun _ _ => rfl⟩
  | x :: data, k, o, d, h => by
    have e : writes s k (x :: data) = imageOps s x k ++ writes s (k + 1) data := by
      unfold writes
      rw [List.zipIdx_cons, List.flatMap_cons]
    rw [e, List.foldl_append, imageOps_apply s x k o d h]
    obtain ⟨d', h1, h2, h3⟩ := writes_apply s data (k + 1)
      (Function.update o s (some (Function.update d (fileName x.2 k) (some (some x.1))))) _ (Function.update_self _ _ _)
    refine ⟨d', by rw [h1, Function.update_idem], ?_, ?_⟩
    · intro i y hy
      cases i with
      | zero =>
        simp only [List.getElem?_cons_zero, Option.some.injEq] at hy
        subst hy
        rw [Nat.add_zero, h3 (fileName x.2 k) (fun i y _ e => ?_), Function.update_self]
        have := pad5_inj k (k + 1 + i) ?_
        · omega
        · have key : ∀ (a a' b b' : List Char), '_' ∉ a → '_' ∉ a' → a ++ '_' :: b = a' ++ '_' :: b' → b = b' := by
            intro a a' b b' ha ha' e
            have e1 : a = a' := by
              rw [← takeWhile_prefix a b ha, e, takeWhile_prefix a' b' ha']
            subst e1
            exact (List.cons.inj (List.append_cancel_left e)).2
          exact List.append_cancel_right (key _ _ _ _ (classes_no_underscore _) (classes_no_underscore _) e)
      | succ i =>
        simp only [List.getElem?_cons_succ] at hy
        have := h2 i y hy
        rwa [show k + (i + 1) = k + 1 + i by omega]
    · intro name hn
      rw [h3 name (fun i y hy => ?_), Function.update_of_ne]
      · exact hn 0 x rfl
      · have := hn (i + 1) y (by simpa using hy)
        rwa [show k + (i + 1) = k + 1 + i by omega] at this

theorem splitOps_apply (data : Bool → Data Img) (s w : Bool) (o o' : Out Img) (ho : SoundOut data o) (hs : o' s = o s)
    (hw : w = true ∨ o s = none) : ∃ d, (splitOps s w (data s) o).foldl Op.apply o' = Function.update o' s (some d) ∧
      Complete (data s) d := by
  unfold splitOps
  rw [if_neg (by
    rintro ⟨h1, h2⟩
    rcases hw with h | h
    · rw [h] at h2; cases h2
    · rw [h] at h1; cases h1)]
  rw [List.foldl_cons]
  obtain ⟨d0, hd0, hsound⟩ : ∃ d0, Op.apply o' (.mkdir s) = Function.update o' s (some d0) ∧ Sound (data s) d0 := by
    cases hc : o s with
    | none =>
      refine ⟨fun _ => none, ?_, fun name c h => by cases h⟩
      unfold Op.apply
      simp only [hs, hc]
    | some d =>
      refine ⟨d, ?_, ho s d hc⟩
      unfold Op.apply
      simp only [hs, hc]
      rw [← hc, ← hs, Function.update_eq_self]
  rw [hd0]
  obtain ⟨d', h1, h2, h3⟩ := writes_apply s (data s) 0 (Function.update o' s (some d0)) d0 (Function.update_self _ _ _)
  refine ⟨d', ?_, ?_, ?_⟩
  · have : (data s).zipIdx.flatMap (fun x => imageOps s x.1 x.2) = writes s 0 (data s) := rfl
    rw [this, h1, Function.update_idem]
  · intro i x hx
    simpa using h2 i x hx
  · intro name hn
    by_contra hc
    have hc' : ∀ i x, (data s)[i]? = some x → name ≠ fileName x.2 (0 + i) := fun i x hx e => hc ⟨i, x, hx, by simpa using e⟩
    rw [h3 name hc'] at hn
    obtain ⟨c, hcc⟩ := Option.ne_none_iff_exists'.1 hn
    obtain ⟨i, x, hx, e, -⟩ := hsound name c hcc
    exact hc ⟨i, x, hx, e⟩

theorem splitOps_skip (data : Bool → Data Img) (s : Bool) (o : Out Img) (d : Dir Img) (h : o s = some d) :
    splitOps s false (data s) o = [] := by
  unfold splitOps
  rw [if_pos ⟨by rw [h]; rfl, rfl⟩]

/-- **C95, overwriting.** After any history, killed runs included, a completed run with `--overwrite` leaves exactly the
images, complete. -/
theorem C95_overwrite_partial (data : Bool → Data Img) (history : List Run) (s : Bool) :
    ∃ d, after data (history ++ [.completed true]) s = some d ∧ Complete (data s) d := by
  rw [after_snoc]
  set o := after data history with ho
  have hsound := C95_sound data history
  show ∃ d, (runOps true data o).foldl Op.apply o s = some d ∧ _
  unfold runOps
  rw [List.foldl_append]
  obtain ⟨d1, h1, c1⟩ := splitOps_apply data true true o o hsound rfl (Or.inl rfl)
  rw [h1]
  obtain ⟨d2, h2, c2⟩ := splitOps_apply data false true o (Function.update o true (some d1)) hsound
    (Function.update_of_ne (by decide) _ _) (Or.inl rfl)
  rw [h2]
  cases s with
  | true => exact ⟨d1, by rw [Function.update_of_ne (by decide), Function.update_self], c1⟩
  | false => exact ⟨d2, Function.update_self _ _ _, c2⟩

/-- Every directory that exists has exactly the images. -/
def AllComplete (data : Bool → Data Img) (o : Out Img) : Prop := ∀ s d, o s = some d → Complete (data s) d

theorem completed_complete (data : Bool → Data Img) (w : Bool) (o : Out Img) (hsound : SoundOut data o)
    (hc : AllComplete data o) (s : Bool) : ∃ d, runCompleted w data o s = some d ∧ Complete (data s) d := by
  have key : ∀ (s : Bool) (o' : Out Img), o' s = o s →
      ∃ d, (splitOps s w (data s) o).foldl Op.apply o' = Function.update o' s (some d) ∧ Complete (data s) d := by
    intro s o' hs
    by_cases h : w = true ∨ o s = none
    · exact splitOps_apply data s w o o' hsound hs h
    · have hw : w = false := by
        cases w with
        | true => exact absurd (Or.inl rfl) h
        | false => rfl
      obtain ⟨d, hd⟩ := Option.ne_none_iff_exists'.1 (fun e => h (Or.inr e))
      subst hw
      rw [splitOps_skip data s o d hd]
      refine ⟨d, ?_, hc s d hd⟩
      show o' = _
      rw [← hd, ← hs, Function.update_eq_self]
  show ∃ d, (runOps w data o).foldl Op.apply o s = some d ∧ _
  unfold runOps
  rw [List.foldl_append]
  obtain ⟨d1, h1, c1⟩ := key true o rfl
  rw [h1]
  obtain ⟨d2, h2, c2⟩ := key false (Function.update o true (some d1)) (Function.update_of_ne (by decide) _ _)
  rw [h2]
  cases s with
  | true => exact ⟨d1, by rw [Function.update_of_ne (by decide), Function.update_self], c1⟩
  | false => exact ⟨d2, Function.update_self _ _ _, c2⟩

/-- The history has no killed run. -/
def Uninterrupted (history : List Run) : Prop := ∀ r ∈ history, ∃ w, r = .completed w

/-- **C95, without interruptions.** After one or more completed runs, with any flags, both directories have exactly the
images. -/
theorem C95_complete_partial (data : Bool → Data Img) (history : List Run) (hu : Uninterrupted history)
    (hne : history ≠ []) (s : Bool) : ∃ d, after data history s = some d ∧ Complete (data s) d := by
  have hall : ∀ h : List Run, Uninterrupted h → AllComplete data (after data h) := by
    intro h
    induction h using List.reverseRecOn with
    | nil => intro _ s d h; cases h
    | append_singleton l r ih =>
      intro hu s d hd
      obtain ⟨w, rfl⟩ := hu r (by simp)
      rw [after_snoc] at hd
      obtain ⟨d', h1, h2⟩ := completed_complete data w _ (C95_sound data l)
        (ih (fun r hr => hu r (List.mem_append_left _ hr))) s
      have : runCompleted w data (after data l) s = some d := hd
      rw [h1] at this
      cases this
      exact h2
  obtain ⟨l, r, rfl⟩ : ∃ l r, history = l ++ [r] := ⟨history.dropLast, history.getLast hne, (List.dropLast_append_getLast hne).symm⟩
  obtain ⟨w, rfl⟩ := hu r (by simp)
  rw [after_snoc]
  exact completed_complete data w _ (C95_sound data l) (hall l (fun r hr => hu r (List.mem_append_left _ hr))) s

/-- The steps of a run in an empty output directory. -/
theorem first_ops (data : Bool → Data Img) (w : Bool) :
    runOps w data (fun _ => none) = .mkdir true :: (writes true 0 (data true) ++ .mkdir false :: writes false 0 (data false)) := by
  unfold runOps splitOps
  rw [if_neg (by simp), if_neg (by simp)]
  rfl

/-- The steps of a run without overwriting leave a split alone whose directory exists. -/
theorem foldl_stuck (data : Bool → Data Img) (s : Bool) : ∀ (ops : List (Op Img)) (o : Out Img),
    (∀ op ∈ ops, op = .mkdir (!s) ∨ ∃ name c, op = .write (!s) name c) → (ops.foldl Op.apply o) s = o s
  | [], _, _ => rfl
  | op :: ops, o, h => by
    have hne : s ≠ !s := by cases s <;> decide
    rw [List.foldl_cons, foldl_stuck data s ops _ (fun op' h' => h op' (List.mem_cons_of_mem _ h'))]
    rcases h op List.mem_cons_self with rfl | ⟨name, c, rfl⟩
    · unfold Op.apply
      cases ho : o (!s) with
      | none => simp only [ho]; exact Function.update_of_ne hne _ _
      | some d => simp only [ho]
    · unfold Op.apply
      cases ho : o (!s) with
      | none => simp only [ho]
      | some d => simp only [ho]; exact Function.update_of_ne hne _ _

theorem splitOps_own (s w : Bool) (data : Data Img) (o : Out Img) :
    ∀ op ∈ splitOps s w data o, op = .mkdir s ∨ ∃ name c, op = .write s name c := by
  intro op hop
  unfold splitOps at hop
  split_ifs at hop
  · cases hop
  · rcases List.mem_cons.1 hop with rfl | hop
    · exact Or.inl rfl
    · obtain ⟨x, -, hop⟩ := List.mem_flatMap.1 hop
      unfold imageOps at hop
      rcases List.mem_cons.1 hop with rfl | hop
      · exact Or.inr ⟨_, _, rfl⟩
      · rw [List.mem_singleton] at hop
        subst hop
        exact Or.inr ⟨_, _, rfl⟩

/-- The run does not overwrite. -/
def Run.Keeps : Run → Prop
  | .killed w _ => w = false
  | .completed w => w = false

theorem keeps_stuck (data : Bool → Data Img) (o : Out Img) (s : Bool) (d : Dir Img) (h : o s = some d) (r : Run)
    (hr : r.Keeps) : r.apply data o s = some d := by
  have hops : ∀ op ∈ runOps false data o, op = .mkdir (!s) ∨ ∃ name c, op = .write (!s) name c := by
    intro op hop
    unfold runOps at hop
    cases s with
    | true =>
      rw [splitOps_skip data true o d h, List.nil_append] at hop
      exact splitOps_own _ _ _ _ op hop
    | false =>
      rw [splitOps_skip data false o d h, List.append_nil] at hop
      exact splitOps_own _ _ _ _ op hop
  cases r with
  | killed w k =>
    cases (hr : w = false)
    exact (foldl_stuck data s _ o (fun op hop => hops op (List.mem_of_mem_take hop))).trans h
  | completed w =>
    cases (hr : w = false)
    exact (foldl_stuck data s _ o hops).trans h

/-- **C95, violated.** Once the directory of a split exists, in whatever state an interruption left it, no later run
without `--overwrite` changes it, although these runs report success. -/
theorem C95_violated (data : Bool → Data Img) (history later : List Run) (s : Bool) (d : Dir Img)
    (h : after data history s = some d) (hl : ∀ r ∈ later, r.Keeps) : after data (history ++ later) s = some d := by
  induction later using List.reverseRecOn with
  | nil => rwa [List.append_nil]
  | append_singleton l r ih =>
    rw [← List.append_assoc, after_snoc]
    exact keeps_stuck data _ s d (ih (fun r hr => hl r (List.mem_append_left _ hr))) r (hl r (by simp))

/-- **C95, violated: cases.** Killed right after it created the directory, a run leaves it empty; killed while it writes the
first image, it leaves an incomplete file; any later runs without `--overwrite`, all completed, keep this, and the
directory does not have the images. -/
theorem C95_violated_witness (data : Bool → Data Img) (x : Img × ℕ) (rest : Data Img) (h : data true = x :: rest) (n : ℕ) :
    (∃ d, after data (.killed false 1 :: List.replicate n (.completed false)) true = some d ∧ (∀ name, d name = none) ∧
      ¬ Complete (data true) d) ∧
    ∃ d, after data (.killed false 2 :: List.replicate n (.completed false)) true = some d ∧
      d (fileName x.2 0) = some none ∧ ¬ Complete (data true) d := by
  have hk : ∀ r ∈ List.replicate n (Run.completed false), r.Keeps := fun r hr => by
    rw [(List.mem_replicate.1 hr).2]
    exact rfl
  constructor
  · have e : after data [.killed false 1] true = some fun _ => none := by
      show runKilled false data 1 (fun _ => none) true = _
      unfold runKilled
      rw [first_ops]
      rfl
    refine ⟨_, C95_violated data [.killed false 1] _ true _ e hk, fun _ => rfl, fun hc => ?_⟩
    have := hc.1 0 x (by rw [h]; rfl)
    cases this
  · have e : after data [.killed false 2] true =
        some (Function.update (fun _ => none) (fileName x.2 0) (some none)) := by
      show runKilled false data 2 (fun _ => none) true = _
      unfold runKilled
      rw [first_ops, h]
      rfl
    refine ⟨_, C95_violated data [.killed false 2] _ true _ e hk, Function.update_self _ _ _, fun hc => ?_⟩
    have := hc.1 0 x (by rw [h]; rfl)
    rw [Function.update_self] at this
    cases this

/-- A name as the loader sees it, and a history that meets the hypotheses. -/
example : fileName 6 42 = "frog_00042.png".toList := by decide +kernel

example : Uninterrupted [.completed false, .completed true] := by
  intro r hr
  simp at hr
  rcases hr with rfl | rfl
  · exact ⟨_, rfl⟩
  · exact ⟨_, rfl⟩

end Verif.Script.Cifar
