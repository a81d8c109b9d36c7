import Verif.Data.Frames
import Mathlib.Data.List.TakeWhile
import Mathlib.Tactic.Ring
import Mathlib.Tactic.Linarith
import Mathlib.Tactic.Positivity
import Mathlib.Algebra.Order.Ring.Int

/-!
Properties of the indexing of the data sets: C62.
-/

namespace Verif.Data.Frames

/-! ### Vimeo -/

variable {Img T : Type}

theorem pyGet_nonneg {α : Type} (l : List α) (i : ℕ) (h : i < l.length) : pyGet l i = .ok l[i] := by
  have hj : (if (i : ℤ) < 0 then (i : ℤ) + l.length else i) = i := if_neg (by omega)
  unfold pyGet
  rw [hj]
  dsimp only
  rw [if_neg (by omega), Int.toNat_natCast, List.getElem?_eq_getElem h]

theorem pyGet_neg {α : Type} (l : List α) (i : ℕ) (h : i < l.length) : pyGet l ((i : ℤ) - l.length) = .ok l[i] := by
  have hj : (if (i : ℤ) - l.length < 0 then (i : ℤ) - l.length + l.length else (i : ℤ) - l.length) = i := by
    rw [if_pos (by omega)]; omega
  unfold pyGet
  rw [hj]
  dsimp only
  rw [if_neg (by omega), Int.toNat_natCast, List.getElem?_eq_getElem h]

theorem pyGet_out {α : Type} (l : List α) (i : ℤ) (h : i < -l.length ∨ (l.length : ℤ) ≤ i) :
    pyGet l i = .error .index := by
  unfold pyGet
  rcases h with h | h
  · have hj : (if i < 0 then i + l.length else i) = i + l.length := if_pos (by omega)
    rw [hj]
    dsimp only
    rw [if_pos (by omega)]
  · have hj : (if i < 0 then i + l.length else i) = i := if_neg (by omega)
    rw [hj]
    dsimp only
    rw [if_neg (by omega), List.getElem?_eq_none (by omega)]

/-- **C62, Vimeo constructor.** The constructor accepts exactly one to seven frames with exactly one of a list of
folders and a valid split, raises `ValueError` otherwise, and the folders are those of the list, or the stripped
lines of the split's file below `sequences/`. -/
theorem C62_vimeo_init (lines : String → List (List Char)) (toTensor : Img → T) (a : VimeoArgs Img T) :
    let valid := (1 ≤ a.framesPerGroup ∧ a.framesPerGroup ≤ 7) ∧
      ((∃ l, a.folderList = some l ∧ a.split = none) ∨
        (a.folderList = none ∧ (a.split = some "train" ∨ a.split = some "test")))
    (valid → ∃ v, Vimeo.init lines toTensor a = .ok v ∧ v.asVideo = a.asVideo ∧
      (v.framesPerGroup : ℤ) = a.framesPerGroup ∧ (∀ l, a.folderList = some l → v.folders = l) ∧
      (∀ s, a.split = some s → v.folders = (lines s).map fun f => "sequences/".toList ++ strip f) ∧
      (∀ t, a.pilTransform = some t → v.pilTransform = some t) ∧
      (a.pilTransform = none → v.pilTransform = if a.asVideo then some fun i => some (toTensor i) else none)) ∧
    (¬ valid → Vimeo.init lines toTensor a = .error .value) := by
  obtain ⟨asVideo, fpg, split, folderList, pil⟩ := a
  intro valid
  by_cases h1 : 1 ≤ fpg ∧ fpg < 8
  · have h1' : 1 ≤ fpg ∧ fpg ≤ 7 := by omega
    cases split with
    | none =>
      cases folderList with
      | none => exact ⟨fun h => by simp [valid] at h, fun _ => by simp [Vimeo.init, h1]⟩
      | some l =>
        refine ⟨fun _ => ⟨_, by unfold Vimeo.init; rw [if_neg (not_not.2 h1)]; rfl, rfl, ?_, ?_, ?_, ?_, ?_⟩,
          fun h => (h ?_).elim⟩
        · exact Int.toNat_of_nonneg (by omega)
        · rintro _ ⟨⟩; rfl
        · nofun
        · rintro t ⟨⟩; rfl
        · rintro ⟨⟩; cases asVideo <;> rfl
        · exact ⟨h1', Or.inl ⟨l, rfl, rfl⟩⟩
    | some s =>
      cases folderList with
      | some l => exact ⟨fun h => by simp [valid] at h, fun _ => by simp [Vimeo.init, h1]⟩
      | none =>
        by_cases hs : s = "train" ∨ s = "test"
        · refine ⟨fun _ => ⟨_, by
            unfold Vimeo.init
            rw [if_neg (not_not.2 h1)]
            dsimp only
            rw [if_neg (by simp), Option.getD_some, if_neg (not_not.2 hs)], rfl, ?_, ?_, ?_, ?_, ?_⟩,
            fun h => (h ?_).elim⟩
          · exact Int.toNat_of_nonneg (by omega)
          · nofun
          · rintro _ ⟨⟩; rfl
          · rintro t ⟨⟩; rfl
          · rintro ⟨⟩; cases asVideo <;> rfl
          · exact ⟨h1', Or.inr ⟨rfl, by rcases hs with rfl | rfl <;> simp⟩⟩
        · refine ⟨fun h => ?_, fun _ => ?_⟩
          · rcases h.2 with ⟨l, h, -⟩ | ⟨-, h⟩
            · cases h
            · exact (hs (by simpa using h)).elim
          · unfold Vimeo.init
            rw [if_neg (not_not.2 h1)]
            dsimp only
            rw [if_neg (by simp), Option.getD_some, if_pos hs]
  · refine ⟨fun h => ?_, fun _ => ?_⟩
    · have := h.1; dsimp only at this; omega
    · unfold Vimeo.init
      rw [if_pos h1]

theorem range_mul_flatMap {α β : Type} (n : ℕ) (g : Option α → ℕ → β) (hn : 0 < n) (l : List α) :
    (List.range (l.length * n)).map (fun i => g l[i / n]? (i % n)) =
      l.flatMap fun a => (List.range n).map fun k => g (some a) k := by
  induction l using List.reverseRecOn with
  | nil => simp
  | append_singleton l a ih =>
    rw [List.flatMap_append, ← ih]
    have e : (l ++ [a]).length * n = l.length * n + n := by simp; ring
    rw [e, List.range_add, List.map_append, List.map_map]
    congr 1
    · refine List.map_congr_left fun i hi => ?_
      have : i / n < l.length := (Nat.div_lt_iff_lt_mul hn).2 (List.mem_range.1 hi)
      rw [List.getElem?_append_left this]
    · simp only [List.flatMap_cons, List.flatMap_nil, List.append_nil]
      refine List.map_congr_left fun k hk => ?_
      have hk := List.mem_range.1 hk
      have e1 : (l.length * n + k) / n = l.length := by
        rw [Nat.mul_comm, Nat.mul_add_div hn, Nat.div_eq_of_lt hk]; rfl
      have e2 : (l.length * n + k) % n = k := by
        rw [Nat.mul_comm, Nat.mul_add_mod, Nat.mod_eq_of_lt hk]
      rw [Function.comp_apply, e1, e2]
      simp

/-- **C62, Vimeo images.** In image mode with a transform that returns tensors, the items `0 … len − 1` are the frames
1, …, `frames_per_group` of the first folder, then those of the second, and so on: every frame exactly once. -/
theorem C62_vimeo_images_partial (load : List Char → ℤ → Except Err Img) (v : Vimeo Img T)
    (hm : v.asVideo = false) (hn : 1 ≤ v.framesPerGroup) (img : List Char → ℕ → Img) (t : Img → T)
    (hl : ∀ (f : List Char) (k : ℕ), load f ((k : ℤ) + 1) = .ok (img f (k + 1))) (ht : v.pilTransform = some fun i => some (t i)) :
    (List.range v.len).map (fun i : ℕ => v.get load (i : ℤ)) =
      v.folders.flatMap fun f => (List.range v.framesPerGroup).map fun k => .ok [t (img f (k + 1))] := by
  refine Eq.trans ?_ (range_mul_flatMap v.framesPerGroup
    (fun a k => match a with
      | some f => (Except.ok [t (img f (k + 1))] : Except Err (List T))
      | none => .error .index) hn v.folders)
  unfold Vimeo.len
  rw [hm, if_neg (by simp)]
  refine List.map_congr_left fun i hi => ?_
  have hi := List.mem_range.1 hi
  have hlt : i / v.framesPerGroup < v.folders.length := (Nat.div_lt_iff_lt_mul hn).2 hi
  unfold Vimeo.get
  rw [hm, if_neg (by simp)]
  have e1 : (i : ℤ).fdiv v.framesPerGroup = ((i / v.framesPerGroup : ℕ) : ℤ) := by
    rw [Int.fdiv_eq_ediv_of_nonneg _ (by omega)]; rfl
  have e2 : (i : ℤ).fmod v.framesPerGroup = ((i % v.framesPerGroup : ℕ) : ℤ) := by
    rw [Int.fmod_eq_emod_of_nonneg _ (by omega)]; rfl
  rw [e1, e2, pyGet_nonneg _ _ hlt, List.getElem?_eq_getElem hlt]
  unfold Vimeo.loadImage
  dsimp only [bind, Except.bind]
  rw [hl, ht]
  rfl

/-- **C62, Vimeo indices.** In both modes, and whatever the transform is, the item `i − len` is the item `i`, and
indices outside `[-len, len)` raise `IndexError`, so that iterating over the data set stops after the last item. -/
theorem C62_vimeo_index (load : List Char → ℤ → Except Err Img) (v : Vimeo Img T) (hn : 1 ≤ v.framesPerGroup) :
    (∀ i : ℕ, i < v.len → v.get load ((i : ℤ) - v.len) = v.get load i) ∧
      ∀ i : ℤ, i < -v.len ∨ (v.len : ℤ) ≤ i → v.get load i = .error .index := by
  cases hm : v.asVideo with
  | true =>
    have hlen : v.len = v.folders.length := by unfold Vimeo.len; rw [hm]; rfl
    rw [hlen]
    refine ⟨fun i hi => ?_, fun i hi => ?_⟩
    · unfold Vimeo.get
      rw [hm, if_pos rfl, if_pos rfl, pyGet_neg _ _ hi, pyGet_nonneg _ _ hi]
    · unfold Vimeo.get
      rw [hm, if_pos rfl, pyGet_out _ _ hi]
      rfl
  | false =>
    have hlen : v.len = v.folders.length * v.framesPerGroup := by unfold Vimeo.len; rw [hm]; rfl
    set n := v.framesPerGroup with hnd
    have hn0 : (0 : ℤ) < n := by omega
    refine ⟨fun i hi => ?_, fun i hi => ?_⟩
    · unfold Vimeo.get
      rw [hm, if_neg (by simp), if_neg (by simp), ← hnd]
      have hlt : i / n < v.folders.length := (Nat.div_lt_iff_lt_mul hn).2 (hlen ▸ hi)
      have e1 : ((i : ℤ) - v.len).fdiv n = ((i / n : ℕ) : ℤ) - v.folders.length := by
        rw [Int.fdiv_eq_ediv_of_nonneg _ hn0.le, hlen]
        push_cast
        rw [show (i : ℤ) - v.folders.length * n = i + (-v.folders.length : ℤ) * n by ring,
          Int.add_mul_ediv_right _ _ hn0.ne']
        ring
      have e2 : ((i : ℤ) - v.len).fmod n = (i : ℤ).fmod n := by
        rw [Int.fmod_eq_emod_of_nonneg _ hn0.le, Int.fmod_eq_emod_of_nonneg _ hn0.le, hlen]
        push_cast
        rw [show (i : ℤ) - v.folders.length * n = i + (-v.folders.length : ℤ) * n by ring,
          Int.add_mul_emod_self_right]
      have e3 : (i : ℤ).fdiv n = ((i / n : ℕ) : ℤ) := by
        rw [Int.fdiv_eq_ediv_of_nonneg _ hn0.le]; rfl
      rw [e1, e2, e3, pyGet_neg _ _ hlt, pyGet_nonneg _ _ hlt]
    · unfold Vimeo.get
      rw [hm, if_neg (by simp), ← hnd, pyGet_out]
      · rfl
      · rw [Int.fdiv_eq_ediv_of_nonneg _ hn0.le]
        rw [hlen] at hi
        push_cast at hi
        rcases hi with hi | hi
        · left
          exact (Int.ediv_lt_iff_lt_mul hn0).2 (by linarith)
        · right
          exact (Int.le_ediv_iff_mul_le hn0).2 hi

/-- **C62, Vimeo videos.** In video mode item `i` holds the frames 1, …, `frames_per_group` of folder `i`, in order; also
without a transform, since a default one is installed. -/
theorem C62_vimeo_videos (lines : String → List (List Char)) (toTensor : Img → T) (load : List Char → ℤ → Except Err Img)
    (img : List Char → ℕ → Img) (hl : ∀ (f : List Char) (k : ℕ), load f ((k : ℤ) + 1) = .ok (img f (k + 1))) (a : VimeoArgs Img T)
    (ha : a.asVideo = true) (hp : a.pilTransform = none) (v : Vimeo Img T)
    (hv : Vimeo.init lines toTensor a = .ok v) :
    v.len = v.folders.length ∧ ∀ (i : ℕ) (hi : i < v.folders.length),
      v.get load i = .ok ((List.range v.framesPerGroup).map fun k => toTensor (img v.folders[i] (k + 1))) := by
  have hval : (1 ≤ a.framesPerGroup ∧ a.framesPerGroup ≤ 7) ∧
      ((∃ l, a.folderList = some l ∧ a.split = none) ∨
        (a.folderList = none ∧ (a.split = some "train" ∨ a.split = some "test"))) := by
    by_contra h
    have := (C62_vimeo_init lines toTensor a).2 h
    rw [hv] at this
    cases this
  obtain ⟨v', hv', h1, -, -, -, -, h2⟩ := (C62_vimeo_init lines toTensor a).1 hval
  rw [hv] at hv'
  cases hv'
  rw [ha] at h1
  have h2 := h2 hp
  rw [ha, if_pos rfl] at h2
  refine ⟨by unfold Vimeo.len; rw [h1]; rfl, fun i hi => ?_⟩
  unfold Vimeo.get
  rw [h1, if_pos rfl, pyGet_nonneg _ _ hi]
  dsimp only [bind, Except.bind]
  have key : ∀ l : List ℕ, (l.mapM fun k : ℕ => v.loadImage load v.folders[i] ((k : ℤ) + 1)) =
      .ok (l.map fun k => toTensor (img v.folders[i] (k + 1))) := by
    intro l
    induction l with
    | nil => rfl
    | cons k l ih =>
      rw [List.mapM_cons, ih]
      unfold Vimeo.loadImage
      dsimp only [bind, Except.bind]
      rw [hl, h2]
      rfl
  exact key _

/-- **C62 is violated in image mode.** Without a transform, which is the default and documented to apply none, every item of
every data set in image mode raises `TypeError`. -/
theorem C62_violated (lines : String → List (List Char)) (toTensor : Img → T) (load : List Char → ℤ → Except Err Img)
    (hl : ∀ f k, ∃ i, load f k = .ok i) (a : VimeoArgs Img T) (ha : a.asVideo = false) (hp : a.pilTransform = none)
    (v : Vimeo Img T) (hv : Vimeo.init lines toTensor a = .ok v) (i : ℕ) (hi : i < v.len) :
    v.get load i = .error .type := by
  have hval : (1 ≤ a.framesPerGroup ∧ a.framesPerGroup ≤ 7) ∧
      ((∃ l, a.folderList = some l ∧ a.split = none) ∨
        (a.folderList = none ∧ (a.split = some "train" ∨ a.split = some "test"))) := by
    by_contra h
    have := (C62_vimeo_init lines toTensor a).2 h
    rw [hv] at this
    cases this
  obtain ⟨v', hv', h1, h3, -, -, -, h2⟩ := (C62_vimeo_init lines toTensor a).1 hval
  rw [hv] at hv'
  cases hv'
  rw [ha] at h1
  have h2 := h2 hp
  rw [ha, if_neg (by simp)] at h2
  have hn : 1 ≤ v.framesPerGroup := by omega
  unfold Vimeo.len at hi
  rw [h1, if_neg (by simp)] at hi
  have hlt : i / v.framesPerGroup < v.folders.length := (Nat.div_lt_iff_lt_mul hn).2 hi
  unfold Vimeo.get
  rw [h1, if_neg (by simp)]
  have e1 : (i : ℤ).fdiv v.framesPerGroup = ((i / v.framesPerGroup : ℕ) : ℤ) := by
    rw [Int.fdiv_eq_ediv_of_nonneg _ (by omega)]; rfl
  rw [e1, pyGet_nonneg _ _ hlt]
  dsimp only [bind, Except.bind]
  unfold Vimeo.loadImage
  obtain ⟨im, him⟩ := hl v.folders[i / v.framesPerGroup] ((i : ℤ).fmod v.framesPerGroup + 1)
  dsimp only [bind, Except.bind]
  rw [him, h2]

/-- The Vimeo theorems are not vacuous: two folders with three frames each. -/
example : Vimeo.init (Img := ℕ) (T := ℕ) (fun _ => [" a/1 \n".toList, "a/2\n".toList]) id
      { framesPerGroup := 3, split := some "train", pilTransform := some some } =
      .ok ⟨false, 3, ["sequences/a/1".toList, "sequences/a/2".toList], some some⟩ := by
  rfl

/-! ### UVG -/

theorem batchesAux_append {α : Type} (n : ℕ) (hn : 1 ≤ n) (fuel : ℕ) (l l' : List α) (h : n ∣ l.length)
    (hf : l.length + l'.length ≤ fuel) :
    batchesAux n fuel (l ++ l') = batches n l ++ batches n l' := by
  obtain ⟨m, hm⟩ := h
  have fuelOk : ∀ (f g : ℕ) (x : List α), x.length ≤ f → x.length ≤ g → batchesAux n f x = batchesAux n g x := by
    intro f
    induction f with
    | zero =>
      intro g x hx _
      have : x = [] := List.length_eq_zero_iff.1 (by omega)
      subst this
      cases g <;> rfl
    | succ f ih =>
      intro g x hx hg
      cases g with
      | zero =>
        have : x = [] := List.length_eq_zero_iff.1 (by omega)
        subst this
        rfl
      | succ g =>
        by_cases e : x = []
        · subst e; rfl
        · have e1 : batchesAux n (f + 1) x = x.take n :: batchesAux n f (x.drop n) := if_neg e
          have e2 : batchesAux n (g + 1) x = x.take n :: batchesAux n g (x.drop n) := if_neg e
          have hx' : (x.drop n).length < x.length := by
            rw [List.length_drop]
            have : 0 < x.length := List.length_pos_of_ne_nil e
            omega
          rw [e1, e2, ih g _ (by omega) (by omega)]
  unfold batches
  rw [fuelOk fuel (l ++ l').length (l ++ l') (by simpa using hf) le_rfl]
  clear hf
  induction m generalizing l with
  | zero =>
    have : l = [] := List.length_eq_zero_iff.1 (by simpa using hm)
    subst this
    rfl
  | succ m ih =>
    have hpos : l ≠ [] := by
      rintro rfl
      simp at hm
      omega
    have hle : n ≤ l.length := by rw [hm]; exact Nat.le_mul_of_pos_right _ (by omega)
    obtain ⟨f, hf⟩ : ∃ f, (l ++ l').length = f + 1 := ⟨(l ++ l').length - 1, by
      have := List.length_pos_of_ne_nil hpos; simp; omega⟩
    obtain ⟨g, hg⟩ : ∃ g, l.length = g + 1 := ⟨l.length - 1, by
      have := List.length_pos_of_ne_nil hpos; omega⟩
    have e1 : batchesAux n (f + 1) (l ++ l') = (l ++ l').take n :: batchesAux n f ((l ++ l').drop n) :=
      if_neg (by simp [hpos])
    have e2 : batchesAux n (g + 1) l = l.take n :: batchesAux n g (l.drop n) := if_neg hpos
    have hlen : (l.drop n).length = n * m := by rw [List.length_drop, hm]; rw [Nat.mul_succ]; omega
    rw [hf, hg, e1, e2, List.take_append_of_le_length hle, List.drop_append_of_le_length hle, List.cons_append]
    congr 1
    have := ih (l.drop n) hlen
    rw [← fuelOk f (l.drop n ++ l').length _ (by simp at hf ⊢; omega) le_rfl] at this
    rw [this, ← fuelOk g (l.drop n).length _ (by rw [List.length_drop]; omega) le_rfl]

theorem batches_append {α : Type} (n : ℕ) (hn : 1 ≤ n) (l l' : List α) (h : n ∣ l.length) :
    batches n (l ++ l') = batches n l ++ batches n l' :=
  batchesAux_append n hn _ l l' h (by simp)

theorem batches_map {α β : Type} (n : ℕ) (f : α → β) (l : List α) : batches n (l.map f) = (batches n l).map (List.map f) := by
  unfold batches
  rw [List.length_map]
  generalize l.length = fuel
  induction fuel generalizing l with
  | zero => rfl
  | succ k ih =>
    by_cases e : l = []
    · subst e; rfl
    · have e1 : batchesAux n (k + 1) (l.map f) = (l.map f).take n :: batchesAux n k ((l.map f).drop n) :=
        if_neg (by simpa using e)
      have e2 : batchesAux n (k + 1) l = l.take n :: batchesAux n k (l.drop n) := if_neg e
      rw [e1, e2, ← List.map_drop, ih, List.map_cons, List.map_take]

theorem batches_exact {α : Type} (n : ℕ) (hn : 1 ≤ n) (m : ℕ) (l : List α) (h : l.length = n * m) :
    (batches n l).length = m ∧ (batches n l).flatten = l ∧ ∀ b ∈ batches n l, b.length = n := by
  induction m generalizing l with
  | zero =>
    have : l = [] := List.length_eq_zero_iff.1 (by simpa using h)
    subst this
    exact ⟨rfl, rfl, nofun⟩
  | succ m ih =>
    have hle : n ≤ l.length := by rw [h]; exact Nat.le_mul_of_pos_right _ (by omega)
    have h1 : (l.take n).length = n := by rw [List.length_take]; omega
    have h2 : (l.drop n).length = n * m := by rw [List.length_drop, h, Nat.mul_succ]; omega
    obtain ⟨i1, i2, i3⟩ := ih _ h2
    have hb : batches n l = l.take n :: batches n (l.drop n) := by
      conv_lhs => rw [← List.take_append_drop n l]
      rw [batches_append n hn _ _ (by rw [h1])]
      have : batches n (l.take n) = [l.take n] := by
        unfold batches
        obtain ⟨k, rfl⟩ : ∃ k, n = k + 1 := ⟨n - 1, by omega⟩
        rw [h1]
        have e : batchesAux (k + 1) (k + 1) (l.take (k + 1)) = (l.take (k + 1)).take (k + 1) ::
            batchesAux (k + 1) k ((l.take (k + 1)).drop (k + 1)) := if_neg (by
              intro e; rw [e] at h1; simp at h1)
        rw [e, List.take_take, Nat.min_self]
        have e' : (l.take (k + 1)).drop (k + 1) = [] := by simp
        rw [e']
        cases k <;> rfl
      rw [this]
      rfl
    rw [hb]
    refine ⟨by simp [i1], by rw [List.flatten_cons, i2, List.take_append_drop], ?_⟩
    intro b hb
    rcases List.mem_cons.1 hb with rfl | hb
    · exact h1
    · exact i3 b hb

theorem uvgInit_ok (n : ℕ) (hn : 1 ≤ n) (h : n ∣ 300) (numFrames : Option ℤ) (hf : numFrames.getD 300 = n) :
    uvgInit numFrames = .ok ((n : ℤ), ((3900 / n : ℕ) : ℤ)) := by
  unfold uvgInit
  rw [hf]
  dsimp only
  rw [if_neg (by omega), if_neg]
  · rw [Int.fdiv_eq_ediv_of_nonneg _ (by omega)]; rfl
  · rw [Int.fmod_eq_emod_of_nonneg _ (by omega), not_not]
    have : ((300 : ℕ) : ℤ) % n = 0 := by exact_mod_cast Nat.mod_eq_zero_of_dvd h
    exact this

/-- **C62, UVG.** If the number of frames divides 300 and the number of images of every video is a multiple of 300,
then the batches of all videos are those of the single videos one after the other: every batch loads, has exactly the
requested number of consecutive frames of one video, and each frame is in exactly one batch. With 3900 images the
number of batches is the announced one. -/
theorem C62_uvg {α : Type} (numFrames : Option ℤ) (n : ℕ) (hn : 1 ≤ n) (h : n ∣ 300)
    (hf : numFrames.getD 300 = n) (videos : List (List α)) (hv : ∀ v ∈ videos, 300 ∣ v.length) :
    ∃ loaded : List (List (List α)),
      uvgLoad numFrames videos = .ok (loaded.flatten.map .ok) ∧
      loaded.map List.flatten = videos ∧
      (∀ bs ∈ loaded, ∀ b ∈ bs, b.length = n) ∧
      (((videos.map List.length).sum = 3900) →
        uvgInit numFrames = .ok ((n : ℤ), (loaded.flatten.length : ℤ))) := by
  have hdvd : ∀ v ∈ videos, n ∣ v.length := fun v hv' => h.trans (hv v hv')
  refine ⟨videos.map (batches n), ?_, ?_, ?_, ?_⟩
  · unfold uvgLoad
    rw [uvgInit_ok n hn h numFrames hf]
    dsimp only [bind, Except.bind]
    rw [if_neg (by omega), Int.toNat_natCast]
    show Except.ok _ = Except.ok _
    congr 1
    unfold imageFolder
    have key : ∀ (vs : List (List α)) (k : ℕ), (∀ v ∈ vs, n ∣ v.length) →
        (batches n ((vs.zipIdx k).flatMap fun c => c.1.map fun a => (a, c.2))).map collate =
          (vs.map (batches n)).flatten.map .ok := by
      intro vs
      induction vs with
      | nil => intro k _; rfl
      | cons v vs ih =>
        intro k hd
        rw [List.zipIdx_cons, List.flatMap_cons, batches_append n hn _ _ (by
          simpa using hd v (List.mem_cons_self ..)), List.map_append, ih (k + 1) fun w hw => hd w (List.mem_cons_of_mem _ hw)]
        rw [List.map_cons, List.flatten_cons, List.map_append]
        congr 1
        rw [batches_map, List.map_map]
        refine List.map_congr_left fun b hb => ?_
        obtain ⟨m, hm⟩ := hd v (List.mem_cons_self ..)
        have hbl := (batches_exact n hn m v hm).2.2 b hb
        rw [Function.comp_apply]
        cases b with
        | nil => simp at hbl; omega
        | cons a b =>
          unfold collate
          rw [List.map_cons]
          dsimp only
          rw [if_pos (by simp)]
          simp [Function.comp_def]
    exact key videos 0 hdvd
  · rw [List.map_map]
    conv_rhs => rw [← List.map_id videos]
    refine List.map_congr_left fun v hv' => ?_
    obtain ⟨m, hm⟩ := hdvd v hv'
    exact (batches_exact n hn m v hm).2.1
  · intro bs hbs b hb
    obtain ⟨v, hv', rfl⟩ := List.mem_map.1 hbs
    obtain ⟨m, hm⟩ := hdvd v hv'
    exact (batches_exact n hn m v hm).2.2 b hb
  · intro hs
    rw [uvgInit_ok n hn h numFrames hf]
    congr 3
    have key : ∀ vs : List (List α), (∀ v ∈ vs, n ∣ v.length) →
        (vs.map List.length).sum = n * ((vs.map (batches n)).flatten).length := by
      intro vs
      induction vs with
      | nil => intro _; rfl
      | cons v vs ih =>
        intro hd
        obtain ⟨m, hm⟩ := hd v (List.mem_cons_self ..)
        rw [List.map_cons, List.sum_cons, ih fun w hw => hd w (List.mem_cons_of_mem _ hw), List.map_cons,
          List.flatten_cons, List.length_append, (batches_exact n hn m v hm).1, hm, Nat.mul_add]
    rw [key videos hdvd] at hs
    rw [← hs, Nat.mul_div_cancel_left _ (by omega)]

/-- **C62, UVG numbers of frames.** The constructor rejects exactly the numbers that do not divide 300, zero by
`ZeroDivisionError`; negative divisors are refused by the loader. -/
theorem C62_uvg_init {α : Type} (k : ℤ) (videos : List (List α)) :
    ((∃ r, uvgInit (some k) = .ok r) ↔ k ∣ 300) ∧ uvgInit (some 0) = .error .zeroDivision ∧
      (k < 0 → k ∣ 300 → uvgLoad (some k) videos = .error .value) := by
  have h1 : (∃ r, uvgInit (some k) = .ok r) ↔ k ∣ 300 := by
    unfold uvgInit
    rw [Option.getD_some]
    by_cases h0 : k = 0
    · subst h0; simp
    · rw [if_neg h0]
      by_cases h : (300 : ℤ).fmod k = 0
      · simp [h, Int.dvd_iff_fmod_eq_zero]
      · simp [h, Int.dvd_iff_fmod_eq_zero]
  refine ⟨h1, rfl, fun hk hd => ?_⟩
  obtain ⟨⟨b, t⟩, hr⟩ := h1.2 hd
  have hb : b = k := by
    unfold uvgInit at hr
    rw [Option.getD_some, if_neg (by omega)] at hr
    split_ifs at hr
    injection hr with hr
    exact (Prod.ext_iff.1 hr).1.symm
  unfold uvgLoad
  rw [hr]
  dsimp only [bind, Except.bind]
  rw [hb, if_pos (by omega)]

/-- **C62, UVG mixing.** A batch with frames of two videos is refused, so no sample can mix videos for any data set
and number of frames: every batch that loads has the frames of one class, in order. -/
theorem C62_uvg_refuses {α : Type} (batch : List (α × ℕ)) (frames : List α) :
    collate batch = .ok frames ↔ batch ≠ [] ∧ ∃ k, batch = frames.map fun a => (a, k) := by
  cases batch with
  | nil => simp [collate]
  | cons p l =>
    obtain ⟨a, k⟩ := p
    unfold collate
    constructor
    · intro h
      dsimp only at h
      split_ifs at h with hc
      injection h with h
      refine ⟨by simp, k, ?_⟩
      rw [← h, List.map_map]
      conv_lhs => rw [← List.map_id ((a, k) :: l)]
      refine List.map_congr_left fun q hq => ?_
      have := List.all_eq_true.1 hc q hq
      rw [beq_iff_eq] at this
      exact Prod.ext rfl this
    · rintro ⟨-, k', e⟩
      cases frames with
      | nil => simp at e
      | cons b frames =>
        simp only [List.map_cons, List.cons.injEq, Prod.mk.injEq] at e
        obtain ⟨⟨rfl, rfl⟩, rfl⟩ := e
        dsimp only
        rw [if_pos (by simp)]
        simp [Function.comp_def]

/-! ### OpenImages -/

/-- A name without points, slashes and white space. -/
def Plain (n : List Char) : Prop := n ≠ [] ∧ ∀ c ∈ n, c ≠ '.' ∧ c ≠ '/' ∧ c.isWhitespace = false

theorem splitextRoot_plain (n : List Char) (h : Plain n) :
    splitextRoot (rstrip (n ++ ".jpg\n".toList)) = n ∧ splitextRoot (rstrip (n ++ "\n".toList)) = n := by
  obtain ⟨hne, hc⟩ := h
  have hslash : ∀ c ∈ n.reverse, (c != '/') = true := fun c h => by
    simpa using (hc c (List.mem_reverse.1 h)).2.1
  constructor
  · have e : rstrip (n ++ ".jpg\n".toList) = n ++ ".jpg".toList := by
      unfold rstrip
      rw [List.reverse_append]
      show ((n.reverse.cons '.' |>.cons 'j' |>.cons 'p' |>.cons 'g').reverse) = _
      simp
    rw [e]
    have hb : ((n ++ ".jpg".toList).reverse.takeWhile (· != '/')).reverse = n ++ ".jpg".toList := by
      have hall : ∀ c ∈ (n ++ ".jpg".toList).reverse, (c != '/') = true := ?_
      · rw [List.takeWhile_eq_self_iff.2 hall, List.reverse_reverse]
      intro c hcm
      rw [List.reverse_append] at hcm
      rcases List.mem_append.1 hcm with h | h
      · simp at h; rcases h with rfl | rfl | rfl | rfl <;> decide
      · exact hslash c h
    unfold splitextRoot
    dsimp only
    rw [hb, if_pos (by simp)]
    have hs : (n ++ ".jpg".toList).reverse.takeWhile (· != '.') = "gpj".toList := by
      rw [List.reverse_append]
      show ('g' :: 'p' :: 'j' :: '.' :: n.reverse).takeWhile (· != '.') = _
      rfl
    rw [hs]
    have ht : (n ++ ".jpg".toList).take ((n ++ ".jpg".toList).length - ("gpj".toList.length + 1)) = n := by
      simp
    rw [ht, if_neg]
    intro hall
    obtain ⟨c, n', rfl⟩ := List.exists_cons_of_ne_nil hne
    have := List.all_eq_true.1 hall c (List.mem_cons_self ..)
    exact (hc c (List.mem_cons_self ..)).1 (by simpa using this)
  · have e : rstrip (n ++ "\n".toList) = n := by
      unfold rstrip
      rw [List.reverse_append]
      show (n.reverse.dropWhile Char.isWhitespace).reverse = n
      obtain ⟨c, l, hl⟩ := List.exists_cons_of_ne_nil (List.reverse_ne_nil_iff.2 hne)
      have hcw : c.isWhitespace = false :=
        (hc c (List.mem_reverse.1 (hl ▸ List.mem_cons_self ..))).2.2
      rw [hl, List.dropWhile_cons_of_neg (by simp [hcw]), ← hl, List.reverse_reverse]
    rw [e]
    unfold splitextRoot
    dsimp only
    rw [if_neg]
    intro hm
    rw [List.mem_reverse] at hm
    have := List.takeWhile_subset _ hm
    exact (hc '.' (List.mem_reverse.1 this)).1 rfl

/-- A name that begins with its only point has no extension. -/
theorem splitextRoot_hidden (n : List Char) (h : ∀ c ∈ n, c ≠ '.' ∧ c ≠ '/') : splitextRoot ('.' :: n) = '.' :: n := by
  have hb : (('.' :: n).reverse.takeWhile (· != '/')).reverse = '.' :: n := by
    rw [List.takeWhile_eq_self_iff.2, List.reverse_reverse]
    intro c hc
    rw [List.mem_reverse, List.mem_cons] at hc
    rcases hc with rfl | hc
    · decide
    · simpa using (h c hc).2
  have hs : ('.' :: n).reverse.takeWhile (· != '.') = n.reverse := by
    rw [List.reverse_cons, List.takeWhile_append_of_pos]
    · simp
    · intro c hc
      simpa using (h c (List.mem_reverse.1 hc)).1
  unfold splitextRoot
  dsimp only
  rw [hb, if_pos (by simp), hs, if_pos]
  simp

/-- **C62, OpenImages.** For a list file with the names of images, with or without `.jpg`, the data set has exactly one
item for every line, in the folder of the split; except in the training split, where exactly the invalid names are
left out. Other splits raise `ValueError`. -/
theorem C62_openimages (invalid : List (List Char)) (lines : List Char → List (List Char)) (split : String)
    (hs : split = "train" ∨ split = "val" ∨ split = "test") (names : List (List Char × Bool))
    (hp : ∀ n ∈ names, Plain n.1)
    (hl : lines ("list-".toList ++ (if split = "val" then "validation" else split).toList ++ "-files.txt".toList) =
      names.map fun n => n.1 ++ (if n.2 then ".jpg\n" else "\n").toList) :
    ∃ paths, openImages invalid lines split = .ok paths ∧
      paths.Perm ((names.filter fun n => decide (split ≠ "train" ∨ n.1 ∉ invalid)).map fun n =>
        (if split = "val" then "validation" else split).toList ++ "/".toList ++ n.1 ++ ".jpg".toList) := by
  refine ⟨_, by unfold openImages; rw [if_neg (not_not.2 hs)], ?_⟩
  rw [hl]
  have hperm : ((pySorted (names.map fun n => n.1 ++ (if n.2 then ".jpg\n" else "\n").toList)).map fun l =>
      splitextRoot (rstrip l)).Perm (names.map (·.1)) := by
    unfold pySorted
    refine ((List.mergeSort_perm _ _).map _).trans ?_
    rw [List.map_map]
    refine List.Perm.of_eq (List.map_congr_left fun n hn => ?_)
    rw [Function.comp_apply]
    cases n.2 with
    | true => exact (splitextRoot_plain n.1 (hp n hn)).1
    | false => exact (splitextRoot_plain n.1 (hp n hn)).2
  suffices h : (loadIndices invalid (names.map fun n => n.1 ++ (if n.2 then ".jpg\n" else "\n").toList) split).Perm
      ((names.filter fun n => decide (split ≠ "train" ∨ n.1 ∉ invalid)).map (·.1)) by
    refine (h.map _).trans ?_
    rw [List.map_map]
    rfl
  unfold loadIndices
  dsimp only
  by_cases ht : split = "train"
  · rw [if_pos ht]
    refine (hperm.filter _).trans ?_
    rw [List.filter_map]
    refine List.Perm.of_eq (congrArg _ (List.filter_congr fun n _ => ?_))
    simp [ht]
  · rw [if_neg ht]
    refine hperm.trans ?_
    rw [List.filter_eq_self.2 fun n _ => by simp [ht]]

/-- The items are sorted by the lines of the file. -/
theorem C62_openimages_sorted (l : List (List Char)) :
    (pySorted l).Pairwise fun a b => String.ofList a ≤ String.ofList b := by
  have := List.pairwise_mergeSort (le := fun a b : List Char => decide (String.ofList a ≤ String.ofList b))
    (fun a b c h1 h2 => by simpa using le_trans (by simpa using h1) (by simpa using h2))
    (fun a b => by simpa using le_total _ _) l
  exact this.imp fun h => by simpa using h

/-- C62_openimages is not vacuous. -/
example : Plain "ecd25d7e90027c89".toList := by
  unfold Plain
  decide

/-! ### CLIC -/

theorem mapM_ok {α β : Type} (f : α → Except Err β) (g : α → β) (l : List α) (h : ∀ a ∈ l, f a = .ok (g a)) :
    l.mapM f = .ok (l.map g) := by
  induction l with
  | nil => rfl
  | cons a l ih =>
    rw [List.mapM_cons, h a (List.mem_cons_self ..), ih fun b hb => h b (List.mem_cons_of_mem _ hb)]
    rfl

/-- The number of the `i`-th sampled frame of `n`. -/
def sampled (n k i : ℕ) : ℕ := i * (n - 1) / (k - 1)

/-- **C62, sampled frames.** Sampling `k` frames of a clip with `n > 0` frames succeeds and returns `k` frames of the clip in
the order of the clip, beginning with the first and, for `k > 1`, ending with the last; no frame is taken twice if
`k ≤ n`, and none is left out if `n ≤ k` and `k > 1`. A clip without frames raises `IndexError`. -/
theorem C62_frames {α : Type} (frames : List α) (k : ℕ) (hk : 1 ≤ k) :
    (frames = [] → sampleFrames frames k = .error .index) ∧
    ∀ _ : 0 < frames.length,
      (∀ i < k, sampled frames.length k i < frames.length) ∧
      (∃ sample, sampleFrames frames k = .ok sample ∧ sample.length = k ∧
        ∀ i < k, sample[i]? = frames[sampled frames.length k i]?) ∧
      (∀ i j, i ≤ j → sampled frames.length k i ≤ sampled frames.length k j) ∧
      sampled frames.length k 0 = 0 ∧ (1 < k → sampled frames.length k (k - 1) = frames.length - 1) ∧
      (1 < k → k ≤ frames.length → ∀ i j, i < j → sampled frames.length k i < sampled frames.length k j) ∧
      (1 < k → frames.length ≤ k → ∀ p < frames.length, ∃ i < k, sampled frames.length k i = p) := by
  refine ⟨?_, fun hn => ?_⟩
  · rintro rfl
    obtain ⟨k, rfl⟩ : ∃ m, k = m + 1 := ⟨k - 1, by omega⟩
    unfold sampleFrames
    rw [List.range_succ_eq_map, List.mapM_cons]
    rfl
  · set n := frames.length with hnd
    have hlt : ∀ i < k, sampled n k i < n := by
      intro i hi
      unfold sampled
      rcases Nat.eq_zero_or_pos (k - 1) with h0 | h0
      · rw [h0, Nat.div_zero]; exact hn
      · have : i * (n - 1) / (k - 1) ≤ n - 1 := by
          rw [Nat.div_le_iff_le_mul_add_pred h0]
          have : i * (n - 1) ≤ (k - 1) * (n - 1) := Nat.mul_le_mul_right _ (by omega)
          omega
        omega
    refine ⟨hlt, ?_, ?_, ?_, ?_, ?_, ?_⟩
    · refine ⟨((List.range k).attach.map fun i => frames[sampled n k i.1]'(hlt i.1 (List.mem_range.1 i.2))), ?_, by simp, ?_⟩
      · unfold sampleFrames
        simp only [← hnd, if_neg (show ¬ n = 0 by omega)]
        have : ∀ (l : List ℕ) (hl : ∀ i ∈ l, i < k), l.mapM (fun i =>
            pyGet frames ((i * (n - 1) / (k - 1) : ℕ) : ℤ)) =
            .ok (l.attach.map fun i => frames[sampled n k i.1]'(hlt i.1 (hl i.1 i.2))) := by
          intro l
          induction l with
          | nil => intro _; rfl
          | cons i l ih =>
            intro hl
            rw [List.mapM_cons, ih fun j hj => hl j (List.mem_cons_of_mem _ hj),
              show pyGet frames ((i * (n - 1) / (k - 1) : ℕ) : ℤ) = _ from
                pyGet_nonneg frames (sampled n k i) (hlt i (hl i (List.mem_cons_self ..)))]
            simp only [bind, Except.bind, pure, Except.pure, List.attach_cons, List.map_cons, List.map_map]
            rfl
        exact this _ fun i hi => List.mem_range.1 hi
      · intro i hi
        rw [List.getElem?_eq_getElem (by simpa using hi), List.getElem?_eq_getElem (hlt i hi)]
        simp
    · intro i j hij
      exact Nat.div_le_div_right (Nat.mul_le_mul_right _ hij)
    · simp [sampled]
    · intro h1
      unfold sampled
      exact Nat.mul_div_cancel_left _ (by omega)
    · intro h1 hkn i j hij
      unfold sampled
      have h0 : 0 < k - 1 := by omega
      rw [Nat.lt_iff_add_one_le, ← Nat.add_div_right _ h0]
      refine Nat.div_le_div_right ?_
      have : (i + 1) * (n - 1) ≤ j * (n - 1) := Nat.mul_le_mul_right _ hij
      rw [Nat.add_mul] at this
      omega
    · intro h1 hkn p hp
      have h0 : 0 < k - 1 := by omega
      rcases Nat.eq_zero_or_pos (n - 1) with hz | hz
      · exact ⟨0, by omega, by unfold sampled; simp; omega⟩
      · -- the least `i` with `p (k - 1) ≤ i (n - 1)`
        refine ⟨(p * (k - 1) + (n - 2)) / (n - 1), ?_, ?_⟩
        · rw [Nat.div_lt_iff_lt_mul hz]
          have h2 : p * (k - 1) ≤ (n - 1) * (k - 1) := Nat.mul_le_mul_right _ (by omega)
          have h3 : k * (n - 1) = (n - 1) * (k - 1) + (n - 1) := by
            obtain ⟨k', rfl⟩ : ∃ k', k = k' + 1 := ⟨k - 1, by omega⟩
            rw [Nat.add_sub_cancel]; ring
          omega
        · unfold sampled
          set i := (p * (k - 1) + (n - 2)) / (n - 1) with hi
          have hm := Nat.div_add_mod (p * (k - 1) + (n - 2)) (n - 1)
          have hml := Nat.mod_lt (p * (k - 1) + (n - 2)) hz
          rw [← hi] at hm
          have hcm : (n - 1) * i = i * (n - 1) := Nat.mul_comm _ _
          have ha : p * (k - 1) ≤ i * (n - 1) := by omega
          have hb : i * (n - 1) ≤ p * (k - 1) + (n - 2) := by omega
          apply Nat.div_eq_of_lt_le
          · exact ha
          · rw [Nat.add_mul, Nat.one_mul]
            omega

/-- **C62 is violated for CLIC videos**: the frames of a video are listed by `glob` without sorting, so for
every video with at least two different frames there is an order of the directory entries in which sampling as many
frames as there are does not return them in the order of the video. -/
theorem C62_violated_clic {α : Type} (frames : List α) (h : 2 ≤ frames.length) (hd : frames.Nodup) :
    ∃ listed : List α, listed.Perm frames ∧ sampleFrames listed frames.length = .ok listed ∧ listed ≠ frames := by
  have hs : ∀ l : List α, 2 ≤ l.length → sampleFrames l l.length = .ok l := by
    intro l hl
    obtain ⟨s, h1, h2, h3⟩ := ((C62_frames l l.length (by omega)).2 (by omega)).2.1
    rw [h1]
    congr 1
    refine List.ext_getElem? fun i => ?_
    by_cases hi : i < l.length
    · rw [h3 i hi]
      congr 1
      unfold sampled
      exact Nat.mul_div_cancel _ (by omega)
    · rw [List.getElem?_eq_none (by omega), List.getElem?_eq_none (by omega)]
  match frames, h, hd with
  | a :: b :: l, _, hd =>
    refine ⟨b :: a :: l, List.Perm.swap a b l, ?_, ?_⟩
    · exact hs (b :: a :: l) (by simp)
    · intro e
      injection e with e1 _
      have := (List.nodup_cons.1 hd).1
      exact this (e1 ▸ List.mem_cons_self ..)

/-- The frames theorem is not vacuous. -/
example : sampleFrames [10, 11, 12, 13, 14] 3 = .ok [10, 12, 14] := by decide +kernel

end Verif.Data.Frames
