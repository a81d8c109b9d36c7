import Verif.Data.Loaders
import Mathlib.Data.List.Forall2
import Mathlib.Tactic.Linarith
import Mathlib.Tactic.Ring

/-!
C93: the batches of the training and validation loaders.
-/

namespace Verif.Data.Loaders

variable {F : Type}

/-! ### Subsampling -/

theorem position_lt (t num i : ℕ) (ht : 0 < t) (hi : i < num) : position t num i < t := by
  unfold position
  rcases Nat.eq_zero_or_pos (num - 1) with h | h
  · rw [h]; simpa using ht
  · rw [Nat.div_lt_iff_lt_mul h]
    have h1 : i * (t - 1) ≤ (num - 1) * (t - 1) := Nat.mul_le_mul_right _ (by omega)
    have h2 : (num - 1) * (t - 1) < (num - 1) * t := Nat.mul_lt_mul_of_pos_left (by omega) h
    rw [Nat.mul_comm t]
    omega

theorem filterMap_all {α β : Type} (g : α → Option β) : ∀ l : List α, (∀ i ∈ l, (g i).isSome) →
    (l.filterMap g).length = l.length ∧ ∀ k : ℕ, (l.filterMap g)[k]? = l[k]?.bind g
  | [], _ => ⟨rfl, fun k => by simp⟩
  | a :: l, h => by
    obtain ⟨b, hb⟩ := Option.isSome_iff_exists.1 (h a List.mem_cons_self)
    obtain ⟨h1, h2⟩ := filterMap_all g l (fun i hi => h i (List.mem_cons_of_mem _ hi))
    rw [List.filterMap_cons_some hb]
    refine ⟨by simp [h1], fun k => ?_⟩
    cases k with
    | zero => simp [hb]
    | succ k => simpa using h2 k

theorem uniform_ok (num : ℕ) (frames : List F) (hn : 0 < num) (hf : frames ≠ []) : ∃ out, uniform num frames = .ok out ∧
    out.length = num ∧ ∀ i, i < num → out[i]? = frames[position frames.length num i]? := by
  have hl : 0 < frames.length := List.length_pos_iff.2 hf
  unfold uniform
  rw [if_pos ⟨hn, hl⟩]
  obtain ⟨h1, h2⟩ := filterMap_all (fun i => frames[position frames.length num i]?) (List.range num) (fun i hi => by
    rw [List.getElem?_eq_getElem (position_lt _ _ _ hl (List.mem_range.1 hi))]
    rfl)
  refine ⟨_, rfl, by rw [h1, List.length_range], fun i hi => ?_⟩
  rw [h2 i, List.getElem?_range hi]
  rfl

/-- **C93, subsampling.** The samples are in the order of time, the first is the first frame, and with two samples or more
the last is the last frame; with no more samples than frames no frame is taken twice. -/
theorem C93_positions (t num : ℕ) (ht : 0 < t) :
    position t num 0 = 0 ∧ (2 ≤ num → position t num (num - 1) = t - 1) ∧
      (∀ i j, i ≤ j → position t num i ≤ position t num j) ∧
      (num ≤ t → ∀ i j, i < j → j < num → position t num i < position t num j) := by
  unfold position
  refine ⟨by simp, fun h => ?_, fun i j hij => ?_, fun h i j hij hj => ?_⟩
  · exact Nat.mul_div_cancel_left _ (by omega)
  · exact Nat.div_le_div_right (Nat.mul_le_mul_right _ hij)
  · have hp : 0 < num - 1 := by omega
    rw [Nat.div_lt_iff_lt_mul hp]
    have h1 : i * (t - 1) + (num - 1) ≤ j * (t - 1) := by
      have a : (i + 1) * (t - 1) ≤ j * (t - 1) := Nat.mul_le_mul_right _ hij
      have b : (i + 1) * (t - 1) = i * (t - 1) + (t - 1) := by ring
      omega
    have h2 : i * (t - 1) / (num - 1) + 1 ≤ j * (t - 1) / (num - 1) := by
      rw [← Nat.add_div_right _ hp]
      exact Nat.div_le_div_right h1
    have h3 : j * (t - 1) < (j * (t - 1) / (num - 1) + 1) * (num - 1) := by
      rw [← Nat.div_lt_iff_lt_mul hp]
      omega
    have h4 : i * (t - 1) < (i * (t - 1) / (num - 1) + 1) * (num - 1) := by
      rw [← Nat.div_lt_iff_lt_mul hp]
      omega
    calc i * (t - 1) < (i * (t - 1) / (num - 1) + 1) * (num - 1) := h4
      _ ≤ j * (t - 1) / (num - 1) * (num - 1) := Nat.mul_le_mul_right _ h2

/-! ### Batches -/

/-- What a row of a batch should be: `num` frames of the clip at the sampled times, each augmented. -/
def Row (num : ℕ) (c : Clip F) (row : List F) : Prop :=
  row.length = num ∧ ∀ i, i < num → row[i]? = c.frames[position c.frames.length num i]?.map c.augment

theorem mapM_ok {α β : Type} (f : α → Except Err β) (P : α → β → Prop) : ∀ l : List α,
    (∀ a ∈ l, ∃ b, f a = .ok b ∧ P a b) → ∃ bs, l.mapM f = .ok bs ∧ List.Forall₂ P l bs
  | [], _ => ⟨[], rfl, .nil⟩
  | a :: l, h => by
    obtain ⟨b, hb, hP⟩ := h a List.mem_cons_self
    obtain ⟨bs, hbs, hPs⟩ := mapM_ok f P l (fun i hi => h i (List.mem_cons_of_mem _ hi))
    refine ⟨b :: bs, ?_, .cons hP hPs⟩
    rw [List.mapM_cons, hb, hbs]
    rfl

theorem transform_uniform (c : Clip F) (num : ℕ) (hn : 0 < num) (hf : c.frames ≠ []) (s : Subsample) (mode : Mode)
    (h : temporal s mode c.draw c.frames = uniform num c.frames) : ∃ row, transform s mode c = .ok row ∧ Row num c row := by
  obtain ⟨out, h1, h2, h3⟩ := uniform_ok num c.frames hn hf
  refine ⟨out.map c.augment, ?_, by simp [h2], fun i hi => ?_⟩
  · unfold transform
    rw [h, h1]
    rfl
  · rw [List.getElem?_map, h3 i hi]

theorem forall2_lengths (num : ℕ) : ∀ (clips : List (Clip F)) (rows : List (List F)), List.Forall₂ (Row num) clips rows →
    ∀ r ∈ rows, r.length = num
  | _, _, .nil => by simp
  | _, _, .cons h t => by
    intro r hr
    rcases List.mem_cons.1 hr with rfl | hr
    · exact h.1
    · exact forall2_lengths num _ _ t r hr

theorem stack_same (num : ℕ) (rows : List (List F)) (h : ∀ r ∈ rows, r.length = num) (hne : rows ≠ []) :
    stack rows = .ok rows := by
  cases rows with
  | nil => exact absurd rfl hne
  | cons v vs =>
    show (if _ then _ else _) = _
    rw [if_pos]
    intro w hw
    rw [h w (List.mem_cons_of_mem _ hw), h v List.mem_cons_self]

theorem ne_nil_of_forall2 {α β : Type} {R : α → β → Prop} {l : List α} {l' : List β} (h : List.Forall₂ R l l')
    (hl : l ≠ []) : l' ≠ [] := by
  cases h with
  | nil => exact absurd rfl hl
  | cons _ _ => exact List.cons_ne_nil _ _

/-- **C93, one number of samples.** With a fixed number of samples every batch of clips, of any lengths, is stacked, in
training and in validation: one row per clip, in order, with the sampled frames of this clip. -/
theorem C93_int_partial (zero : F) (n : ℕ) (hn : 0 < n) (clips : List (Clip F)) (hne : clips ≠ [])
    (hf : ∀ c ∈ clips, c.frames ≠ []) :
    (∃ rows, trainBatch zero (.int n) clips = .ok rows ∧ List.Forall₂ (Row n) clips rows) ∧
      ∃ rows, valBatch (.int n) clips = .ok rows ∧ List.Forall₂ (Row n) clips rows := by
  constructor
  · obtain ⟨rows, h1, h2⟩ := mapM_ok (transform (.int n) .train) (Row n) clips (fun c hc =>
      transform_uniform c n hn (hf c hc) _ _ rfl)
    refine ⟨rows, ?_, h2⟩
    unfold trainBatch
    rw [h1]
    exact stack_same n rows (forall2_lengths n _ _ h2) (ne_nil_of_forall2 h2 hne)
  · obtain ⟨rows, h1, h2⟩ := mapM_ok (transform (.int n) .val) (Row n) clips (fun c hc =>
      transform_uniform c n hn (hf c hc) _ _ rfl)
    refine ⟨rows, ?_, h2⟩
    unfold valBatch
    rw [h1]
    exact stack_same n rows (forall2_lengths n _ _ h2) (ne_nil_of_forall2 h2 hne)

/-- `m` is the largest number of the list. -/
def IsMax (l : List ℕ) (m : ℕ) : Prop := m ∈ l ∧ ∀ n ∈ l, n ≤ m

theorem foldr_max (l : List ℕ) (m : ℕ) (h : IsMax l m) : l.foldr max 0 = m := by
  have h1 : ∀ l : List ℕ, (∀ n ∈ l, n ≤ m) → l.foldr max 0 ≤ m := by
    intro l
    induction l with
    | nil => intro _; exact Nat.zero_le _
    | cons a l ih =>
      intro h
      exact max_le (h a List.mem_cons_self) (ih (fun n hn => h n (List.mem_cons_of_mem _ hn)))
  have h2 : ∀ l : List ℕ, m ∈ l → m ≤ l.foldr max 0 := by
    intro l
    induction l with
    | nil => intro h; cases h
    | cons a l ih =>
      intro h
      rcases List.mem_cons.1 h with rfl | h
      · exact le_max_left _ _
      · exact le_trans (ih h) (le_max_right _ _)
  exact le_antisymm (h1 l h.2) (h2 l h.1)

/-- **C93, validation.** With several numbers of samples, validation uses the largest for every clip. -/
theorem C93_val_partial (l : List ℕ) (m : ℕ) (hm : IsMax l m) (hpos : 0 < m) (clips : List (Clip F)) (hne : clips ≠ [])
    (hf : ∀ c ∈ clips, c.frames ≠ []) :
    ∃ rows, valBatch (.list l) clips = .ok rows ∧ List.Forall₂ (Row m) clips rows := by
  obtain ⟨rows, h1, h2⟩ := mapM_ok (transform (.list l) .val) (Row m) clips (fun c hc =>
    transform_uniform c m hpos (hf c hc) _ _ (by
      show uniform (l.foldr max 0) c.frames = _
      rw [foldr_max l m hm]))
  refine ⟨rows, ?_, h2⟩
  unfold valBatch
  rw [h1]
  exact stack_same m rows (forall2_lengths m _ _ h2) (ne_nil_of_forall2 h2 hne)

/-- The number of samples drawn for a clip. -/
def Draws (l : List ℕ) (c : Clip F) (n : ℕ) : Prop := l[c.draw]? = some n

theorem train_rows (l : List ℕ) (clips : List (Clip F)) (ns : List ℕ) (hd : List.Forall₂ (Draws l) clips ns)
    (hpos : ∀ n ∈ l, 0 < n) (hf : ∀ c ∈ clips, c.frames ≠ []) :
    ∃ rows, clips.mapM (transform (.list l) .train) = .ok rows ∧ rows.map List.length = ns ∧ rows.length = clips.length ∧
      ∀ (k : ℕ) c n row, clips[k]? = some c → ns[k]? = some n → rows[k]? = some row → Row n c row := by
  induction hd with
  | nil => exact ⟨[], rfl, rfl, rfl, fun k c n row h => by simp at h⟩
  | @cons c n clips ns h _ ih =>
    have hn : 0 < n := hpos n (List.mem_of_getElem? h)
    obtain ⟨row, hr1, hr2⟩ := transform_uniform c n hn (hf c List.mem_cons_self) (.list l) .train (by
      show (match l[c.draw]? with | some n => uniform n c.frames | none => .error .index) = _
      have h' : l[c.draw]? = some n := h
      rw [h'])
    obtain ⟨rows, h1, h2, h3, h4⟩ := ih (fun c hc => hf c (List.mem_cons_of_mem _ hc))
    refine ⟨row :: rows, ?_, by simp [h2, hr2.1], by simp [h3], fun k c' n' row' hk hn' hr => ?_⟩
    · rw [List.mapM_cons, hr1, h1]
      rfl
    · cases k with
      | zero =>
        simp only [List.getElem?_cons_zero, Option.some.injEq] at hk hn' hr
        subst hk hn' hr
        exact hr2
      | succ k =>
        simp only [List.getElem?_cons_succ] at hk hn' hr
        exact h4 k c' n' row' hk hn' hr

/-- **C93, violated.** With several numbers of samples in training, a batch is delivered exactly if the same number was
drawn for all its clips; otherwise the loader raises. -/
theorem C93_violated (zero : F) (l : List ℕ) (hpos : ∀ n ∈ l, 0 < n) (clips : List (Clip F)) (hne : clips ≠ [])
    (hf : ∀ c ∈ clips, c.frames ≠ []) (ns : List ℕ) (hd : List.Forall₂ (Draws l) clips ns) :
    ((∃ rows, trainBatch zero (.list l) clips = .ok rows) ↔ ∀ n ∈ ns, ∀ m ∈ ns, n = m) ∧
      ((∃ n ∈ ns, ∃ m ∈ ns, n ≠ m) → trainBatch zero (.list l) clips = .error .stack) := by
  obtain ⟨rows, h1, h2, h3, -⟩ := train_rows l clips ns hd hpos hf
  have e : trainBatch zero (.list l) clips = stack rows := by
    unfold trainBatch
    rw [h1]
    rfl
  rw [e]
  cases rows with
  | nil =>
    simp only [List.length_nil] at h3
    exact absurd (List.length_eq_zero_iff.1 h3.symm) hne
  | cons v vs =>
    have hs : stack (v :: vs) = if ∀ w ∈ vs, w.length = v.length then .ok (v :: vs) else .error .stack := rfl
    have hiff : (∀ w ∈ vs, w.length = v.length) ↔ ∀ n ∈ ns, ∀ m ∈ ns, n = m := by
      rw [← h2]
      constructor
      · intro h n hn m hm
        have key : ∀ n ∈ (v :: vs).map List.length, n = v.length := by
          intro n hn
          obtain ⟨w, hw, rfl⟩ := List.mem_map.1 hn
          rcases List.mem_cons.1 hw with rfl | hw
          · rfl
          · exact h w hw
        rw [key n hn, key m hm]
      · intro h w hw
        exact h _ (List.mem_map.2 ⟨w, List.mem_cons_of_mem _ hw, rfl⟩) _ (List.mem_map.2 ⟨v, List.mem_cons_self, rfl⟩)
    rw [hs]
    constructor
    · rw [← hiff]
      constructor
      · rintro ⟨r, hr⟩
        by_contra hc
        rw [if_neg hc] at hr
        cases hr
      · intro h
        exact ⟨_, if_pos h⟩
    · rintro ⟨n, hn, m, hm, hnm⟩
      exact if_neg (fun h => hnm (hiff.1 h n hn m hm))

/-- **C93, violated: a case.** Two clips, samples of 2 or 3 frames: the batch raises when 2 and 3 are drawn. -/
theorem C93_violated_witness : ∃ clips : List (Clip ℕ), (∀ c ∈ clips, c.frames.length = 10 ∧ c.draw < [2, 3].length) ∧
    trainBatch 0 (.list [2, 3]) clips = .error .stack :=
  ⟨[⟨List.range 10, id, 0⟩, ⟨List.range 10, id, 1⟩], by decide, by
    have hd : List.Forall₂ (Draws [2, 3]) [(⟨List.range 10, id, 0⟩ : Clip ℕ), ⟨List.range 10, id, 1⟩] [2, 3] :=
      .cons rfl (.cons rfl .nil)
    exact (C93_violated 0 [2, 3] (by decide) _ (by simp) (by decide) [2, 3] hd).2 ⟨2, by simp, 3, by simp, by decide⟩⟩

/-- **C93, padding.** The padding that the code provides and the loader does not use delivers every batch: rows of the
largest length, each the video followed by zeros. -/
theorem C93_pad (zero : F) (videos : List (List F)) (hne : videos ≠ []) (m : ℕ) (hm : IsMax (videos.map List.length) m) :
    ∃ rows, collateTrain zero true videos = .ok rows ∧
      List.Forall₂ (fun v row => row.length = m ∧ row = v ++ List.replicate (m - v.length) zero) videos rows := by
  have hp : padded zero videos = videos.map fun v => v ++ List.replicate (m - v.length) zero := by
    unfold padded
    rw [foldr_max _ m hm]
  refine ⟨padded zero videos, ?_, ?_⟩
  · show stack (padded zero videos) = _
    apply stack_same m
    · rw [hp]
      intro r hr
      obtain ⟨v, hv, rfl⟩ := List.mem_map.1 hr
      have := hm.2 v.length (List.mem_map.2 ⟨v, hv, rfl⟩)
      simp
      omega
    · rw [hp]
      simpa using hne
  · rw [hp, List.forall₂_map_right_iff, List.forall₂_same]
    intro v hv
    have := hm.2 v.length (List.mem_map.2 ⟨v, hv, rfl⟩)
    refine ⟨?_, rfl⟩
    simp
    omega

/-! ### OpenImages -/

theorem batches_eq {α : Type} (b : ℕ) (hb : 0 < b) (l : List α) (hl : l ≠ []) :
    batches b l = l.take b :: batches b (l.drop b) := by
  cases l with
  | nil => exact absurd rfl hl
  | cons x l => rw [batches, if_neg (by omega)]

/-- What an epoch should be: every image once, in order, in batches of `b`, the last with at most `b`. -/
def Epoch {α : Type} (b : ℕ) (images : List α) (bs : List (List α)) : Prop :=
  bs.flatten = images ∧ (∀ x ∈ bs, x ≠ [] ∧ x.length ≤ b) ∧ ∀ x ∈ bs.dropLast, x.length = b

theorem batches_epoch {α : Type} (b : ℕ) (hb : 0 < b) : ∀ (n : ℕ) (l : List α), l.length ≤ n → Epoch b l (batches b l) := by
  intro n
  induction n with
  | zero =>
    intro l hl
    have : l = [] := List.length_eq_zero_iff.1 (by omega)
    subst this
    rw [batches]
    exact ⟨rfl, by simp, by simp⟩
  | succ n ih =>
    intro l hl
    by_cases h : l = []
    · subst h
      rw [batches]
      exact ⟨rfl, by simp, by simp⟩
    · have hpos := List.length_pos_iff.2 h
      rw [batches_eq b hb l h]
      obtain ⟨h1, h2, h3⟩ := ih (l.drop b) (by rw [List.length_drop]; omega)
      refine ⟨by rw [List.flatten_cons, h1, List.take_append_drop], ?_, ?_⟩
      · intro x hx
        rcases List.mem_cons.1 hx with rfl | hx
        · refine ⟨fun e => ?_, by simp⟩
          have := congrArg List.length e
          rw [List.length_take, List.length_nil] at this
          omega
        · exact h2 x hx
      · intro x hx
        by_cases hd : l.drop b = []
        · rw [hd, batches] at hx
          simp at hx
        · rw [batches_eq b hb _ hd, List.dropLast_cons_cons] at hx
          rcases List.mem_cons.1 hx with rfl | hx
          · have := List.length_pos_iff.2 hd
            rw [List.length_drop] at this
            rw [List.length_take]
            omega
          · apply h3
            rw [batches_eq b hb _ hd]
            exact hx

/-- **C93, image epochs.** With worker processes, an epoch of training goes once through the images in the shuffled order,
and validation once through the images in their order; validation has its own batch size if one was given. -/
theorem C93_epochs_partial {α : Type} (a : Args) (hb : 0 < a.batchSize) (hv : ∀ v, a.valBatchSize = some v → 0 < v)
    (hw : 0 < a.workers) (images order : List α) :
    (∃ bs, trainEpoch a order = .ok bs ∧ Epoch a.batchSize order bs) ∧
      ∃ bs, valEpoch a images = .ok bs ∧
        (a.valBatchSize = none → Epoch a.batchSize images bs) ∧ ∀ v, a.valBatchSize = some v → Epoch v images bs := by
  constructor
  · refine ⟨batches a.batchSize order, ?_, batches_epoch _ hb _ _ le_rfl⟩
    unfold trainEpoch dataLoader
    rw [if_neg (fun h => by omega), if_neg (by omega)]
    rfl
  · have hpos : 0 < a.valBatchSize.getD a.batchSize := by
      cases h : a.valBatchSize with
      | none => exact hb
      | some v => exact hv v h
    refine ⟨batches (a.valBatchSize.getD a.batchSize) images, ?_, fun h => ?_, fun v h => ?_⟩
    · unfold valEpoch dataLoader
      rw [if_neg (fun h => h.2 rfl), if_neg (by omega)]
      rfl
    all_goals
      have := batches_epoch _ hpos _ images le_rfl
      rw [h] at this ⊢
      exact this

/-- **C93, violated: no workers.** With the default of no worker processes the module is constructed and its validation
works, but the training loader always raises. -/
theorem C93_violated_workers {α : Type} (a : Args) (hb : 0 < a.batchSize) (hi : a.imageSize = true)
    (hv : a.valBatchSize = none) (hw : a.workers = 0) (images order : List α) :
    construct a = .ok a ∧ trainEpoch a order = .error .value ∧ ∃ bs, valEpoch a images = .ok bs ∧ Epoch a.batchSize images bs := by
  refine ⟨?_, ?_, batches a.batchSize images, ?_, batches_epoch _ hb _ _ le_rfl⟩
  · unfold construct
    rw [if_neg (by simp [hi]), if_neg (by simp [hi])]
  · unfold trainEpoch dataLoader
    rw [if_pos ⟨hw, by simp⟩]
    rfl
  · unfold valEpoch dataLoader
    rw [hv, if_neg (fun h => h.2 rfl)]
    show (do let b ← (if a.batchSize = 0 then Except.error Err.value else .ok a.batchSize); _) = _
    rw [if_neg (by omega)]
    rfl

/-- **C93, constructor.** The module is refused exactly if a transform is missing and no image size was given. -/
theorem C93_construct (a : Args) :
    construct a = .error .value ↔ a.imageSize = false ∧ (a.trainTransform = false ∨ a.valTransform = false) := by
  obtain ⟨_, _, i, t, v, _⟩ := a
  cases i <;> cases t <;> cases v <;> simp [construct]

/-- Clips of 10 and 7 frames, 4 samples each: the hypotheses hold, and the rows are the expected frames. -/
example : trainBatch 0 (.int 4) [⟨List.range 10, id, 0⟩, ⟨[5, 6, 7, 8, 9, 10, 11], (· + 100), 0⟩] =
    .ok [[0, 3, 6, 9], [105, 107, 109, 111]] := by rfl

/-- Seven images in batches of three. -/
example : trainEpoch { batchSize := 3, workers := 2, imageSize := true } [3, 1, 4, 0, 5, 2, 6] =
    .ok [[3, 1, 4], [0, 5, 2], [6]] := by
  unfold trainEpoch dataLoader
  simp [batches, Bind.bind, Except.bind]

end Verif.Data.Loaders
