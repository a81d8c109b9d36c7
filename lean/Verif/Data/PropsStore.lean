import Verif.Data.Store

/-!
Properties of the data sets that keep state: C78, C79.
-/

namespace Verif.Data.Store

/-! ### C78 -/

/-- What a loop should yield: all clips of all selected videos. -/
def allClips (clips : ℕ → ℕ) (order : List ℕ) : List (ℕ × ℕ) :=
  order.flatMap fun v => (List.range (clips v)).map fun c => (v, c)

theorem loop_state (clips : ℕ → ℕ) (fuel : ℕ) (s : Clic) (h : s.rest.length < fuel) :
    (Clic.loopAux clips fuel s).1.rest = [] ∧ (Clic.loopAux clips fuel s).2.length = s.rest.length := by
  induction fuel generalizing s with
  | zero => omega
  | succ k ih =>
    obtain ⟨rest, current⟩ := s
    cases rest with
    | nil => exact ⟨rfl, rfl⟩
    | cons v rest =>
      have e : Clic.loopAux clips (k + 1) ⟨v :: rest, current⟩ =
          ((Clic.loopAux clips k (Clic.get clips ⟨rest, current⟩ v).1).1,
            (Clic.get clips ⟨rest, current⟩ v).2 :: (Clic.loopAux clips k (Clic.get clips ⟨rest, current⟩ v).1).2) := rfl
      have hr : (Clic.get clips ⟨rest, current⟩ v).1.rest = rest := rfl
      have := ih (Clic.get clips ⟨rest, current⟩ v).1 (by rw [hr]; simp at h; omega)
      rw [e]
      exact ⟨this.1, by simp [this.2, hr]⟩

/-- **C78, single clips.** If every selected video has one clip, a loop yields the clip of every selected video. -/
theorem C78_partial (clips : ℕ → ℕ) (order : List ℕ) (h : ∀ v ∈ order, clips v = 1) :
    ((Clic.init order).loop clips).2 = allClips clips order := by
  unfold Clic.loop Clic.init
  dsimp only
  have key : ∀ (l : List ℕ) (fuel : ℕ), (∀ v ∈ l, clips v = 1) → l.length < fuel →
      (Clic.loopAux clips fuel ⟨l, none⟩).2 = allClips clips l := by
    intro l
    induction l with
    | nil => intro fuel _ hf; cases fuel <;> rfl
    | cons v l ih =>
      intro fuel hv hf
      cases fuel with
      | zero => simp at hf
      | succ k =>
        have hv1 := hv v (List.mem_cons_self ..)
        have e : Clic.get clips ⟨l, none⟩ v = (⟨l, none⟩, (v, 0)) := by
          unfold Clic.get
          simp [hv1]
        have e2 : (Clic.loopAux clips (k + 1) ⟨v :: l, none⟩).2 = (Clic.get clips ⟨l, none⟩ v).2 ::
            (Clic.loopAux clips k (Clic.get clips ⟨l, none⟩ v).1).2 := rfl
        rw [e2, e]
        dsimp only
        rw [ih k (fun w hw => hv w (List.mem_cons_of_mem _ hw)) (by simp at hf; omega)]
        simp [allClips, hv1]
  exact key order _ h (by simp)

/-- **C78 is violated**: for every selection of videos with at least one clip each, a loop yields as many clips as
videos were selected, so clips are missing as soon as one of the videos has more than one clip. -/
theorem C78_violated (clips : ℕ → ℕ) (order : List ℕ) :
    ((Clic.init order).loop clips).2.length = order.length ∧
      ((∀ v ∈ order, 1 ≤ clips v) → (∃ v ∈ order, 1 < clips v) →
        ((Clic.init order).loop clips).2.length < (allClips clips order).length) := by
  have h1 := (loop_state clips ((Clic.init order).rest.length + 1) (Clic.init order) (by simp)).2
  refine ⟨h1, fun hpos hex => ?_⟩
  have h1 : ((Clic.init order).loop clips).2.length = order.length := h1
  rw [h1]
  have hl : (allClips clips order).length = (order.map clips).sum := by
    unfold allClips
    rw [List.length_flatMap]
    simp
  rw [hl]
  clear * - hpos hex
  induction order with
  | nil => obtain ⟨v, hv, -⟩ := hex; cases hv
  | cons w order ih =>
    rw [List.length_cons, List.map_cons, List.sum_cons]
    have hw := hpos w (List.mem_cons_self ..)
    have hle : ∀ l : List ℕ, (∀ v ∈ l, 1 ≤ clips v) → l.length ≤ (l.map clips).sum := by
      intro l
      induction l with
      | nil => intro _; simp
      | cons a l ihl =>
        intro h
        have := ihl fun v hv => h v (List.mem_cons_of_mem _ hv)
        have := h a (List.mem_cons_self ..)
        simp
        omega
    have hrest := hle order fun v hv => hpos v (List.mem_cons_of_mem _ hv)
    obtain ⟨v, hv, hv1⟩ := hex
    rcases List.mem_cons.1 hv with rfl | hv
    · omega
    · have := ih (fun v hv => hpos v (List.mem_cons_of_mem _ hv)) ⟨v, hv, hv1⟩
      omega

/-- **C78 is violated, videos never shown**: if the first selected video has at least as many clips as videos were
selected, all items come from it, in order; the other videos are never opened. -/
theorem C78_violated_first (clips : ℕ → ℕ) (v : ℕ) (order : List ℕ) (h : order.length < clips v) :
    ((Clic.init (v :: order)).loop clips).2 = (List.range (order.length + 1)).map fun c => (v, c) := by
  have key : ∀ (l : List ℕ) (c fuel : ℕ), c + l.length < clips v + 1 → l.length < fuel →
      (Clic.loopAux clips fuel ⟨l, some (v, c)⟩).2 = (List.range l.length).map fun i => (v, c + i) := by
    intro l
    induction l with
    | nil => intro c fuel _ hf; cases fuel <;> rfl
    | cons w l ih =>
      intro c fuel hc hf
      cases fuel with
      | zero => simp at hf
      | succ k =>
        rw [List.length_cons] at hc hf
        have e2 : (Clic.loopAux clips (k + 1) ⟨w :: l, some (v, c)⟩).2 = (Clic.get clips ⟨l, some (v, c)⟩ w).2 ::
            (Clic.loopAux clips k (Clic.get clips ⟨l, some (v, c)⟩ w).1).2 := rfl
        have e3 : (Clic.get clips ⟨l, some (v, c)⟩ w).2 = (v, c) := rfl
        rw [e2, e3, List.length_cons, List.range_succ_eq_map, List.map_cons, List.map_map]
        congr 1
        by_cases hlast : c + 1 ≥ clips v
        · have : l = [] := List.length_eq_zero_iff.1 (by omega)
          subst this
          have e4 : (Clic.get clips ⟨[], some (v, c)⟩ w).1.rest = [] := rfl
          have := (loop_state clips k (Clic.get clips ⟨[], some (v, c)⟩ w).1 (by rw [e4]; simp; omega)).2
          rw [e4] at this
          exact List.length_eq_zero_iff.1 this
        · have e4 : (Clic.get clips ⟨l, some (v, c)⟩ w).1 = ⟨l, some (v, c + 1)⟩ := by
            unfold Clic.get
            dsimp only
            rw [if_neg hlast]
          rw [e4, ih (c + 1) k (by omega) (by omega)]
          refine List.map_congr_left fun i _ => ?_
          show (v, c + 1 + i) = (v, c + (i + 1))
          rw [show c + 1 + i = c + (i + 1) by omega]
  have e : (Clic.init (v :: order)).loop clips = Clic.loopAux clips (order.length + 1 + 1) ⟨v :: order, none⟩ := rfl
  rw [e]
  have e2 : (Clic.loopAux clips (order.length + 1 + 1) ⟨v :: order, none⟩).2 =
      (Clic.get clips ⟨order, none⟩ v).2 ::
        (Clic.loopAux clips (order.length + 1) (Clic.get clips ⟨order, none⟩ v).1).2 := rfl
  have e3 : (Clic.get clips ⟨order, none⟩ v).2 = (v, 0) := rfl
  rw [e2, e3, List.range_succ_eq_map, List.map_cons, List.map_map]
  congr 1
  by_cases hlast : 0 + 1 ≥ clips v
  · have : order = [] := List.length_eq_zero_iff.1 (by omega)
    subst this
    have e4 : (Clic.get clips ⟨[], none⟩ v).1.rest = [] := rfl
    have := (loop_state clips 1 (Clic.get clips ⟨[], none⟩ v).1 (by rw [e4]; simp)).2
    rw [e4] at this
    exact List.length_eq_zero_iff.1 this
  · have e4 : (Clic.get clips ⟨order, none⟩ v).1 = ⟨order, some (v, 1)⟩ := by
      unfold Clic.get
      dsimp only
      rw [if_neg hlast]
    rw [e4, key order 1 _ (by omega) (by omega)]
    refine List.map_congr_left fun i _ => ?_
    show (v, 1 + i) = (v, i + 1)
    rw [Nat.add_comm]

/-- **C78 is violated, second loop**: after a loop over any data set, every later loop yields nothing. -/
theorem C78_violated_again (clips : ℕ → ℕ) (s : Clic) :
    ((s.loop clips).1.loop clips).2 = [] := by
  have h := (loop_state clips (s.rest.length + 1) s (by omega)).1
  have h' : (s.loop clips).1.rest = [] := h
  have := (loop_state clips ((s.loop clips).1.rest.length + 1) (s.loop clips).1 (by omega)).2
  rw [h'] at this
  refine List.length_eq_zero_iff.1 ?_
  show (Clic.loopAux clips ((s.loop clips).1.rest.length + 1) (s.loop clips).1).2.length = 0
  rw [h']
  exact this

/-- **C78 is violated, indexing**: while a video is in progress, `dataset[i]` returns its next clip for every `i`. -/
theorem C78_violated_index (clips : ℕ → ℕ) (s : Clic) (v c : ℕ) (h : s.current = some (v, c)) (i : ℕ) :
    (s.get clips i).2 = (v, c) := by
  unfold Clic.get
  rw [h]

/-- The C78 theorems are not vacuous: three videos of two clips. -/
example : ((Clic.init [0, 1, 2]).loop fun _ => 2).2 = [(0, 0), (0, 1), (2, 0)] := by decide

/-! ### C79 -/

variable {Byte Digest : Type} [DecidableEq Digest]

/-- A history of constructor calls: the directory afterwards. -/
def kodakAfter (hash : List Byte → Digest) (expected : Digest) (server : ℕ → List Byte) (calls : List KodakArgs)
    (dir : KodakDir (List Byte)) : KodakDir (List Byte) :=
  calls.foldl (fun d a => (kodakInit hash expected server a d).1) dir

theorem kodak_kept (hash : List Byte → Digest) (expected : Digest) (server : ℕ → List Byte) (a : KodakArgs)
    (d : ℕ → Option (List Byte)) : (kodakInit hash expected server a (some d)).1 = some d := by
  obtain ⟨check, download, force, online, part⟩ := a
  unfold kodakInit kodakDownload
  cases download <;> cases force <;> rfl

theorem kodakAfter_kept (hash : List Byte → Digest) (expected : Digest) (server : ℕ → List Byte)
    (calls : List KodakArgs) (d : ℕ → Option (List Byte)) :
    kodakAfter hash expected server calls (some d) = some d := by
  induction calls with
  | nil => rfl
  | cons a calls ih =>
    unfold kodakAfter at ih ⊢
    rw [List.foldl_cons, kodak_kept, ih]

/-- **C79, first download.** If the directory does not exist, `download=True` fetches the 24 images, and the constructor
then accepts them exactly if the digest is the expected one or the check is off. Without `download` it raises
`FileNotFoundError`. -/
theorem C79_kodak_partial (hash : List Byte → Digest) (expected : Digest) (server : ℕ → List Byte)
    (a : KodakArgs) :
    (a.download = true → a.online = 24 →
      ∃ d, (kodakInit hash expected server a none).1 = some d ∧ (∀ i < 24, d i = some (server i)) ∧
        ((kodakInit hash expected server a none).2 = none ↔
          a.checkHash = false ∨ hash ((List.range 24).flatMap server) = expected) ∧
        ∀ e, (kodakInit hash expected server a none).2 = some e → e = .runtime) ∧
    (a.download = false → kodakInit hash expected server a none = (none, some .fileNotFound)) := by
  obtain ⟨check, download, force, online, part⟩ := a
  refine ⟨?_, ?_⟩
  · rintro ⟨⟩ ⟨⟩
    set d : ℕ → Option (List Byte) := fun i => if i < 24 ∧ i < 24 then some (server i)
      else if i < 24 ∧ i = 24 then part.map fun k => (server i).take k else none with hd
    have hd' : ∀ i < 24, d i = some (server i) := fun i hi => by rw [hd]; simp [hi]
    have hm : (List.range 24).mapM d = some ((List.range 24).map server) := by
      have : ∀ l : List ℕ, (∀ i ∈ l, i < 24) → l.mapM d = some (l.map server) := by
        intro l
        induction l with
        | nil => intro _; rfl
        | cons i l ih =>
          intro h
          rw [List.mapM_cons, hd' i (h i (List.mem_cons_self ..)), ih fun j hj => h j (List.mem_cons_of_mem _ hj)]
          rfl
      exact this _ fun i hi => List.mem_range.1 hi
    have hi : kodakInit hash expected server ⟨check, true, force, 24, part⟩ none =
        (some d, if check then kodakCheck hash expected d else none) := by
      unfold kodakInit kodakDownload
      rfl
    refine ⟨d, by rw [hi], hd', ?_, ?_⟩
    · rw [hi]
      dsimp only
      cases check with
      | false => simp
      | true =>
        unfold kodakCheck
        rw [hm, if_pos rfl]
        dsimp only
        rw [← List.flatMap_def]
        split_ifs with h <;> simp [h]
    · intro e he
      rw [hi] at he
      dsimp only at he
      cases check with
      | false => simp at he
      | true =>
        unfold kodakCheck at he
        rw [hm, if_pos rfl] at he
        dsimp only at he
        split_ifs at he
        injection he with he
        exact he.symm
  · rintro ⟨⟩
    rfl

/-- **C79, refusal.** If the directory exists, a download that is not forced raises `RuntimeError` and changes nothing. -/
theorem C79_kodak_refuses_partial (hash : List Byte → Digest) (expected : Digest) (server : ℕ → List Byte)
    (a : KodakArgs) (h1 : a.download = true) (h2 : a.forceDownload = false) (d : ℕ → Option (List Byte)) :
    kodakInit hash expected server a (some d) = (some d, some .runtime) := by
  obtain ⟨check, download, force, online, part⟩ := a
  cases h1
  cases h2
  rfl

/-- **C79 is violated**: a forced download raises `FileExistsError` whenever the directory exists, for every content of
it; nothing is downloaded. -/
theorem C79_violated (hash : List Byte → Digest) (expected : Digest) (server : ℕ → List Byte)
    (a : KodakArgs) (h1 : a.download = true) (h2 : a.forceDownload = true) (d : ℕ → Option (List Byte)) :
    kodakInit hash expected server a (some d) = (some d, some .fileExists) := by
  obtain ⟨check, download, force, online, part⟩ := a
  cases h1
  cases h2
  rfl

/-- **C79 is violated, interruption**: if the network fails (or the process is killed) during the first download, then no call of the
constructor in any later history repairs the data: the images after the interruption stay missing, the one that was being
transferred stays incomplete, and every download raises. A call with the check of the digest raises, except if only the end of the last
image is missing and what is there has the expected digest. Without download and check every later call accepts the data as they are. -/
theorem C79_violated_interrupted (hash : List Byte → Digest) (expected : Digest) (server : ℕ → List Byte)
    (a : KodakArgs) (h1 : a.download = true) (h2 : a.online < 24) (calls : List KodakArgs) (b : KodakArgs) :
    (kodakInit hash expected server a none).2 = some .url ∧
    ∃ d, kodakAfter hash expected server (a :: calls) none = some d ∧ (∀ i < a.online, d i = some (server i)) ∧
      d a.online = a.part.map (fun k => (server a.online).take k) ∧ (∀ i > a.online, d i = none) ∧
      (b.download = true → ∃ e, (kodakInit hash expected server b (some d)).2 = some e) ∧
      (b.download = false → b.checkHash = true →
        (a.online < 23 ∨ a.part = none → (kodakInit hash expected server b (some d)).2 = some .fileNotFound) ∧
        ∀ k, a.online = 23 → a.part = some k →
          ((kodakInit hash expected server b (some d)).2 = none ↔
            hash ((List.range 23).flatMap server ++ (server 23).take k) = expected)) ∧
      (b.download = false → b.checkHash = false → (kodakInit hash expected server b (some d)).2 = none) := by
  obtain ⟨check, download, force, online, part⟩ := a
  cases h1
  dsimp only at h2
  set d : ℕ → Option (List Byte) := fun i => if i < 24 ∧ i < online then some (server i)
      else if i < 24 ∧ i = online then part.map fun k => (server i).take k else none with hd
  have hi : kodakInit hash expected server ⟨check, true, force, online, part⟩ none = (some d, some .url) := by
    unfold kodakInit kodakDownload
    simp only [if_true, if_neg (show ¬ 24 ≤ online by omega), hd]
  have hlt : ∀ i < online, d i = some (server i) := by
    intro i hi'
    simp only [hd]
    rw [if_pos ⟨by omega, hi'⟩]
  have heq : d online = part.map fun k => (server online).take k := by simp [hd, h2]
  have hgt : ∀ i > online, d i = none := by
    intro i hi'
    simp only [hd]
    rw [if_neg (by omega), if_neg (by omega)]
  have hmiss : ∀ j < 24, d j = none → (List.range 24).mapM d = none := by
    intro j hj hn
    have : ∀ l : List ℕ, j ∈ l → l.mapM d = none := by
      intro l
      induction l with
      | nil => intro h; cases h
      | cons i l ih =>
        intro h
        rw [List.mapM_cons]
        rcases List.mem_cons.1 h with rfl | h
        · rw [hn]; rfl
        · rw [ih h]
          cases d i <;> rfl
    exact this _ (List.mem_range.2 hj)
  refine ⟨by rw [hi], d, ?_, hlt, heq, hgt, ?_, ?_, ?_⟩
  · unfold kodakAfter
    rw [List.foldl_cons, hi]
    exact kodakAfter_kept hash expected server calls d
  · obtain ⟨check', download', force', online', part'⟩ := b
    rintro ⟨⟩
    cases force' with
    | true => exact ⟨_, rfl⟩
    | false => exact ⟨_, rfl⟩
  · obtain ⟨check', download', force', online', part'⟩ := b
    rintro ⟨⟩ ⟨⟩
    constructor
    · intro h
      show kodakCheck hash expected d = _
      unfold kodakCheck
      rcases h with h | h
      · rw [hmiss 23 (by decide) (hgt 23 h)]
      · dsimp only at h
        rw [hmiss online h2 (by rw [heq, h]; rfl)]
    · rintro k ⟨⟩ ⟨⟩
      have hall : ∀ l : List ℕ, (∀ i ∈ l, i < 23) → l.mapM d = some (l.map server) := by
        intro l
        induction l with
        | nil => intro _; rfl
        | cons i l ih =>
          intro h
          rw [List.mapM_cons, hlt i (h i (List.mem_cons_self ..)), ih fun j hj => h j (List.mem_cons_of_mem _ hj)]
          rfl
      have hm : (List.range 24).mapM d = some ((List.range 23).map server ++ [(server 23).take k]) := by
        rw [List.range_succ, List.mapM_append, hall _ fun i hi => List.mem_range.1 hi]
        simp only [List.mapM_cons, List.mapM_nil, heq]
        rfl
      show kodakCheck hash expected d = _ ↔ _
      unfold kodakCheck
      rw [hm]
      simp only [List.flatten_append, List.flatten_cons, List.flatten_nil, List.append_nil, ← List.flatMap_def]
      split_ifs with h <;> simp [h]
  · obtain ⟨check', download', force', online', part'⟩ := b
    rintro ⟨⟩ ⟨⟩
    rfl

/-- A history of downloads of CLIC images: the directory afterwards. -/
def clicAfter {File : Type} (server : Split → List File) (calls : List (Split × Bool × Bool)) : ClicDir File :=
  calls.foldl (fun d c => (clicInit server c.1 c.2.1 c.2.2 d).1) ClicDir.empty

/-- The split was fetched by some call of the history. -/
def Fetched (calls : List (Split × Bool × Bool)) (s : Split) : Prop := ∃ c ∈ calls, c = (s, true, true)

theorem clic_inv {File : Type} (server : Split → List File) (calls : List (Split × Bool × Bool)) :
    ∀ s, ((clicAfter server calls).archive s = true ↔ Fetched calls s) ∧
      (Fetched calls s → (clicAfter server calls).images s = some (server s)) ∧
      (¬ Fetched calls s → (clicAfter server calls).images s = none) := by
  induction calls using List.reverseRecOn with
  | nil =>
    intro s
    have : ¬ Fetched [] s := fun ⟨c, hc, _⟩ => by cases hc
    exact ⟨⟨(fun h => by cases h), (fun h => (this h).elim)⟩, fun h => (this h).elim, fun _ => rfl⟩
  | append_singleton calls c ih =>
    obtain ⟨split, download, online⟩ := c
    have hstep : clicAfter server (calls ++ [(split, download, online)]) =
        (clicInit server split download online (clicAfter server calls)).1 := by
      unfold clicAfter; rw [List.foldl_append]; rfl
    have hF : ∀ s, Fetched (calls ++ [(split, download, online)]) s ↔
        Fetched calls s ∨ (s = split ∧ download = true ∧ online = true) := by
      intro s
      unfold Fetched
      constructor
      · rintro ⟨c, hc, rfl⟩
        rcases List.mem_append.1 hc with hc | hc
        · exact Or.inl ⟨_, hc, rfl⟩
        · rw [List.mem_singleton] at hc
          injection hc with h1 h2
          injection h2 with h2 h3
          exact Or.inr ⟨h1, h2.symm, h3.symm⟩
      · rintro (⟨c, hc, rfl⟩ | ⟨rfl, rfl, rfl⟩)
        · exact ⟨_, List.mem_append_left _ hc, rfl⟩
        · exact ⟨_, List.mem_append_right _ (List.mem_singleton_self _), rfl⟩
    intro s
    rw [hstep, hF]
    set d := clicAfter server calls with hd
    obtain ⟨i1, i2, i3⟩ := ih s
    cases download with
    | false =>
      have e : (clicInit server split false online d).1 = d := rfl
      rw [e]
      simpa using ⟨i1, i2, i3⟩
    | true =>
      have e : (clicInit server split true online d).1 = (clicDownload server split online d).1 := by
        unfold clicInit
        rw [if_pos rfl]
        split <;> next h => rw [h]
      rw [e]
      by_cases hoff : d.archive split = false ∧ online = false
      · have e : (clicDownload server split online d).1 = d := by
          unfold clicDownload; rw [hoff.1, hoff.2]; rfl
        rw [e, hoff.2]
        simpa using ⟨i1, i2, i3⟩
      · have hcond : (!d.archive split && !online) = false := by
          rcases Bool.eq_false_or_eq_true (d.archive split) with h1 | h1
          · rw [h1]; rfl
          · rcases Bool.eq_false_or_eq_true online with h2 | h2
            · rw [h2]; simp
            · exact (hoff ⟨h1, h2⟩).elim
        have hFs : Fetched calls split ∨ online = true := by
          cases h2 : online with
          | true => exact Or.inr rfl
          | false =>
            left
            refine (ih split).1.1 ?_
            rcases Bool.eq_false_or_eq_true (d.archive split) with h1 | h1
            · exact h1
            · exact (hoff ⟨h1, h2⟩).elim
        have harch : ∀ t, (clicDownload server split online d).1.archive t = if t = split then true else d.archive t := by
          intro t
          unfold clicDownload
          rw [hcond]
          cases split <;> dsimp only
          all_goals first | rfl | skip
          all_goals (rw [if_neg (by simp)]; split <;> rfl)
        have himg : ∀ t, (clicDownload server split online d).1.images t =
            if t = split then some (server split) else d.images t := by
          intro t
          unfold clicDownload
          rw [hcond, if_neg (by simp)]
          cases split with
          | train => rfl
          | test => rfl
          | val =>
            dsimp only
            split
            · next h =>
              dsimp only
              by_cases ht : t = .val
              · subst ht
                rw [if_pos rfl]
                by_cases hf : Fetched calls .val
                · exact (ih .val).2.1 hf
                · rw [(ih .val).2.2 hf] at h; cases h
              · rw [if_neg ht]
            · rfl
        rw [harch, himg]
        by_cases hss : s = split
        · subst hss
          rw [if_pos rfl, if_pos rfl]
          refine ⟨⟨fun _ => ?_, fun _ => rfl⟩, fun _ => rfl, fun h => ?_⟩
          · rcases hFs with h | h
            · exact Or.inl h
            · exact Or.inr ⟨rfl, rfl, h⟩
          · exfalso
            refine h ?_
            rcases hFs with h | h
            · exact Or.inl h
            · exact Or.inr ⟨rfl, rfl, h⟩
        · rw [if_neg hss, if_neg hss]
          have : (Fetched calls s ∨ s = split ∧ true = true ∧ online = true) ↔ Fetched calls s := by
            constructor
            · rintro (h | h)
              · exact h
              · exact (hss h.1).elim
            · exact Or.inl
          rw [this]
          exact ⟨i1, i2, i3⟩

/-- **C79, CLIC images.** After every history of constructor calls: the training and the test split can be requested
with `download=True` again and again, once fetched also without a network; and every split that was fetched once has exactly
its images, also when read without `download`. -/
theorem C79_clic_partial {File : Type} (server : Split → List File)
    (calls : List (Split × Bool × Bool)) (s : Split) :
    (Fetched calls s → ∀ online, (clicInit server s false online (clicAfter server calls)).2 = .ok (server s)) ∧
    (s ≠ .val → ∀ online, Fetched calls s ∨ online = true →
      (clicInit server s true online (clicAfter server calls)).2 = .ok (server s)) ∧
    (¬ Fetched calls s → (clicInit server s true true (clicAfter server calls)).2 = .ok (server s)) ∧
    (¬ Fetched calls s → (clicInit server s true false (clicAfter server calls)).2 = .error .url) := by
  obtain ⟨h1, h2, h3⟩ := clic_inv server calls s
  set d := clicAfter server calls with hd
  refine ⟨fun hf online => ?_, fun hv online ho => ?_, fun hf => ?_, fun hf => ?_⟩
  · show Except.ok _ = _
    rw [h2 hf]; rfl
  · have hcond : (!d.archive s && !online) = false := by
      rcases ho with h | h
      · rw [h1.2 h]; rfl
      · rw [h]; simp
    unfold clicInit clicDownload
    rw [if_pos rfl, hcond]
    cases s with
    | train => rfl
    | test => rfl
    | val => exact (hv rfl).elim
  · unfold clicInit clicDownload
    rw [if_pos rfl, show (!d.archive s && !true) = false by simp]
    cases s with
    | train => rfl
    | test => rfl
    | val =>
      rw [if_neg (by simp)]
      dsimp only
      rw [h3 hf]
      rfl
  · have : d.archive s = false := by
      cases h : d.archive s with
      | false => rfl
      | true => exact (hf (h1.1 h)).elim
    unfold clicInit clicDownload
    rw [if_pos rfl, this]
    rfl

/-- **C79, CLIC images, leftovers.** After every history in which the validation split was downloaded at most once, no
`__MACOSX` and no `valid` directory is left in the root, and the archives that are there are those of the splits fetched. -/
theorem C79_clic_clean {File : Type} (server : Split → List File) (calls : List (Split × Bool × Bool))
    (h : calls.countP (fun c => decide (c.1 = .val) && c.2.1) ≤ 1) :
    (clicAfter server calls).macosx = false ∧ (clicAfter server calls).macosxTest = false ∧
      (clicAfter server calls).valid = none ∧ ∀ s, (clicAfter server calls).archive s = true ↔ Fetched calls s := by
  suffices hh : (clicAfter server calls).macosx = false ∧ (clicAfter server calls).macosxTest = false ∧
      (clicAfter server calls).valid = none from ⟨hh.1, hh.2.1, hh.2.2, fun s => (clic_inv server calls s).1⟩
  induction calls using List.reverseRecOn with
  | nil => exact ⟨rfl, rfl, rfl⟩
  | append_singleton calls c ih =>
    obtain ⟨split, download, online⟩ := c
    have hstep : clicAfter server (calls ++ [(split, download, online)]) =
        (clicInit server split download online (clicAfter server calls)).1 := by
      unfold clicAfter; rw [List.foldl_append]; rfl
    rw [List.countP_append] at h
    obtain ⟨i1, i2, i3⟩ := ih (by omega)
    rw [hstep]
    cases download with
    | false => exact ⟨i1, i2, i3⟩
    | true =>
      have e : (clicInit server split true online (clicAfter server calls)).1 =
          (clicDownload server split online (clicAfter server calls)).1 := by
        unfold clicInit
        rw [if_pos rfl]
        split <;> next h => rw [h]
      rw [e]
      unfold clicDownload
      split_ifs with hc
      · exact ⟨i1, i2, i3⟩
      · cases split with
        | train => exact ⟨rfl, i2, i3⟩
        | test => exact ⟨i1, rfl, i3⟩
        | val =>
          have hn : ¬ Fetched calls .val := by
            rintro ⟨c, hcm, rfl⟩
            have : 0 < calls.countP (fun c => decide (c.1 = Split.val) && c.2.1) :=
              List.countP_pos_iff.2 ⟨_, hcm, by simp⟩
            have h1 : [(Split.val, true, online)].countP (fun c => decide (c.1 = Split.val) && c.2.1) = 1 := by simp
            rw [h1] at h
            omega
          have himg := (clic_inv server calls .val).2.2 hn
          dsimp only
          rw [himg]
          exact ⟨rfl, i2, rfl⟩

/-- **C79 is violated for the validation split**: once it was fetched, every later request with `download=True` raises
`OSError`, after every history and with or without a network. -/
theorem C79_violated_clic {File : Type} (server : Split → List File) (hs : ∀ s, server s ≠ [])
    (calls : List (Split × Bool × Bool)) (hf : Fetched calls .val) (online : Bool) :
    (clicInit server .val true online (clicAfter server calls)).2 = .error .os := by
  obtain ⟨h1, h2, h3⟩ := clic_inv server calls .val
  set d := clicAfter server calls with hd
  unfold clicInit clicDownload
  rw [if_pos rfl, h1.2 hf]
  simp only [Bool.not_true, Bool.false_and]
  rw [if_neg (by simp), h2 hf]
  obtain ⟨x, l, hx⟩ := List.exists_cons_of_ne_nil (hs .val)
  rw [hx]

/-- A history with one download of the validation split. -/
example : ([(Split.train, true, true), (Split.val, true, true), (Split.val, false, true)].countP
    (fun c => decide (c.1 = Split.val) && c.2.1)) ≤ 1 := by decide

/-- The CLIC theorems are not vacuous. -/
example : Fetched [(Split.train, true, true), (Split.val, true, true), (Split.test, false, true)] .val :=
  ⟨_, by simp, rfl⟩

end Verif.Data.Store
