import Verif.Data.Listing

/-!
# C141: the concurrent download of the CLIC videos

Specification: `lastContent` is what an archive has for a file. A download is a schedule of the threads of the executor; it may
also be killed, which is a schedule after which nothing else happens.
-/

namespace Verif.Data.Listing

variable {C : Type}

/-- What extracting an archive into an empty place gives for a file: the last entry with this name. -/
def lastContent (ms : List (Member C)) (d f : String) : Option C :=
  ((ms.filter fun m => decide (m.dir = d) && decide (m.file = f)).getLast?).map fun m => m.content

/-- The directories of an archive. -/
def Uses (ms : List (Member C)) (d : String) : Prop := ∃ m ∈ ms, m.dir = d

/-- No two archives have a directory in common. -/
def DirsDisjoint (archives : List (Option (List (Member C)))) : Prop :=
  ∀ (i j : ℕ) (ms ms' : List (Member C)), archives[i]? = some (some ms) → archives[j]? = some (some ms') → i ≠ j → ∀ d, Uses ms d → ¬ Uses ms' d

/-- The content of a file. -/
def Tree.file (t : Tree C) (d f : String) : Option C := (t d).bind fun files => files f

/-! ### What a thread touches -/

/-- The directory an operation is about. -/
def Op.dir : Op C → String
  | .check d => d
  | .mkdir d => d
  | .write m => m.dir

/-- The directories a thread has still to do with. -/
def Thread.Touches (t : Thread C) (d : String) : Prop := ∃ op ∈ t.ops, op.dir = d

theorem step_outside (t : Thread C) (tree : Tree C) (d : String) (hd : ¬ t.Touches d) : (t.step tree).2 d = tree d := by
  rcases t with ⟨ops, missing, failed⟩
  rcases ops with _ | ⟨op, ops⟩
  · rfl
  · have h0 : op.dir ≠ d := fun h => hd ⟨op, by simp, h⟩
    rcases op with e | e | m
    · rfl
    · simp only [Op.dir] at h0
      simp only [Thread.step]
      cases missing
      · rfl
      · rcases h : tree e with _ | _
        · simp [h0.symm]
        · rfl
    · simp only [Op.dir] at h0
      simp only [Thread.step]
      rcases h : tree m.dir with _ | _
      · rfl
      · simp [h0.symm]

theorem step_touches (t : Thread C) (tree : Tree C) (d : String) (h : (t.step tree).1.Touches d) : t.Touches d := by
  rcases t with ⟨ops, missing, failed⟩
  rcases ops with _ | ⟨op, ops⟩
  · exact h
  · have key : ∀ t' : Thread C, (t'.ops = ops ∨ t'.ops = []) → t'.Touches d → Thread.Touches ⟨op :: ops, missing, failed⟩ d := by
      rintro t' (h | h) ⟨o, ho, e⟩
      · rw [h] at ho
        exact ⟨o, by simp [ho], e⟩
      · rw [h] at ho
        simp at ho
    refine key _ ?_ h
    rcases op with e | e | m
    · exact Or.inl rfl
    · simp only [Thread.step]
      cases missing
      · exact Or.inl rfl
      · rcases tree e with _ | _
        · exact Or.inl rfl
        · exact Or.inr rfl
    · simp only [Thread.step]
      rcases tree m.dir with _ | _
      · exact Or.inr rfl
      · exact Or.inl rfl

theorem step_agree (t : Thread C) (tree tree' : Tree C) (D : String → Prop) (hD : ∀ d, t.Touches d → D d)
    (h : ∀ d, D d → tree' d = tree d) :
    (t.step tree').1 = (t.step tree).1 ∧ ∀ d, D d → (t.step tree').2 d = (t.step tree).2 d := by
  rcases t with ⟨ops, missing, failed⟩
  rcases ops with _ | ⟨op, ops⟩
  · exact ⟨rfl, h⟩
  · have h0 : tree' op.dir = tree op.dir := h _ (hD _ ⟨op, by simp, rfl⟩)
    rcases op with e | e | m
    · simp only [Op.dir] at h0
      simp only [Thread.step, h0, true_and]
      exact h
    · simp only [Op.dir] at h0
      simp only [Thread.step]
      cases missing
      · exact ⟨rfl, h⟩
      · rw [h0]
        rcases tree e with _ | _
        · refine ⟨rfl, fun d hd => ?_⟩
          simp only [if_true]
          split
          · rfl
          · exact h d hd
        · exact ⟨rfl, h⟩
    · simp only [Op.dir] at h0
      simp only [Thread.step]
      rw [h0]
      rcases tree m.dir with _ | _
      · exact ⟨rfl, h⟩
      · refine ⟨rfl, fun d hd => ?_⟩
        dsimp only
        split
        · rfl
        · exact h d hd

/-! ### A thread by itself -/

/-- `k` steps of a thread when no other runs. -/
def solo : ℕ → Thread C × Tree C → Thread C × Tree C
  | 0, p => p
  | k + 1, p => solo k (p.1.step p.2)

theorem solo_add (k n : ℕ) (p : Thread C × Tree C) : solo (k + n) p = solo n (solo k p) := by
  induction k generalizing p with
  | zero => rw [Nat.zero_add]; rfl
  | succ k ih => rw [Nat.add_right_comm]; exact ih _

theorem solo_done (n : ℕ) (p : Thread C × Tree C) (h : p.1.ops = []) : solo n p = p := by
  induction n with
  | zero => rfl
  | succ n ih =>
    have : p.1.step p.2 = p := by
      unfold Thread.step
      rw [h]
    rw [solo, this, ih]

theorem solo_agree (k : ℕ) : ∀ (t : Thread C) (tree tree' : Tree C) (D : String → Prop), (∀ d, t.Touches d → D d) →
    (∀ d, D d → tree' d = tree d) →
    (solo k (t, tree')).1 = (solo k (t, tree)).1 ∧ ∀ d, D d → (solo k (t, tree')).2 d = (solo k (t, tree)).2 d := by
  induction k with
  | zero => intro t tree tree' D _ h; exact ⟨rfl, h⟩
  | succ k ih =>
    intro t tree tree' D hD h
    obtain ⟨h1, h2⟩ := step_agree t tree tree' D hD h
    have := ih (t.step tree).1 (t.step tree).2 (t.step tree').2 D (fun d hd => hD d (step_touches t tree d hd)) h2
    have e : t.step tree' = ((t.step tree).1, (t.step tree').2) := by rw [← h1]
    simp only [solo]
    rw [e]
    exact this

/-- The effect of an entry of an archive. -/
def put (tree : Tree C) (m : Member C) : Tree C := fun e =>
  if e = m.dir then some fun f => if f = m.file then some m.content else (tree m.dir).bind fun files => files f else tree e

theorem solo_member (m : Member C) (ops : List (Op C)) (b : Bool) (tree : Tree C) :
    ∃ b', solo 3 (⟨.check m.dir :: .mkdir m.dir :: .write m :: ops, b, false⟩, tree) = (⟨ops, b', false⟩, put tree m) := by
  rcases h : tree m.dir with _ | files
  · refine ⟨true, ?_⟩
    simp only [solo, Thread.step, h, Option.isNone_none, if_true]
    refine Prod.ext rfl (funext fun e => ?_)
    unfold put
    by_cases he : e = m.dir
    · simp [he, h]
    · simp [he]
  · refine ⟨false, ?_⟩
    simp only [solo, Thread.step, h, Option.isNone_some, Bool.false_eq_true, if_false]
    refine Prod.ext rfl (funext fun e => ?_)
    unfold put
    by_cases he : e = m.dir
    · simp [he, h]
    · simp [he]

theorem solo_extract (ms : List (Member C)) : ∀ (b : Bool) (tree : Tree C),
    ∃ b', solo (3 * ms.length) (⟨extract ms, b, false⟩, tree) = (⟨[], b', false⟩, ms.foldl put tree) := by
  induction ms with
  | nil => intro b tree; exact ⟨b, rfl⟩
  | cons m ms ih =>
    intro b tree
    obtain ⟨b', h⟩ := solo_member m (extract ms) b tree
    obtain ⟨b'', h'⟩ := ih b' (put tree m)
    refine ⟨b'', ?_⟩
    rw [List.length_cons, show 3 * (ms.length + 1) = 3 + 3 * ms.length by omega, solo_add]
    have : extract (m :: ms) = .check m.dir :: .mkdir m.dir :: .write m :: extract ms := rfl
    rw [this, h, h']
    rfl

theorem put_file (tree : Tree C) (m : Member C) (d f : String) :
    (put tree m).file d f = if m.dir = d ∧ m.file = f then some m.content else tree.file d f := by
  unfold Tree.file put
  by_cases hd : d = m.dir
  · subst hd
    by_cases hf : f = m.file
    · simp [hf]
    · simp [hf, Ne.symm hf]
  · simp [hd, Ne.symm hd]

theorem foldl_file (ms : List (Member C)) : ∀ (tree : Tree C) (d f : String),
    (ms.foldl put tree).file d f = (lastContent ms d f).or (tree.file d f) := by
  induction ms with
  | nil => intro tree d f; rfl
  | cons m ms ih =>
    intro tree d f
    rw [List.foldl_cons, ih, put_file]
    unfold lastContent
    by_cases h : m.dir = d ∧ m.file = f
    · rw [if_pos h, List.filter_cons_of_pos (by simp [h.1, h.2])]
      rw [List.getLast?_cons]
      rcases (ms.filter fun m => decide (m.dir = d) && decide (m.file = f)).getLast? with _ | x <;> simp
    · rw [if_neg h, List.filter_cons_of_neg (by simpa using h)]

/-! ### A thread among others -/

theorem run_outside (s : List ℕ) : ∀ (w : World C) (d : String), (∀ i, ¬ (w.threads i).Touches d) → (w.run s).tree d = w.tree d := by
  induction s with
  | nil => intro w d _; rfl
  | cons i s ih =>
    intro w d h
    rw [World.run, ih]
    · exact step_outside _ _ _ (h i)
    · intro j hj
      by_cases hji : j = i
      · subst hji
        simp only [World.step, if_true] at hj
        exact h j (step_touches _ _ _ hj)
      · simp only [World.step, hji, if_false] at hj
        exact h j hj

theorem run_project (i : ℕ) (D : String → Prop) (s : List ℕ) : ∀ w : World C, (∀ d, (w.threads i).Touches d → D d) →
    (∀ j, j ≠ i → ∀ d, (w.threads j).Touches d → ¬ D d) →
    (w.run s).threads i = (solo (s.count i) (w.threads i, w.tree)).1 ∧
    ∀ d, D d → (w.run s).tree d = (solo (s.count i) (w.threads i, w.tree)).2 d := by
  induction s with
  | nil => intro w _ _; exact ⟨rfl, fun _ _ => rfl⟩
  | cons j s ih =>
    intro w h1 h2
    by_cases hj : j = i
    · subst hj
      rw [World.run, List.count_cons_self, solo]
      have e : (w.step j).threads j = ((w.threads j).step w.tree).1 := by simp [World.step]
      have e' : (w.step j).tree = ((w.threads j).step w.tree).2 := rfl
      have := ih (w.step j) (fun d hd => h1 d (step_touches _ w.tree _ (by rwa [e] at hd))) (fun k hk d hd => by
        simp only [World.step, hk, if_false] at hd
        exact h2 k hk d hd)
      rw [e, e'] at this
      exact this
    · rw [World.run, List.count_cons_of_ne hj]
      have e : (w.step j).threads i = w.threads i := by simp [World.step, Ne.symm hj]
      have e' : ∀ d, D d → (w.step j).tree d = w.tree d := fun d hd =>
        step_outside _ _ _ fun ht => h2 j hj d ht hd
      have := ih (w.step j) (fun d hd => h1 d (by rwa [e] at hd)) (fun k hk d hd => by
        by_cases hkj : k = j
        · subst hkj
          simp only [World.step, if_true] at hd
          exact h2 k hk d (step_touches _ _ _ hd)
        · simp only [World.step, hkj, if_false] at hd
          exact h2 k hk d hd)
      rw [e] at this
      obtain ⟨g1, g2⟩ := solo_agree (s.count i) (w.threads i) w.tree (w.step j).tree D h1 e'
      exact ⟨this.1.trans g1, fun d hd => (this.2 d hd).trans (g2 d hd)⟩

theorem extract_touches (ms : List (Member C)) (b f : Bool) (d : String) (h : Thread.Touches ⟨extract ms, b, f⟩ d) : Uses ms d := by
  obtain ⟨op, ho, e⟩ := h
  obtain ⟨m, hm, hop⟩ := List.mem_flatMap.1 ho
  refine ⟨m, hm, ?_⟩
  simp only [List.mem_cons, List.not_mem_nil, or_false] at hop
  rcases hop with rfl | rfl | rfl <;> exact e

theorem start_touches (archives : List (Option (List (Member C)))) (tree : Tree C) (i : ℕ) (d : String)
    (h : ((start archives tree).threads i).Touches d) : ∃ ms, archives[i]? = some (some ms) ∧ Uses ms d := by
  simp only [start] at h
  rcases ha : archives[i]? with _ | _ | ms
  · rw [ha] at h
    obtain ⟨op, ho, -⟩ := h
    simp at ho
  · rw [ha] at h
    obtain ⟨op, ho, -⟩ := h
    simp at ho
  · rw [ha] at h
    exact ⟨ms, rfl, extract_touches _ _ _ _ h⟩

/-- The state of an archive after any schedule: that of extracting it alone. -/
theorem start_project (archives : List (Option (List (Member C)))) (tree : Tree C) (hd : DirsDisjoint archives) (i : ℕ)
    (ms : List (Member C)) (ha : archives[i]? = some (some ms)) (s : List ℕ) :
    ((start archives tree).run s).threads i = (solo (s.count i) (⟨extract ms, false, false⟩, tree)).1 ∧
    ∀ d, Uses ms d → ((start archives tree).run s).tree d = (solo (s.count i) (⟨extract ms, false, false⟩, tree)).2 d := by
  have e : (start archives tree).threads i = ⟨extract ms, false, false⟩ := by simp [start, ha]
  have := run_project i (Uses ms) s (start archives tree) (fun d h => by rw [e] at h; exact extract_touches _ _ _ _ h)
    (fun j hj d h hu => by
      obtain ⟨ms', ha', hu'⟩ := start_touches archives tree j d h
      exact hd i j ms ms' ha ha' (Ne.symm hj) d hu hu')
  rw [e] at this
  exact this

/-- **C141, download.** If the archives have no directory in common, then in every schedule of the threads, when `download` has
ended: it has raised exactly if an archive could not be fetched; every file of every archive that could be fetched is there with
its content in the archive, also if another archive failed; no other file has changed. It ends as soon as every thread has had
three steps for each of its files. -/
theorem C141_download (archives : List (Option (List (Member C)))) (tree : Tree C) (hd : DirsDisjoint archives) (s : List ℕ) :
    let w := (start archives tree).run s
    (w.ended → (w.raises ↔ none ∈ archives) ∧
      (∀ ms, some ms ∈ archives → ∀ d, Uses ms d → ∀ f, w.tree.file d f = (lastContent ms d f).or (tree.file d f)) ∧
      ∀ d, (∀ ms, some ms ∈ archives → ¬ Uses ms d) → w.tree d = tree d) ∧
    ((∀ i ms, archives[i]? = some (some ms) → 3 * ms.length ≤ s.count i) → w.ended) := by
  have hnone : ∀ i, (∀ ms, archives[i]? ≠ some (some ms)) →
      ((start archives tree).run s).threads i = (start archives tree).threads i := by
    intro i hi
    have ht : ∀ d, ¬ ((start archives tree).threads i).Touches d := fun d h => by
      obtain ⟨ms, ha, -⟩ := start_touches archives tree i d h
      exact hi ms ha
    rw [(run_project i (fun _ => False) s (start archives tree) (fun d h => ht d h) (fun _ _ _ _ h => h)).1, solo_done]
    simp only [start]
    rcases ha : archives[i]? with _ | _ | ms
    · rfl
    · rfl
    · exact absurd ha (hi ms)
  have hfin : ∀ i ms, archives[i]? = some (some ms) → ((start archives tree).run s).ended →
      ∃ b, solo (s.count i) (⟨extract ms, false, false⟩, tree) = (⟨[], b, false⟩, ms.foldl put tree) := by
    intro i ms ha he
    obtain ⟨h1, -⟩ := start_project archives tree hd i ms ha s
    obtain ⟨b, h⟩ := solo_extract ms false tree
    refine ⟨b, ?_⟩
    have e1 := solo_done (3 * ms.length) (solo (s.count i) (⟨extract ms, false, false⟩, tree)) (by rw [← h1]; exact he i)
    rw [← solo_add, Nat.add_comm, solo_add, h, solo_done _ _ rfl] at e1
    exact e1.symm
  refine ⟨fun he => ⟨⟨?_, ?_⟩, ?_, ?_⟩, ?_⟩
  · rintro ⟨i, hi⟩
    by_cases hc : ∃ ms, archives[i]? = some (some ms)
    · obtain ⟨ms, ha⟩ := hc
      obtain ⟨b, h⟩ := hfin i ms ha he
      rw [(start_project archives tree hd i ms ha s).1, h] at hi
      simp at hi
    · rw [hnone i fun ms h => hc ⟨ms, h⟩] at hi
      simp only [start] at hi
      rcases ha : archives[i]? with _ | _ | ms
      · rw [ha] at hi; simp at hi
      · exact List.mem_of_getElem? ha
      · exact absurd ⟨ms, ha⟩ hc
  · intro hm
    obtain ⟨i, hi⟩ := List.mem_iff_getElem?.1 hm
    refine ⟨i, ?_⟩
    rw [hnone i fun ms h => by rw [hi] at h; simp at h]
    simp [start, hi]
  · intro ms hm d hu f
    obtain ⟨i, ha⟩ := List.mem_iff_getElem?.1 hm
    obtain ⟨b, h⟩ := hfin i ms ha he
    have e := (start_project archives tree hd i ms ha s).2 d hu
    rw [h] at e
    unfold Tree.file at *
    rw [e]
    exact foldl_file ms tree d f
  · intro d h
    refine run_outside s _ d fun i ht => ?_
    obtain ⟨ms, ha, hu⟩ := start_touches archives tree i d ht
    exact h ms (List.mem_of_getElem? ha) hu
  · intro hs i
    by_cases hc : ∃ ms, archives[i]? = some (some ms)
    · obtain ⟨ms, ha⟩ := hc
      obtain ⟨b, h⟩ := solo_extract ms false tree
      rw [(start_project archives tree hd i ms ha s).1]
      obtain ⟨n, hn⟩ := Nat.exists_eq_add_of_le (hs i ms ha)
      rw [hn, solo_add, h, solo_done _ _ rfl]
    · rw [hnone i fun ms h => hc ⟨ms, h⟩]
      simp only [start]
      rcases ha : archives[i]? with _ | _ | ms
      · rfl
      · rfl
      · exact absurd ⟨ms, ha⟩ hc

/-- **C141, after a crash.** A download may be killed after any number of steps, in any schedule, any number of times; a later one
that ends without an exception leaves every file of the archives with its content in the archive. -/
theorem C141_repaired (archives : List (Option (List (Member C)))) (hd : DirsDisjoint archives) (killed : List (List ℕ)) (tree : Tree C)
    (s : List ℕ) :
    let before := killed.foldl (fun t k => ((start archives t).run k).tree) tree
    let w := (start archives before).run s
    w.ended → ¬ w.raises → ∀ a ∈ archives, ∃ ms, a = some ms ∧ ∀ m ∈ ms, ∃ c, lastContent ms m.dir m.file = some c ∧
      w.tree.file m.dir m.file = some c := by
  intro before w he hr a ha
  obtain ⟨h1, -⟩ := C141_download archives before hd s
  obtain ⟨h2, h3, -⟩ := h1 he
  rcases a with _ | ms
  · exact absurd (h2.2 ha) hr
  · refine ⟨ms, rfl, fun m hm => ?_⟩
    have hex : ∃ c, lastContent ms m.dir m.file = some c := by
      unfold lastContent
      rcases hl : (ms.filter fun m' => decide (m'.dir = m.dir) && decide (m'.file = m.file)).getLast? with _ | x
      · rw [List.getLast?_eq_none_iff, List.filter_eq_nil_iff] at hl
        exact absurd (by simp) (hl m hm)
      · exact ⟨x.content, by rw [hl]; rfl⟩
    obtain ⟨c, hc⟩ := hex
    refine ⟨c, hc, ?_⟩
    rw [h3 ms ha m.dir ⟨m, hm, rfl⟩ m.file, hc]
    rfl

/-- **Archives with a common directory race**: if two archives have a file each in the same new directory, there is a schedule in
which a thread finds the directory missing, another makes it, and `download` raises and loses a file, although both archives were
fetched; running the threads one after the other would have succeeded. -/
theorem C141_violated_race (m n : Member C) (hmn : m.dir = n.dir) (hf : m.file ≠ n.file) (tree : Tree C) (ht : tree m.dir = none) :
    (let w := (start [some [m], some [n]] tree).run [0, 1, 0, 1, 0]
     w.ended ∧ w.raises ∧ w.tree.file m.dir m.file = some m.content ∧ w.tree.file n.dir n.file = none) ∧
    (let w := (start [some [m], some [n]] tree).run [0, 0, 0, 1, 1, 1]
     w.ended ∧ ¬ w.raises ∧ w.tree.file m.dir m.file = some m.content ∧ w.tree.file n.dir n.file = some n.content) := by
  have ht' : tree n.dir = none := by rw [← hmn]; exact ht
  constructor
  · refine ⟨?_, ⟨1, ?_⟩, ?_, ?_⟩
    · rintro (_ | _ | i) <;> simp [start, World.run, World.step, extract, Thread.step, ht, ← hmn]
    · simp [start, World.run, World.step, extract, Thread.step, ht, ← hmn]
    · simp [start, World.run, World.step, extract, Thread.step, ht, ← hmn, Tree.file]
    · simp [start, World.run, World.step, extract, Thread.step, ht, ← hmn, Tree.file, hf.symm]
  · refine ⟨?_, ?_, ?_, ?_⟩
    · rintro (_ | _ | i) <;> simp [start, World.run, World.step, extract, Thread.step, ht, ← hmn]
    · rintro ⟨_ | _ | i, h⟩ <;> simp [start, World.run, World.step, extract, Thread.step, ht, ← hmn] at h
    · simp [start, World.run, World.step, extract, Thread.step, ht, ← hmn, Tree.file, hf]
    · simp [start, World.run, World.step, extract, Thread.step, ht, ← hmn, Tree.file]

/-- **"If the dataset is already downloaded, it is not downloaded again" is violated**: with `download=True` the constructor fetches
everything again whatever is there: without a network it raises, also on a complete copy. -/
theorem C141_violated_again (archives : List (Option (List (Member C)))) (h : archives ≠ []) (complete : Tree C) (s : List ℕ) :
    ((start (archives.map fun _ => (none : Option (List (Member C)))) complete).run s).raises := by
  have hd : DirsDisjoint (archives.map fun _ => (none : Option (List (Member C)))) := by
    intro i j ms ms' hi
    rw [List.getElem?_map] at hi
    rcases archives[i]? with _ | _ <;> simp at hi
  have he : ((start (archives.map fun _ => (none : Option (List (Member C)))) complete).run s).ended :=
    (C141_download _ complete hd s).2 fun i ms hi => by
      rw [List.getElem?_map] at hi
      rcases archives[i]? with _ | _ <;> simp at hi
  refine (((C141_download _ complete hd s).1 he).1).2 ?_
  rcases archives with _ | ⟨a, l⟩
  · exact absurd rfl h
  · simp

/-- Two archives with a video each and one that cannot be fetched. -/
def exampleArchives : List (Option (List (Member ℕ))) :=
  [some [⟨"Animation", "1_y.png", 1⟩, ⟨"Animation", "2_y.png", 2⟩], none, some [⟨"Sports", "1_y.png", 3⟩]]

example : DirsDisjoint exampleArchives := by
  intro i j ms ms' hi hj hij d hu hu'
  have key : ∀ k l, exampleArchives[k]? = some (some l) → (k = 0 ∧ ∀ m ∈ l, m.dir = "Animation") ∨ (k = 2 ∧ ∀ m ∈ l, m.dir = "Sports") := by
    intro k l h
    rcases k with _ | _ | _ | k
    · simp only [exampleArchives, List.getElem?_cons_zero, Option.some.injEq] at h
      subst h
      exact Or.inl ⟨rfl, by simp⟩
    · simp [exampleArchives] at h
    · simp only [exampleArchives, List.getElem?_cons_zero, List.getElem?_cons_succ, Option.some.injEq] at h
      subst h
      exact Or.inr ⟨rfl, by simp⟩
    · simp [exampleArchives] at h
  obtain ⟨m, hm, rfl⟩ := hu
  obtain ⟨m', hm', e⟩ := hu'
  rcases key i ms hi with ⟨rfl, h1⟩ | ⟨rfl, h1⟩ <;> rcases key j ms' hj with ⟨rfl, h2⟩ | ⟨rfl, h2⟩
  · exact hij rfl
  · rw [h1 m hm, h2 m' hm'] at e
    exact absurd e (by decide)
  · rw [h1 m hm, h2 m' hm'] at e
    exact absurd e (by decide)
  · exact hij rfl

end Verif.Data.Listing
