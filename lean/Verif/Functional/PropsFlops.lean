import Verif.Functional.Flops

/-!
C44: FLOP counting honours overrides.
-/

namespace Verif.Functional.Flops

/-! ### Specification -/

/-- What should happen to an operator: the user's override comes first (a handler, or `None` to ignore the
operator), then the library's estimates if asked for, then its list of elementwise operators (each also in
its in-place version, and counted with one flop per output element), then the base table of fvcore; what is
left is skipped if it is on one of the two lists of free operators, and reported otherwise. -/
def expected (base : Counter) (overrides : Option (Dict (Option Handle))) (useEstimates : Bool) (op : Op) : Verdict :=
  match overrides.bind fun o => get o op.name with
  | some (some h) => .counted (h op.inputs op.outputs)
  | some none => .skipped
  | none =>
    if useEstimates ∧ (op.name ∈ estimatesToAdd ∨ op.name ∈ estimatesToAdd.map (· ++ "_")) then
      .counted (op.outputs.headD 0)
    else if op.name ∈ opsToAdd ∨ op.name ∈ opsToAdd.map (· ++ "_") then .counted (op.outputs.headD 0)
    else match get base.handles op.name with
      | some h => .counted (h op.inputs op.outputs)
      | none =>
        if op.name = "aten::empty_like" ∨ op.name = "aten::numel" ∨ op.name ∈ base.ignored then .skipped
        else .unsupported

/-! ### Dictionaries -/

section
variable {α : Type}

theorem get_cons (p : String × α) (d : Dict α) (k : String) :
    get (p :: d) k = if p.1 = k then some p.2 else get d k := by
  unfold get
  rw [List.find?_cons]
  by_cases h : p.1 = k
  · simp [h]
  · have : (p.1 == k) = false := by simpa using h
    simp [h, this]

theorem get_filter_ne (d : Dict α) (k k' : String) :
    get (d.filter fun p => p.1 != k) k' = if k = k' then none else get d k' := by
  induction d with
  | nil => simp [get]
  | cons p d ih =>
    rw [List.filter_cons]
    by_cases hp : p.1 = k
    · rw [if_neg (by simp [hp]), ih, get_cons]
      by_cases h : k = k'
      · simp [h]
      · simp [h, hp]
    · rw [if_pos (by simp [hp]), get_cons, ih, get_cons]
      by_cases h : k = k'
      · subst h; simp [hp]
      · simp [h]

theorem get_set (d : Dict α) (k : String) (v : α) (k' : String) :
    get (set d k v) k' = if k = k' then some v else get d k' := by
  unfold set
  rw [get_cons, get_filter_ne]
  split_ifs with h <;> rfl

theorem get_none_of_not_mem {d : Dict α} {k : String} (h : k ∉ d.map (·.1)) : get d k = none := by
  induction d with
  | nil => rfl
  | cons p d ih =>
    simp only [List.map_cons, List.mem_cons, not_or] at h
    rw [get_cons, if_neg (Ne.symm h.1), ih h.2]

theorem get_update (d e : Dict α) (hn : (e.map (·.1)).Nodup) (k : String) :
    get (update d e) k = (get e k).or (get d k) := by
  induction e generalizing d with
  | nil => simp [update, get]
  | cons p e ih =>
    rw [List.map_cons, List.nodup_cons] at hn
    have : update d (p :: e) = update (set d p.1 p.2) e := rfl
    rw [this, ih _ hn.2, get_set, get_cons]
    by_cases h : p.1 = k
    · subst h
      rw [get_none_of_not_mem hn.1]
      simp
    · simp [h]

theorem nodup_set (d : Dict α) (k : String) (v : α) (hd : (d.map (·.1)).Nodup) : ((set d k v).map (·.1)).Nodup := by
  unfold set
  rw [List.map_cons, List.nodup_cons]
  constructor
  · simp [List.mem_filter]
  · exact hd.sublist ((List.filter_sublist (l := d)).map _)

theorem nodup_update (d e : Dict α) (hd : (d.map (·.1)).Nodup) : ((update d e).map (·.1)).Nodup := by
  induction e generalizing d with
  | nil => exact hd
  | cons p e ih => exact ih _ (nodup_set d p.1 p.2 hd)

end

theorem setHandles_get (c : Counter) (d : Dict (Option Handle)) (hd : (d.map (·.1)).Nodup) (k : String) :
    get (c.setHandles d).handles k = (match get d k with
      | some o => o
      | none => get c.handles k) ∧
    (k ∈ (c.setHandles d).ignored ↔ k ∈ c.ignored ∨ get d k = some none) := by
  induction d generalizing c with
  | nil => simp [Counter.setHandles, get]
  | cons p d ih =>
    rw [List.map_cons, List.nodup_cons] at hd
    have e : c.setHandles (p :: d) = (c.setHandle p.1 p.2).setHandles d := rfl
    obtain ⟨h1, h2⟩ := ih (c.setHandle p.1 p.2) hd.2
    rw [e, h1, h2, get_cons]
    by_cases hk : p.1 = k
    · subst hk
      rw [get_none_of_not_mem hd.1]
      cases hp : p.2 with
      | none => simp [Counter.setHandle, get_filter_ne]
      | some h => simp [Counter.setHandle, get_set]
    · rw [if_neg hk]
      cases hp : p.2 with
      | none => simp [Counter.setHandle, get_filter_ne, hk, Ne.symm hk]
      | some h => simp [Counter.setHandle, get_set, hk]

theorem get_counters (names : List String) (k : String) :
    get (counters names) k = if k ∈ names ∨ k ∈ names.map (· ++ "_") then some (some singleFlop) else none := by
  unfold counters
  have : ∀ l : List String, get (l.map fun n => (n, some singleFlop)) k =
      if k ∈ l then some (some singleFlop) else none := by
    intro l
    induction l with
    | nil => rfl
    | cons a l ih =>
      rw [List.map_cons, get_cons, ih]
      by_cases h : a = k
      · simp [h]
      · simp [h, Ne.symm h]
  rw [this]
  simp [List.mem_append]

theorem nodup_ops : ((counters opsToAdd).map (·.1)).Nodup := by decide +kernel
theorem nodup_estimates : ((counters estimatesToAdd).map (·.1)).Nodup := by decide +kernel

/-- The counter that `count_flops` builds. -/
def built (base : Counter) (overrides : Option (Dict (Option Handle))) (useEstimates : Bool) : Counter :=
  let toAdd := initGlobals.opCounters
  let toAdd := if useEstimates then update toAdd initGlobals.estimateCounters else toAdd
  let toAdd := match overrides with
    | some o => update toAdd o
    | none => toAdd
  let counter := base.setHandles toAdd
  { counter with ignored := opsToIgnore ++ counter.ignored }

theorem built_verdict (base : Counter) (overrides : Option (Dict (Option Handle)))
    (hn : ∀ o, overrides = some o → (o.map (·.1)).Nodup) (useEstimates : Bool) (op : Op) :
    (built base overrides useEstimates).verdict op = expected base overrides useEstimates op := by
  -- the table of additions
  have tbl : ∃ toAdd : Dict (Option Handle), (toAdd.map (·.1)).Nodup ∧
      built base overrides useEstimates =
        { base.setHandles toAdd with ignored := opsToIgnore ++ (base.setHandles toAdd).ignored } ∧
      ∀ k, get toAdd k = (overrides.bind fun o => get o k).or
        (if (useEstimates ∧ (k ∈ estimatesToAdd ∨ k ∈ estimatesToAdd.map (· ++ "_"))) ∨
            (k ∈ opsToAdd ∨ k ∈ opsToAdd.map (· ++ "_")) then some (some singleFlop) else none) := by
    have step1 : ∃ t : Dict (Option Handle), (t.map (·.1)).Nodup ∧
        t = (if useEstimates then update initGlobals.opCounters initGlobals.estimateCounters
          else initGlobals.opCounters) ∧
        ∀ k, get t k = if (useEstimates ∧ (k ∈ estimatesToAdd ∨ k ∈ estimatesToAdd.map (· ++ "_"))) ∨
            (k ∈ opsToAdd ∨ k ∈ opsToAdd.map (· ++ "_")) then some (some singleFlop) else none := by
      refine ⟨_, ?_, rfl, ?_⟩
      · cases useEstimates
        · exact nodup_ops
        · exact nodup_update _ _ nodup_ops
      · intro k
        cases useEstimates
        · simp only [Bool.false_eq_true, if_false, false_and, false_or]
          exact get_counters _ _
        · simp only [if_true, true_and]
          simp only [initGlobals]
          rw [get_update _ _ nodup_estimates]
          simp only [get_counters]
          by_cases h1 : k ∈ estimatesToAdd ∨ k ∈ estimatesToAdd.map (· ++ "_")
          · rw [if_pos h1, if_pos (Or.inl h1)]; rfl
          · rw [if_neg h1]
            simp only [Option.none_or, h1, false_or]
    obtain ⟨t, t1, t2, t3⟩ := step1
    cases overrides with
    | none =>
      refine ⟨t, t1, ?_, fun k => by simpa using t3 k⟩
      unfold built
      simp only [t2]
    | some o =>
      refine ⟨update t o, nodup_update _ _ t1, ?_, fun k => ?_⟩
      · unfold built
        simp only [t2]
      · rw [get_update _ _ (hn o rfl), t3]
        rfl
  obtain ⟨toAdd, hnd, hb, hget⟩ := tbl
  obtain ⟨h1, h2⟩ := setHandles_get base toAdd hnd op.name
  rw [hb]
  unfold Counter.verdict expected
  simp only [h1]
  have hg := hget op.name
  cases ho : (overrides.bind fun o => get o op.name) with
  | some v =>
    rw [ho, Option.some_or] at hg
    rw [hg] at h2 ⊢
    cases v with
    | some h => rfl
    | none =>
      simp only
      rw [if_pos]
      rw [List.mem_append, h2]
      exact Or.inr (Or.inr rfl)
  | none =>
    rw [ho, Option.none_or] at hg
    simp only
    by_cases he : useEstimates ∧ (op.name ∈ estimatesToAdd ∨ op.name ∈ estimatesToAdd.map (· ++ "_"))
    · rw [if_pos (Or.inl he)] at hg
      rw [if_pos he, hg]
      rfl
    · rw [if_neg he]
      by_cases ha : op.name ∈ opsToAdd ∨ op.name ∈ opsToAdd.map (· ++ "_")
      · rw [if_pos (Or.inr ha)] at hg
        rw [if_pos ha, hg]
        rfl
      · rw [if_neg (not_or.2 ⟨he, ha⟩)] at hg
        rw [if_neg ha]
        rw [hg] at h2 ⊢
        simp only
        cases get base.handles op.name with
        | some h => rfl
        | none =>
          simp only
          have : op.name ∈ opsToIgnore ++ (base.setHandles toAdd).ignored ↔
              (op.name = "aten::empty_like" ∨ op.name = "aten::numel" ∨ op.name ∈ base.ignored) := by
            rw [List.mem_append, h2]
            simp [opsToIgnore, or_assoc]
          by_cases h : op.name = "aten::empty_like" ∨ op.name = "aten::numel" ∨ op.name ∈ base.ignored
          · rw [if_pos (this.2 h), if_pos h]
          · rw [if_neg (fun h' => h (this.1 h')), if_neg h]

theorem countFlops_eq (base : Counter) (trace : List Op) (overrides : Option (Dict (Option Handle)))
    (useEstimates : Bool) :
    countFlops initGlobals base trace overrides useEstimates =
      (((built base overrides useEstimates).total trace, (built base overrides useEstimates).byOperator trace,
        (built base overrides useEstimates).unsupportedOps trace), initGlobals) := rfl

theorem get_map_dedup (l : List String) (f : String → ℕ) (k : String) :
    get (l.dedup.map fun n => (n, f n)) k = if k ∈ l then some (f k) else none := by
  have : ∀ l : List String, get (l.map fun n => (n, f n)) k = if k ∈ l then some (f k) else none := by
    intro l
    induction l with
    | nil => rfl
    | cons a l ih =>
      rw [List.map_cons, get_cons, ih]
      by_cases h : a = k
      · simp [h]
      · simp [h, Ne.symm h]
  rw [this]
  simp [List.mem_dedup]

/-- **C44.** For every trace, every base table and every dictionary of overrides:
* the total is the sum of what the specification says about each call;
* the break-down has an entry for exactly the operators that are counted, with the sum over their calls;
* the report has an entry for exactly the operators that are neither counted nor skipped, with the number of
  their calls. -/
theorem C44 (base : Counter) (trace : List Op) (overrides : Option (Dict (Option Handle)))
    (hn : ∀ o, overrides = some o → (o.map (·.1)).Nodup) (useEstimates : Bool) :
    ∃ total byOp bad,
      (countFlops initGlobals base trace overrides useEstimates).1 = (total, byOp, bad) ∧
      total = (trace.map fun op => (expected base overrides useEstimates op).flops).sum ∧
      (∀ name, (∀ v, get byOp name = some v ↔
        (∃ op ∈ trace, op.name = name ∧ ∃ n, expected base overrides useEstimates op = .counted n) ∧
          v = ((trace.filter fun op => op.name == name).map
            fun op => (expected base overrides useEstimates op).flops).sum)) ∧
      (∀ name, (∀ v, get bad name = some v ↔
        (∃ op ∈ trace, op.name = name ∧ expected base overrides useEstimates op = .unsupported) ∧
          v = (trace.filter fun op => op.name == name).length)) := by
  refine ⟨_, _, _, rfl, ?_, fun name v => ?_, fun name v => ?_⟩
  · have := countFlops_eq base trace overrides useEstimates
    change (built base overrides useEstimates).total trace = _
    unfold Counter.total
    simp only [built_verdict base overrides hn]
  · change get ((built base overrides useEstimates).byOperator trace) name = some v ↔ _
    unfold Counter.byOperator
    simp only [built_verdict base overrides hn]
    rw [get_map_dedup]
    have hiff : ∀ op, (get (built base overrides useEstimates).handles op.name).isSome = true ↔
        ∃ n, expected base overrides useEstimates op = .counted n := by
      intro op
      rw [← built_verdict base overrides hn]
      unfold Counter.verdict
      cases get (built base overrides useEstimates).handles op.name with
      | some h => simp
      | none =>
        simp only [Option.isSome_none, Bool.false_eq_true, false_iff]
        split_ifs <;> simp
    have : name ∈ (trace.filter fun op => (get (built base overrides useEstimates).handles op.name).isSome).map
        (·.name) ↔ ∃ op ∈ trace, op.name = name ∧ ∃ n, expected base overrides useEstimates op = .counted n := by
      simp only [List.mem_map, List.mem_filter, hiff]
      constructor
      · rintro ⟨op, ⟨h1, h2⟩, h3⟩; exact ⟨op, h1, h3, h2⟩
      · rintro ⟨op, h1, h3, h2⟩; exact ⟨op, ⟨h1, h2⟩, h3⟩
    rw [← this]
    split_ifs with h
    · simp only [h, true_and, Option.some.injEq]
      exact eq_comm
    · simp only [h, false_and, reduceCtorEq]
  · change get ((built base overrides useEstimates).unsupportedOps trace) name = some v ↔ _
    unfold Counter.unsupportedOps
    simp only [built_verdict base overrides hn]
    rw [get_map_dedup]
    have : name ∈ (trace.filter fun op => decide (expected base overrides useEstimates op = .unsupported)).map
        (·.name) ↔ ∃ op ∈ trace, op.name = name ∧ expected base overrides useEstimates op = .unsupported := by
      simp only [List.mem_map, List.mem_filter, decide_eq_true_eq]
      constructor
      · rintro ⟨op, ⟨h1, h2⟩, h3⟩; exact ⟨op, h1, h3, h2⟩
      · rintro ⟨op, h1, h3, h2⟩; exact ⟨op, ⟨h1, h2⟩, h3⟩
    rw [← this]
    split_ifs with h
    · simp only [h, true_and, Option.some.injEq]
      exact eq_comm
    · simp only [h, false_and, reduceCtorEq]

/-- A sequence of calls, each with the state the previous one left. -/
def calls (g : Globals) : List (Counter × List Op × Option (Dict (Option Handle)) × Bool) →
    List (ℕ × Dict ℕ × Dict ℕ)
  | [] => []
  | (base, trace, o, e) :: rest =>
    let r := countFlops g base trace o e
    r.1 :: calls r.2 rest

/-- **C44 (no carry-over).** Overrides and flags of one call have no effect on later calls: in every sequence of
calls, each returns what it would return as the first one. -/
theorem C44_history (cs : List (Counter × List Op × Option (Dict (Option Handle)) × Bool)) :
    calls initGlobals cs = cs.map fun c => (countFlops initGlobals c.1 c.2.1 c.2.2.1 c.2.2.2).1 := by
  induction cs with
  | nil => rfl
  | cons c cs ih =>
    obtain ⟨base, trace, o, e⟩ := c
    rw [List.map_cons, ← ih]
    rfl

/-- Non-vacuity: an override replaces a built-in counter and one of fvcore's, a `None` override silences an
operator, and an unknown operator is reported. -/
example : (countFlops initGlobals ⟨[("aten::conv", fun _ _ => 7)], ["aten::size"]⟩
    [⟨"aten::add", [4], [4]⟩, ⟨"aten::mul_", [3], [3]⟩, ⟨"aten::conv", [], []⟩, ⟨"aten::foo", [], []⟩, ⟨"aten::foo", [], []⟩,
      ⟨"aten::log", [5], [5]⟩, ⟨"aten::exp", [5], [5]⟩, ⟨"aten::numel", [], []⟩, ⟨"aten::size", [], []⟩]
    (some [("aten::add", some fun _ _ => 100), ("aten::exp", none)]) true).1 =
    (115, [("aten::add", 100), ("aten::mul_", 3), ("aten::conv", 7), ("aten::log", 5)], [("aten::foo", 2)]) := by
  decide +kernel

end Verif.Functional.Flops
