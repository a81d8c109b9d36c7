import Verif.Vct.Memoize
import Mathlib.Data.String.Basic
import Mathlib.Tactic.Ring

/-!
# C31: memoisation is transparent
-/

namespace Verif.Vct.Memo

/-! ### Specification -/

/-- Positional arguments without the `_Cache` objects that are only passed through. -/
def realArgs (args : List PyVal) : List PyVal := args.filter (fun x => !x.isCache)

/-- Keyword arguments without the `_Cache` objects. -/
def realKwargs (kwargs : Kwargs) : Kwargs := kwargs.filter (fun kv => !kv.2.isCache)

/-- Two calls pass the same arguments: equal positional arguments and the same keyword arguments in any
order. -/
def SameArgs {F : Type} (c d : Call F) : Prop :=
  realArgs c.args = realArgs d.args ∧ (realKwargs c.kwargs).Perm (realKwargs d.kwargs)

/-- A Python function sees its keyword arguments as a set, and a memoised one does not depend on the cache
object it passes on. -/
def ArgsOnly {F R : Type} (sem : F → List PyVal → Kwargs → R) : Prop :=
  ∀ c d : Call F, c.fn = d.fn → SameArgs c d → sem c.fn c.args c.kwargs = sem d.fn d.args d.kwargs

open Classical in
/-- The number of calls of `fn` in `rest` that repeat an earlier call (of `past` or of `rest`). -/
noncomputable def repeats {F : Type} (fn : F) : (past rest : List (Call F)) → ℕ
  | _, [] => 0
  | past, c :: rest =>
    (if c.fn = fn ∧ ∃ p ∈ past, p.fn = fn ∧ SameArgs p c then 1 else 0) + repeats fn (past ++ [c]) rest

mutual
/-- Argument values on which the key is faithful: numbers, strings, tensors and tuples of these, where a
tensor identity always means the same contents (no tensor is modified in place, none is freed and its
identity reused), and no number equals a tensor's identity. -/
def Plain (ids : Set ℕ) (contents : ℕ → ℕ) : PyVal → Prop
  | .atom n => ∀ id ∈ ids, n ≠ (id : ℤ)
  | .str _ => True
  | .tensor id c => id ∈ ids ∧ c = contents id
  | .list _ => False
  | .tuple xs => PlainAll ids contents xs
  | .dict _ => False
  | .cache => False
/-- `Plain` for every element. -/
def PlainAll (ids : Set ℕ) (contents : ℕ → ℕ) : List PyVal → Prop
  | [] => True
  | x :: xs => Plain ids contents x ∧ PlainAll ids contents xs
end

/-- All arguments of a call are plain or a cache to pass on; a keyword occurs once (Python's rule). -/
def PlainCall {F : Type} (ids : Set ℕ) (contents : ℕ → ℕ) (c : Call F) : Prop :=
  (∀ x ∈ realArgs c.args, Plain ids contents x) ∧ (∀ kv ∈ realKwargs c.kwargs, Plain ids contents kv.2) ∧
    (c.kwargs.map (·.1)).Nodup

/-! ### The key is faithful on plain arguments -/

mutual
theorem ensure_inj {ids : Set ℕ} {contents : ℕ → ℕ} : ∀ v w : PyVal, Plain ids contents v →
    Plain ids contents w → ensureHashable v = ensureHashable w → v = w
  | .atom n, .atom m, _, _, h => by simpa [ensureHashable] using h
  | .atom n, .tensor id c, hv, hw, h => by
    simp only [ensureHashable, Key.atom.injEq] at h
    exact absurd h (hv id hw.1)
  | .tensor id c, .atom n, hv, hw, h => by
    simp only [ensureHashable, Key.atom.injEq] at h
    exact absurd h.symm (hw id hv.1)
  | .tensor id c, .tensor id' c', hv, hw, h => by
    simp only [ensureHashable, Key.atom.injEq] at h
    have h' : id = id' := by exact_mod_cast h
    subst h'
    rw [hv.2, hw.2]
  | .str s, .str t, _, _, h => by simpa [ensureHashable] using h
  | .tuple xs, .tuple ys, hv, hw, h => by
    simp only [ensureHashable] at h
    rw [ensureAll_inj xs ys hv hw h]
  | .atom _, .str _, _, _, h => by simp [ensureHashable] at h
  | .str _, .atom _, _, _, h => by simp [ensureHashable] at h
  | .tensor _ _, .str _, _, _, h => by simp [ensureHashable] at h
  | .str _, .tensor _ _, _, _, h => by simp [ensureHashable] at h
  | .atom _, .tuple ys, _, _, h => by cases ys <;> simp [ensureHashable, ensureAll] at h
  | .str _, .tuple ys, _, _, h => by cases ys <;> simp [ensureHashable, ensureAll] at h
  | .tensor _ _, .tuple ys, _, _, h => by cases ys <;> simp [ensureHashable, ensureAll] at h
  | .tuple xs, .atom _, _, _, h => by cases xs <;> simp [ensureHashable, ensureAll] at h
  | .tuple xs, .str _, _, _, h => by cases xs <;> simp [ensureHashable, ensureAll] at h
  | .tuple xs, .tensor _ _, _, _, h => by cases xs <;> simp [ensureHashable, ensureAll] at h
  | .list _, _, hv, _, _ => by simp [Plain] at hv
  | .dict _, _, hv, _, _ => by simp [Plain] at hv
  | .cache, _, hv, _, _ => by simp [Plain] at hv
  | _, .list _, _, hw, _ => by simp [Plain] at hw
  | _, .dict _, _, hw, _ => by simp [Plain] at hw
  | _, .cache, _, hw, _ => by simp [Plain] at hw
theorem ensureAll_inj {ids : Set ℕ} {contents : ℕ → ℕ} : ∀ xs ys : List PyVal,
    PlainAll ids contents xs → PlainAll ids contents ys → ensureAll xs = ensureAll ys → xs = ys
  | [], [], _, _, _ => rfl
  | [], _ :: _, _, _, h => by simp [ensureAll] at h
  | _ :: _, [], _, _, h => by simp [ensureAll] at h
  | x :: xs, y :: ys, hx, hy, h => by
    simp only [ensureAll, Key.cons.injEq] at h
    rw [ensure_inj x y hx.1 hy.1 h.1, ensureAll_inj xs ys hx.2 hy.2 h.2]
end

theorem plainAll_iff {ids : Set ℕ} {contents : ℕ → ℕ} (xs : List PyVal) :
    PlainAll ids contents xs ↔ ∀ x ∈ xs, Plain ids contents x := by
  induction xs with
  | nil => simp [PlainAll]
  | cons x xs ih => simp [PlainAll, ih]

/-- The keyword arguments in key order. -/
def sortedKwargs (kwargs : Kwargs) : Kwargs :=
  (kwargs.insertionSort (fun a b => a.1 ≤ b.1)).filter (fun kv => !kv.2.isCache)

theorem sortedKwargs_perm (kwargs : Kwargs) : (sortedKwargs kwargs).Perm (realKwargs kwargs) :=
  (List.perm_insertionSort _ _).filter _

theorem keyOf_eq (args : List PyVal) (kwargs : Kwargs) :
    keyOf args kwargs = .cons (ensureAll (realArgs args))
      (.cons (ensureAll ((sortedKwargs kwargs).map fun kv => .tuple [.str kv.1, kv.2])) .nil) := by
  simp [keyOf, ensureHashable, ensureAll, realArgs, sortedKwargs]

theorem keyOf_inj {F : Type} {ids : Set ℕ} {contents : ℕ → ℕ} {c d : Call F}
    (hc : PlainCall ids contents c) (hd : PlainCall ids contents d)
    (h : keyOf c.args c.kwargs = keyOf d.args d.kwargs) : SameArgs c d := by
  rw [keyOf_eq, keyOf_eq] at h
  simp only [Key.cons.injEq, and_true] at h
  refine ⟨ensureAll_inj (ids := ids) (contents := contents) _ _ ((plainAll_iff _).2 hc.1)
    ((plainAll_iff _).2 hd.1) h.1, ?_⟩
  have hp : ∀ e : Call F, PlainCall ids contents e →
      PlainAll ids contents ((sortedKwargs e.kwargs).map fun kv => .tuple [.str kv.1, kv.2]) := by
    intro e he
    rw [plainAll_iff]
    intro x hx
    obtain ⟨kv, hkv, rfl⟩ := List.mem_map.1 hx
    have := he.2.1 kv ((sortedKwargs_perm e.kwargs).mem_iff.1 hkv)
    simp [Plain, PlainAll, this]
  have h2 := ensureAll_inj _ _ (hp c hc) (hp d hd) h.2
  have h3 : sortedKwargs c.kwargs = sortedKwargs d.kwargs := by
    refine List.map_injective_iff.2 ?_ h2
    rintro ⟨a, b⟩ ⟨a', b'⟩ hab
    simpa using hab
  have h4 := (sortedKwargs_perm c.kwargs).symm
  rw [h3] at h4
  exact h4.trans (sortedKwargs_perm d.kwargs)

theorem sortedKwargs_pairwise (kwargs : Kwargs) (h : (kwargs.map (·.1)).Nodup) :
    (sortedKwargs kwargs).Pairwise (fun a b => a.1 < b.1) := by
  refine List.Pairwise.filter _ ?_
  have : Std.Total (fun a b : String × PyVal => a.1 ≤ b.1) := ⟨fun a b => le_total _ _⟩
  have : IsTrans (String × PyVal) (fun a b => a.1 ≤ b.1) := ⟨fun a b c => le_trans⟩
  have h1 := List.pairwise_insertionSort (fun a b : String × PyVal => a.1 ≤ b.1) kwargs
  have h2 : ((kwargs.insertionSort (fun a b => a.1 ≤ b.1)).map (·.1)).Nodup :=
    (((List.perm_insertionSort _ kwargs).map (·.1)).nodup_iff).2 h
  rw [List.Nodup, List.pairwise_map] at h2
  refine h1.imp₂ ?_ h2
  intro a b hab hne
  exact lt_of_le_of_ne hab hne

theorem keyOf_same {F : Type} {ids : Set ℕ} {contents : ℕ → ℕ} {c d : Call F}
    (hc : PlainCall ids contents c) (hd : PlainCall ids contents d) (h : SameArgs c d) :
    keyOf c.args c.kwargs = keyOf d.args d.kwargs := by
  have hp : (sortedKwargs c.kwargs).Perm (sortedKwargs d.kwargs) :=
    ((sortedKwargs_perm _).trans h.2).trans (sortedKwargs_perm _).symm
  have he : sortedKwargs c.kwargs = sortedKwargs d.kwargs := by
    refine hp.eq_of_pairwise ?_ (sortedKwargs_pairwise _ hc.2.2) (sortedKwargs_pairwise _ hd.2.2)
    intro a b _ _ hab hba
    exact absurd hab (lt_asymm hba)
  rw [keyOf_eq, keyOf_eq, h.1, he]

/-! ### Histories -/

theorem bump_sum (key : Key) (l : List (Key × ℕ)) :
    ((bump key l).map (·.2)).sum = (l.map (·.2)).sum + 1 := by
  induction l with
  | nil => simp [bump]
  | cons a l ih =>
    obtain ⟨k, n⟩ := a
    unfold bump
    split
    · simp; ring
    · simp [ih]; ring

section
variable {F R : Type} [DecidableEq F]

/-- What the cache knows after the calls `past`. -/
structure Knows (sem : F → List PyVal → Kwargs → R) (past : List (Call F)) (c : Cache F R) : Prop where
  sound : ∀ fn key r, (c.results fn).lookup key = some r →
    ∃ p ∈ past, p.fn = fn ∧ keyOf p.args p.kwargs = key ∧ r = sem p.fn p.args p.kwargs
  complete : ∀ p ∈ past, (c.results p.fn).lookup (keyOf p.args p.kwargs) ≠ none

theorem run_transparent {sem : F → List PyVal → Kwargs → R} (hsem : ArgsOnly sem) {ids : Set ℕ}
    {contents : ℕ → ℕ} (rest : List (Call F)) : ∀ (past : List (Call F)) (c : Cache F R),
    Knows sem past c → (∀ d ∈ past ++ rest, PlainCall ids contents d) →
    (∀ d ∈ rest, d.expectHit = none) →
    ∃ c', runCalls sem c rest = some (rest.map fun d => sem d.fn d.args d.kwargs, c') ∧
      ∀ fn, totalHits c' fn = totalHits c fn + repeats fn past rest := by
  induction rest with
  | nil => intro past c _ _ _; exact ⟨c, rfl, fun fn => by simp [repeats]⟩
  | cons d rest ih =>
    intro past c hk hpl hexp
    have hd : PlainCall ids contents d := hpl d (by simp)
    have hed := hexp d (by simp)
    have hpl' : ∀ e ∈ (past ++ [d]) ++ rest, PlainCall ids contents e := by
      intro e he; exact hpl e (by simpa using he)
    have hexp' : ∀ e ∈ rest, e.expectHit = none := fun e he => hexp e (by simp [he])
    cases hl : (c.results d.fn).lookup (keyOf d.args d.kwargs) with
    | some r =>
      obtain ⟨p, hp, hpf, hpk, rfl⟩ := hk.sound _ _ _ hl
      have hsame : SameArgs p d := keyOf_inj (hpl p (by simp [hp])) hd hpk
      set c1 : Cache F R :=
        { c with hits := Function.update c.hits d.fn (bump (keyOf d.args d.kwargs) (c.hits d.fn)) }
        with hc1
      have hk1 : Knows sem (past ++ [d]) c1 := by
        refine ⟨fun fn key r h => ?_, fun q hq => ?_⟩
        · obtain ⟨q, hq, h2⟩ := hk.sound fn key r h
          exact ⟨q, by simp [hq], h2⟩
        · rcases List.mem_append.1 hq with hq | hq
          · exact hk.complete q hq
          · have hq' : q = d := by simpa using hq
            subst hq'
            have : (c1.results q.fn) = c.results q.fn := rfl
            rw [this, hl]; simp
      obtain ⟨c', hrun, hhits⟩ := ih (past ++ [d]) c1 hk1 hpl' hexp'
      refine ⟨c', ?_, fun fn => ?_⟩
      · have hcall : callCached sem c d = some (sem p.fn p.args p.kwargs, c1) := by
          simp [callCached, hl, hed, hc1]
        simp [runCalls, hcall, hrun, hsem p d hpf hsame]
      · rw [hhits fn, repeats]
        by_cases hfn : d.fn = fn
        · subst hfn
          rw [if_pos ⟨rfl, p, hp, hpf, hsame⟩]
          have : totalHits c1 d.fn = totalHits c d.fn + 1 := by
            simp [totalHits, hc1, bump_sum]
          omega
        · rw [if_neg (fun h => hfn h.1)]
          have : totalHits c1 fn = totalHits c fn := by
            simp [totalHits, hc1, Function.update_of_ne (Ne.symm hfn)]
          omega
    | none =>
      set c1 : Cache F R :=
        { c with
          results := Function.update c.results d.fn
            ((keyOf d.args d.kwargs, sem d.fn d.args d.kwargs) :: c.results d.fn) } with hc1
      have hno : ¬∃ p ∈ past, p.fn = d.fn ∧ SameArgs p d := by
        rintro ⟨p, hp, hpf, hs⟩
        have h1 := hk.complete p hp
        rw [keyOf_same (hpl p (by simp [hp])) hd hs, hpf, hl] at h1
        exact h1 rfl
      have hk1 : Knows sem (past ++ [d]) c1 := by
        refine ⟨fun fn key r h => ?_, fun q hq => ?_⟩
        · by_cases hfn : fn = d.fn
          · subst hfn
            simp only [hc1, Function.update_self, List.lookup_cons] at h
            by_cases hkey : key = keyOf d.args d.kwargs
            · subst hkey
              simp only [BEq.rfl, Option.some.injEq] at h
              exact ⟨d, by simp, rfl, rfl, h.symm⟩
            · rw [(beq_eq_false_iff_ne).2 hkey] at h
              obtain ⟨q, hq, h2⟩ := hk.sound d.fn key r h
              exact ⟨q, by simp [hq], h2⟩
          · simp only [hc1, Function.update_of_ne hfn] at h
            obtain ⟨q, hq, h2⟩ := hk.sound fn key r h
            exact ⟨q, by simp [hq], h2⟩
        · by_cases hfn : q.fn = d.fn
          · simp only [hc1, hfn, Function.update_self, List.lookup_cons]
            by_cases hkey : keyOf q.args q.kwargs = keyOf d.args d.kwargs
            · simp [hkey]
            · rw [(beq_eq_false_iff_ne).2 hkey]
              rcases List.mem_append.1 hq with hq | hq
              · have := hk.complete q hq
                rwa [hfn] at this
              · have hq' : q = d := by simpa using hq
                exact absurd (by rw [hq']) hkey
          · simp only [hc1, Function.update_of_ne hfn]
            rcases List.mem_append.1 hq with hq | hq
            · exact hk.complete q hq
            · have hq' : q = d := by simpa using hq
              exact absurd (by rw [hq']) hfn
      obtain ⟨c', hrun, hhits⟩ := ih (past ++ [d]) c1 hk1 hpl' hexp'
      refine ⟨c', ?_, fun fn => ?_⟩
      · have hcall : callCached sem c d = some (sem d.fn d.args d.kwargs, c1) := by
          simp [callCached, hl, hed, hc1]
        simp [runCalls, hcall, hrun]
      · rw [hhits fn, repeats]
        have hz : ¬(d.fn = fn ∧ ∃ p ∈ past, p.fn = fn ∧ SameArgs p d) := by
          rintro ⟨h1, p, hp, hpf, hs⟩
          exact hno ⟨p, hp, hpf.trans h1.symm, hs⟩
        rw [if_neg hz]
        have : totalHits c1 fn = totalHits c fn := rfl
        omega

/-- C31 (the part that holds): through one cache shared by any functions, every history of calls with plain
arguments (numbers, strings, tensors that are never modified or replaced, tuples of these; caches passed on)
returns exactly what the functions themselves return, and the hit counter of each function is the number of
calls that repeat an earlier one.  Missing from the full property: lists and dicts next to tuples, tensors
modified in place or whose identity is reused, numbers equal to an identity; there the property is false, see
`C31_violated`. -/
theorem C31_partial {sem : F → List PyVal → Kwargs → R} (hsem : ArgsOnly sem) (ids : Set ℕ)
    (contents : ℕ → ℕ) (calls : List (Call F)) (hplain : ∀ d ∈ calls, PlainCall ids contents d)
    (hexp : ∀ d ∈ calls, d.expectHit = none) :
    ∃ c', runCalls sem (createCache F R) calls =
        some (calls.map fun d => sem d.fn d.args d.kwargs, c') ∧
      ∀ fn, totalHits c' fn = repeats fn [] calls := by
  have hk : Knows sem [] (createCache F R) :=
    ⟨fun fn key r h => by simp [createCache] at h, fun p hp => by simp at hp⟩
  obtain ⟨c', h1, h2⟩ := run_transparent hsem calls [] _ hk (by simpa using hplain) hexp
  exact ⟨c', h1, fun fn => by rw [h2 fn]; simp [totalHits, createCache]⟩

/-- C31: with an expectation, a call fails exactly when the expectation is wrong, and a failing call changes
nothing (there is no new cache). -/
theorem C31_expectation (sem : F → List PyVal → Kwargs → R) (c : Cache F R) (d : Call F) :
    callCached sem c d = none ↔
      d.expectHit = some (decide ((c.results d.fn).lookup (keyOf d.args d.kwargs) = none)) := by
  unfold callCached
  cases hl : (c.results d.fn).lookup (keyOf d.args d.kwargs) <;> simp [hl]

/-- C31: without a cache the function is evaluated, except that an expected hit fails. A call with an empty cache
gives the same. -/
theorem C31_uncached (sem : F → List PyVal → Kwargs → R) (d : Call F) :
    callUncached sem d = (callCached sem (createCache F R) d).map (·.1) ∧
      (callUncached sem d = none ↔ d.expectHit = some true) ∧
      (d.expectHit ≠ some true → callUncached sem d = some (sem d.fn d.args d.kwargs)) := by
  unfold callUncached callCached createCache
  by_cases h : d.expectHit = some true <;> simp [h]

/-- C31: the value of an argument passed by position and the same value passed by keyword are different
calls for the cache, so the decoder's call `decode_Pscene(bottleneck, state=..., cache=...)`
(model_pipeline.py:336) is never answered from the encoder's `decode_Pscene(bottleneck=..., state=...,
cache=...)` (264): the function is evaluated twice and no hit is counted. -/
theorem C31_pscene_not_shared (sem : F → List PyVal → Kwargs → R) (fn : F) (self b s : PyVal)
    (h1 : self.isCache = false) (h2 : b.isCache = false) :
    ∃ c', runCalls sem (createCache F R)
        [⟨fn, [self], [("bottleneck", b), ("state", s), ("cache", .cache)], none⟩,
          ⟨fn, [self, b], [("state", s), ("cache", .cache)], none⟩] =
        some ([sem fn [self] [("bottleneck", b), ("state", s), ("cache", .cache)],
          sem fn [self, b] [("state", s), ("cache", .cache)]], c') ∧ totalHits c' fn = 0 := by
  have hne : keyOf [self, b] [("state", s), ("cache", .cache)] ≠
      keyOf [self] [("bottleneck", b), ("state", s), ("cache", .cache)] := by
    rw [keyOf_eq, keyOf_eq]
    simp [realArgs, h1, h2, ensureAll]
  simp [runCalls, callCached, createCache, List.lookup_cons, (beq_eq_false_iff_ne).2 hne, totalHits]

end

/-! ### Where the property fails -/

/-- A pure function that can tell its first argument's type and contents. -/
def describe (_ : Unit) (args : List PyVal) (_ : Kwargs) : ℤ :=
  match realArgs args with
  | [.list _] => 1
  | [.tuple _] => 2
  | [.dict _] => 3
  | [.tensor _ c] => 100 + c
  | [.atom n] => 1000 + n
  | _ => 0

/-- C31 is false in general: a cached call can return another call's result.  (1) `f([7])` then `f((7,))`;
(2) `f({1: 2})` then `f([(1, 2)])`; (3) a tensor modified in place between the calls, or a new tensor at the
address of a freed one; (4) a tensor and a number equal to its identity. -/
theorem C31_violated :
    ArgsOnly describe ∧
    (∀ p ∈ [((.list [.atom 7] : PyVal), (.tuple [.atom 7] : PyVal)),
        (.dict [(.atom 1, .atom 2)], .list [.tuple [.atom 1, .atom 2]]),
        (.tensor 140 1, .tensor 140 2), (.tensor 140 1, .atom 140)],
      (runCalls describe (createCache Unit ℤ) [⟨(), [p.1], [], none⟩, ⟨(), [p.2], [], none⟩]).map (·.1) =
          some [describe () [p.1] [], describe () [p.1] []] ∧
        describe () [p.2] [] ≠ describe () [p.1] []) := by
  refine ⟨?_, ?_⟩
  · rintro ⟨_, a, k, _⟩ ⟨_, b, l, _⟩ _ ⟨h, _⟩
    simp only [describe] at *
    rw [h]
  · decide +kernel

/-- Non-vacuity of `C31_partial`: a mixed history over two functions with a tensor, a tuple, keyword
arguments in different orders and a passed cache: two repetitions, two hits. -/
def sampleSem (fn : Bool) (args : List PyVal) (kwargs : Kwargs) : ℕ :=
  (if fn then 1 else 0) + 2 * (realArgs args).length + 10 * (realKwargs kwargs).length

def sampleCalls : List (Call Bool) :=
  [⟨true, [.tensor 140 5, .cache], [("a", .atom 1), ("b", .tuple [.str "x", .tensor 141 6])], none⟩,
   ⟨false, [.tensor 140 5], [], none⟩,
   ⟨true, [.tensor 140 5], [("b", .tuple [.str "x", .tensor 141 6]), ("a", .atom 1)], none⟩,
   ⟨true, [.tensor 141 6], [("a", .atom 1)], none⟩,
   ⟨false, [.cache, .tensor 140 5], [("c", .cache)], none⟩]

example : ArgsOnly sampleSem := by
  rintro ⟨f, a, k, e⟩ ⟨g, b, l, e'⟩ (rfl : f = g) ⟨h1, h2⟩
  simp only [sampleSem] at *
  rw [h1, h2.length_eq]

example : ∀ d ∈ sampleCalls, PlainCall {140, 141} (fun id => id - 135) d ∧ d.expectHit = none := by
  simp [sampleCalls, PlainCall, realArgs, realKwargs, PyVal.isCache, Plain]
  constructor <;> rintro a b (⟨-, rfl⟩ | ⟨-, rfl⟩) <;> simp [Plain, PlainAll]

example : (runCalls sampleSem (createCache Bool ℕ) sampleCalls).map
    (fun r => (r.1, totalHits r.2 true, totalHits r.2 false)) = some ([23, 2, 23, 13, 2], 1, 1) := by
  decide +kernel

end Verif.Vct.Memo
