import Mathlib.Data.List.Basic
import Mathlib.Data.List.Sort

/-!
# The memoisation helper of the video pipeline

Models `projects/torch_vct/utils/memoize.py`.  Python objects are modelled as far as the cache key can
see them; the memoised function is an arbitrary pure function of the arguments.
-/

namespace Verif.Vct.Memo

/-- The argument values the code can meet: `atom` stands for numbers (hashed and compared by value), `str`
for strings, `tensor id content` for a tensor object with its identity and its present contents (contents
are abstract), `cache` for a `_Cache` object.  A named tuple is a tuple.  The atoms are integers, which is
a simplification: other hashable objects behave the same way. -/
inductive PyVal where
  | atom (n : ℤ)
  | str (s : String)
  | tensor (id content : ℕ)
  | list (xs : List PyVal)
  | tuple (xs : List PyVal)
  | dict (items : List (PyVal × PyVal))
  | cache

/-- Hashable values: numbers, strings and tuples of such values (a tuple is `nil` or `cons head tail`). -/
inductive Key where
  | atom (n : ℤ)
  | str (s : String)
  | nil
  | cons (head tail : Key)
deriving DecidableEq

mutual
/-- memoize.py:86-98 `_ensure_hashable`: lists and tuples both become tuples, a dict becomes the tuple of
its pairs, a tensor becomes `hash(x)`, which for tensors is the object's identity (an integer). -/
def ensureHashable : PyVal → Key
  | .atom n => .atom n
  | .str s => .str s
  | .tensor id _ => .atom id
  | .list xs => ensureAll xs
  | .tuple xs => ensureAll xs
  | .dict items => ensureItems items
  | .cache => .nil
/-- The generator expression at memoize.py:89. -/
def ensureAll : List PyVal → Key
  | [] => .nil
  | x :: xs => .cons (ensureHashable x) (ensureAll xs)
/-- The generator expression at memoize.py:92. -/
def ensureItems : List (PyVal × PyVal) → Key
  | [] => .nil
  | kv :: rest => .cons (ensurePair kv) (ensureItems rest)
/-- One `(key, value)` pair at memoize.py:92. -/
def ensurePair : PyVal × PyVal → Key
  | (k, v) => .cons (ensureHashable k) (.cons (ensureHashable v) .nil)
end

/-- Keyword arguments, in the order in which the caller wrote them. -/
abbrev Kwargs := List (String × PyVal)

/-- `isinstance(x, _Cache)`. -/
def PyVal.isCache : PyVal → Bool
  | .cache => true
  | _ => false

/-- memoize.py:124-131: the cache key: positional arguments and the keyword arguments sorted by name, both
without `_Cache` objects.  (Names are distinct, so Python's sort never compares values.) -/
def keyOf (args : List PyVal) (kwargs : Kwargs) : Key :=
  let keyArgs := args.filter (fun x => !x.isCache)
  let keyKwargs := (kwargs.insertionSort (fun a b => a.1 ≤ b.1)).filter (fun kv => !kv.2.isCache)
  ensureHashable (.tuple [.tuple keyArgs,
    .tuple (keyKwargs.map fun kv => .tuple [.str kv.1, kv.2])])

/-- memoize.py:62-72 `_Cache` (and 78-83): for every function the stored results and the hit counters, each
a dictionary keyed by `Key`; here association lists, newest entry first. -/
structure Cache (F R : Type) where
  results : F → List (Key × R)
  hits : F → List (Key × ℕ)

/-- memoize.py:78-83 `create_cache`. -/
def createCache (F R : Type) : Cache F R := ⟨fun _ => [], fun _ => []⟩

/-- `hit_counter[key] += 1` on a `defaultdict(int)`. -/
def bump (key : Key) : List (Key × ℕ) → List (Key × ℕ)
  | [] => [(key, 1)]
  | (k, n) :: rest => if k = key then (k, n + 1) :: rest else (k, n) :: bump key rest

/-- One call of a memoised function. -/
structure Call (F : Type) where
  fn : F
  args : List PyVal
  kwargs : Kwargs
  expectHit : Option Bool := none

variable {F R : Type} [DecidableEq F]

/-- memoize.py:108-145 `wrapper` with a cache (memoize.py:118-145).  `sem` is the memoised function.  A failed
`assert` is `none`. -/
def callCached (sem : F → List PyVal → Kwargs → R) (c : Cache F R) (call : Call F) :
    Option (R × Cache F R) :=
  let key := keyOf call.args call.kwargs
  match (c.results call.fn).lookup key with
  | some r =>
    if call.expectHit = some false then none
    else some (r, { c with hits := Function.update c.hits call.fn (bump key (c.hits call.fn)) })
  | none =>
    if call.expectHit = some true then none
    else
      let r := sem call.fn call.args call.kwargs
      some (r, { c with results := Function.update c.results call.fn ((key, r) :: c.results call.fn) })

/-- memoize.py:114-116: without a cache (`bind(f, None)`) the function is simply called. -/
def callUncached (sem : F → List PyVal → Kwargs → R) (call : Call F) : Option R :=
  if call.expectHit = some true then none else some (sem call.fn call.args call.kwargs)

/-- A history of calls through one cache: the results in order and the final cache. -/
def runCalls (sem : F → List PyVal → Kwargs → R) : Cache F R → List (Call F) → Option (List R × Cache F R)
  | c, [] => some ([], c)
  | c, call :: rest =>
    match callCached sem c call with
    | none => none
    | some (r, c') =>
      match runCalls sem c' rest with
      | none => none
      | some (rs, c'') => some (r :: rs, c'')

/-- memoize.py:149 `get_total_cache_hits`. -/
def totalHits (c : Cache F R) (fn : F) : ℕ := ((c.hits fn).map (·.2)).sum

end Verif.Vct.Memo
