import Mathlib.Data.Nat.Digits.Defs
import Mathlib.Data.List.Sort
import Mathlib.Data.List.Dedup
import Mathlib.Data.List.Lex
import Mathlib.Order.Lattice.Nat

/-!
# Model of the caches: `causallearn/score/LocalScoreFunctionClass.py` and `causallearn/utils/cit.py` (class `CIT_Base`)
-/
namespace CL

/-! ## Local score cache -/

/-- `LocalScoreFunctionClass.py:30`: `score_cache`, a dict of dicts; `none` is a missing key.  The outer key is created on
demand (lines 37-38), so the two levels are flattened to one partial function. -/
abbrev ScoreCache (V : Type) := Nat → List Nat → Option V

/-- `LocalScoreFunctionClass.py:40`: `tuple(sorted(PAi))`. -/
def hashKey (pa : List Nat) : List Nat := pa.insertionSort (· ≤ ·)

/-- `LocalScoreFunctionClass.py:36-48` `score(i, PAi)`; `f i pa` is `local_score_fun(data, i, PAi, parameters)`, an
arbitrary function of the index and the parent list. Returns the value and the new cache. -/
def cachedScore {V : Type} (f : Nat → List Nat → V) (c : ScoreCache V) (i : Nat) (pa : List Nat) : V × ScoreCache V :=
  match c i (hashKey pa) with
  | some v => (v, c)
  | none => (f i pa, fun j k => if j = i ∧ k = hashKey pa then some (f i pa) else c j k)

/-- A sequence of calls on one object, starting from the empty cache (line 30): the returned values. -/
def runScores {V : Type} (f : Nat → List Nat → V) : ScoreCache V → List (Nat × List Nat) → List V
  | _, [] => []
  | c, (i, pa) :: q => (cachedScore f c i pa).1 :: runScores f (cachedScore f c i pa).2 q

/-! ## CI-test cache keys -/

/-- Python `str(n)` for a non-negative integer (used by `cit.py:152` through `map(str, lst)`). -/
def strNat (n : Nat) : List Char := if n = 0 then ['0'] else ((Nat.digits 10 n).map Nat.digitChar).reverse

/-- `cit.py:152`: `'.'.join(map(str, lst))`. -/
def strLst : List Nat → List Char
  | [] => []
  | [x] => strNat x
  | x :: y :: l => strNat x ++ '.' :: strLst (y :: l)

/-- `cit.py:150-154` `_stringize`. -/
def stringize (u1 u2 c : List Nat) : List Char :=
  if c.length > 0 then strLst u1 ++ ';' :: (strLst u2 ++ '|' :: strLst c) else strLst u1 ++ ';' :: strLst u2

/-- `cit.py:162, 171-172`: `sorted(set(map(int, l)))`. -/
def sortedSet (l : List Nat) : List Nat := l.dedup.insertionSort (· ≤ ·)

/-- A formatted query: `Xs, Ys, condition_set` as returned by `get_formatted_XYZ_and_cachekey`. -/
abbrev Query := List Nat × List Nat × List Nat

/-- `cit.py:166-168`: one-dimensional formatting; `none` is the AssertionError for `X` or `Y` in the conditioning set. -/
def format1 (x y : Nat) (s : List Nat) : Option Query :=
  let s := sortedSet s
  let (a, b) := if x < y then (x, y) else (y, x)
  if a ∉ s ∧ b ∉ s then some ([a], [b], s) else none

/-- `cit.py:171-176`: formatting for the kernel tests, where `X` and `Y` may be several columns (an integer argument is the
one-element list). Python's list comparison is the lexicographic order. -/
def formatM (x y s : List Nat) : Option Query :=
  let s := sortedSet s
  let xs := sortedSet x
  let ys := sortedSet y
  let (a, b) := if xs < ys then (xs, ys) else (ys, xs)
  if (∀ i ∈ a, i ∉ s) ∧ (∀ i ∈ b, i ∉ s) then some (a, b, s) else none

/-- `cit.py:168, 176`: the cache key of a formatted query. -/
def keyOf (q : Query) : List Char := stringize q.1 q.2.1 q.2.2

/-! ## The p-value cache as a persistent dictionary -/

/-- Values of the dictionary: metadata strings or p-values. -/
inductive CVal (P : Type)
  | str (s : List Char)
  | pval (p : P)

/-- `pvalue_cache`: a Python dict with string keys; persisted as JSON. -/
abbrev CDict (P : Type) := List Char → Option (CVal P)

/-- Dictionary update. -/
def CDict.set {P : Type} (c : CDict P) (k : List Char) (v : CVal P) : CDict P := fun x => if x = k then some v else c x

/-- The dictionary keys used for metadata (`cit.py:103, 113-118`). -/
def kData : List Char := "data_hash".toList
@[inherit_doc kData] def kMethod : List Char := "method_name".toList
@[inherit_doc kData] def kParams : List Char := "parameters_hash".toList

variable {P : Type}

/-- `cit.py:103-109`: the cache at construction. `file` is the content of `cache_path` if the file exists; `none` as result
is the AssertionError "Data hash mismatch" (or KeyError). -/
def initCache (dataHash : List Char) (file : Option (CDict P)) : Option (CDict P) :=
  match file with
  | none => some (CDict.set (fun _ => none) kData (.str dataHash))
  | some c =>
    match c kData with
    | some (.str h) => if h = dataHash then some c else none
    | _ => none

/-- `cit.py:111-118` `check_cache_method_consistent`: note that line 113 looks up the *value* `method_name` as a key. -/
def checkMethod (c : CDict P) (method params : List Char) : Option (CDict P) :=
  match c method with
  | none => some ((c.set kMethod (.str method)).set kParams (.str params))
  | some _ =>
    match c kMethod, c kParams with
    | some (.str m), some (.str p) => if m = method ∧ p = params then some c else none
    | _, _ => none

/-- `cit.py:96-118` and the first lines of each subclass constructor: open a session. -/
def openSession (dataHash method params : List Char) (file : Option (CDict P)) : Option (CDict P) :=
  (initCache dataHash file).bind fun c => checkMethod c method params

/-- `cit.py:211-225` (and the same lines of the other tests): answer a formatted query through the cache.
`f` is the uncached computation on the formatted query.  A metadata value found under the key would be returned as is
by Python; the model returns `none` then. -/
def askCache (f : Query → P) (c : CDict P) (q : Query) : Option P × CDict P :=
  match c (keyOf q) with
  | some (.pval p) => (some p, c)
  | some (.str _) => (none, c)
  | none => (some (f q), c.set (keyOf q) (.pval (f q)))

/-- Events in the life of a persisted cache used by one test: a query, the periodic save (`cit.py:124-127`, complete
overwrite of the file; whether it happens depends on the clock), and a restart of the process, which loses the in-memory
dictionary and opens a new session on the file. -/
inductive CEv
  | ask (q : Query)
  | save
  | restart

/-- State: dictionary in memory and content of the file. -/
structure CState (P : Type) where
  mem : CDict P
  disk : Option (CDict P)

/-- Run a history; returns the answers (with their queries) or `none` if opening a session raised. -/
def runCache (f : Query → P) (dataHash method params : List Char) : CState P → List CEv → Option (List (Query × Option P))
  | _, [] => some []
  | s, .ask q :: es =>
    (runCache f dataHash method params ⟨(askCache f s.mem q).2, s.disk⟩ es).map fun l => (q, (askCache f s.mem q).1) :: l
  | s, .save :: es => runCache f dataHash method params ⟨s.mem, some s.mem⟩ es
  | s, .restart :: es =>
    match openSession dataHash method params s.disk with
    | none => none
    | some c => runCache f dataHash method params ⟨c, s.disk⟩ es

end CL
