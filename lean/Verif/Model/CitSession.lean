import Verif.Model.Cache
import Verif.Model.PC
import Verif.Spec.DSep
import Mathlib.Data.Rat.Defs

/-!
# Sessions of conditional-independence tests (`causallearn/utils/cit.py`)

The registry and the dispatcher `CIT`, the cache file as text (with crashes while it is written), the data hash, and the `d_separation` test.
-/
namespace CL.Cit

/-! ## Registry and dispatch -/

/-- The classes `CIT` can build. -/
inductive TestClass (C : Type)
  | custom (c : C)
  | fisherZ | kci | fastKci | rcit
  | chisqOrGsq (method : String)
  | mvFisherZ | mcFisherZ | dSeparation
deriving DecidableEq

/-- `cit.py:26` `_custom_ci_tests`: a Python dict. -/
abbrev Registry (C : Type) := String → Option C

/-- `cit.py:28-47` `register_ci_test`; `isTest` is `issubclass(test_class, CIT_Base)`. The flag is `true` if it raises `TypeError`. -/
def register {C : Type} (isTest : C → Bool) (reg : Registry C) (name : String) (c : C) : Registry C × Bool :=
  if isTest c then (fun k => if k = name then some c else reg k, false) else (reg, true)

/-- `cit.py:50-83` `CIT` (the class that is instantiated; `none` is the `ValueError`), with the names of lines 14-23. -/
def cit {C : Type} (reg : Registry C) (method : String) : Option (TestClass C) :=
  match reg method with
  | some c => some (.custom c)
  | none =>
    if method = "fisherz" then some .fisherZ
    else if method = "kci" then some .kci
    else if method = "fastkci" then some .fastKci
    else if method = "rcit" then some .rcit
    else if method = "chisq" ∨ method = "gsq" then some (.chisqOrGsq method)
    else if method = "mv_fisherz" then some .mvFisherZ
    else if method = "mc_fisherz" then some .mcFisherZ
    else if method = "d_separation" then some .dSeparation
    else none

/-- A history of registrations in one process, each of which may raise (and be caught). -/
def registerAll {C : Type} (isTest : C → Bool) (h : List (String × C)) : Registry C :=
  h.foldl (fun reg p => (register isTest reg p.1 p.2).1) fun _ => none

/-! ## The cache as an ordered dictionary and as a JSON file -/

variable {P : Type}

/-- `pvalue_cache` with its insertion order. -/
abbrev LDict (P : Type) := List (List Char × CVal P)

/-- Dictionary lookup. -/
def lget (d : LDict P) (k : List Char) : Option (CVal P) := (d.find? fun p => p.1 = k).map (·.2)

/-- Dictionary update: in place if the key is present, at the end otherwise. -/
def lput : LDict P → List Char → CVal P → LDict P
  | [], k, v => [(k, v)]
  | (k', v') :: d, k, v => if k' = k then (k', v) :: d else (k', v') :: lput d k v

/-- How `json` writes a float and reads it back; the text of a float contains no comma, quote, newline or brace. -/
structure NumText (P : Type) where
  num : P → List Char
  parse : List Char → Option P
  parse_num : ∀ p, parse (num p) = some p
  clean : ∀ p, ',' ∉ num p ∧ '\n' ∉ num p ∧ '}' ∉ num p ∧ '"' ∉ num p

/-- `json.dumps` of a value. The strings that occur (hashes, method and parameter names, query keys) need no escapes. -/
def dumpVal (N : NumText P) : CVal P → List Char
  | .str s => '"' :: (s ++ ['"'])
  | .pval p => N.num p

/-- One entry, indented by two spaces. -/
def dumpItem (N : NumText P) (e : List Char × CVal P) : List Char := [' ', ' ', '"'] ++ (e.1 ++ ('"' :: ':' :: ' ' :: dumpVal N e.2))

/-- The entries, separated by a comma and a newline; then a newline. -/
def dumpItems (N : NumText P) : LDict P → List Char
  | [] => []
  | [e] => dumpItem N e ++ ['\n']
  | e :: e' :: d => dumpItem N e ++ (',' :: '\n' :: dumpItems N (e' :: d))

/-- `json.dumps(self.pvalue_cache, indent=2)` (`cit.py:126`); the dictionary is never empty (line 103). -/
def dumps (N : NumText P) (d : LDict P) : List Char := '{' :: '\n' :: (dumpItems N d ++ ['}'])

/-- Read up to the character `c`, which is dropped. -/
def takeUntil (c : Char) : List Char → Option (List Char × List Char)
  | [] => none
  | x :: xs => if x = c then some ([], xs) else (takeUntil c xs).map fun p => (x :: p.1, p.2)

/-- Read a value. -/
def loadVal (N : NumText P) : List Char → Option (CVal P × List Char)
  | '"' :: t => (takeUntil '"' t).map fun p => (.str p.1, p.2)
  | t => (N.parse (t.takeWhile fun x => x ≠ ',' && x ≠ '\n')).map fun v => (.pval v, t.dropWhile fun x => x ≠ ',' && x ≠ '\n')

/-- Read a key and its value. -/
def loadItem (N : NumText P) : List Char → Option ((List Char × CVal P) × List Char)
  | ' ' :: ' ' :: '"' :: t =>
    (takeUntil '"' t).bind fun p =>
      match p.2 with
      | ':' :: ' ' :: u => (loadVal N u).map fun q => ((p.1, q.1), q.2)
      | _ => none
  | _ => none

/-- Read the entries and the closing brace. -/
def loadItems (N : NumText P) : Nat → List Char → Option (LDict P)
  | 0, _ => none
  | f + 1, t =>
    (loadItem N t).bind fun p =>
      match p.2 with
      | ',' :: '\n' :: u => (loadItems N f u).map (p.1 :: ·)
      | '\n' :: '}' :: [] => some [p.1]
      | _ => none

/-- `json.load` (`cit.py:107`) on texts of the form `json.dumps` writes and their prefixes (`none` is `JSONDecodeError`). -/
def loads (N : NumText P) : List Char → Option (LDict P)
  | '{' :: '\n' :: t => loadItems N t.length t
  | _ => none

/-! ## Sessions -/

/-- `cit.py:103-109` on the ordered dictionary: `none` if the constructor raises. `file` is the text of the cache file if it exists; without a file
`os.makedirs(os.path.dirname(cache_path))` raises for a path without a directory part (`hasDir = false`). -/
def readFile (N : NumText P) (hasDir : Bool) (dataHash : List Char) (file : Option (List Char)) : Option (LDict P) :=
  match file with
  | none => if hasDir then some [(kData, .str dataHash)] else none
  | some t =>
    (loads N t).bind fun c =>
      match lget c kData with
      | some (.str h) => if h = dataHash then some c else none
      | _ => none

/-- `cit.py:111-118` `check_cache_method_consistent` (as `CL.checkMethod`). -/
def checkL (c : LDict P) (method params : List Char) : Option (LDict P) :=
  match lget c method with
  | none => some (lput (lput c kMethod (.str method)) kParams (.str params))
  | some _ =>
    match lget c kMethod, lget c kParams with
    | some (.str m), some (.str p) => if m = method ∧ p = params then some c else none
    | _, _ => none

/-- The constructor of a test with `cache_path`. -/
def openFile (N : NumText P) (hasDir : Bool) (dataHash method params : List Char) (file : Option (List Char)) : Option (LDict P) :=
  (readFile N hasDir dataHash file).bind fun c => checkL c method params

/-- `cit.py:211-225`: answer a formatted query through the dictionary (as `CL.askCache`). -/
def ask (f : Query → P) (c : LDict P) (q : Query) : Option P × LDict P :=
  match lget c (keyOf q) with
  | some (.pval p) => (some p, c)
  | some (.str _) => (none, c)
  | none => (some (f q), lput c (keyOf q) (.pval (f q)))

/-- Events: a query; a complete save (`cit.py:124-127`); a crash of the process while it saves, after `k` characters have reached the file (which `open(.., 'w')` has
truncated); a crash at any other time; a new process that constructs the test again. -/
inductive Ev
  | ask (q : Query)
  | save
  | crashInSave (k : Nat)
  | crash
  | start

/-- What the user sees. -/
inductive Seen (P : Type)
  | answer (q : Query) (p : Option P)
  | raised

/-- The session (if the process is alive) and the text of the cache file. -/
structure St (P : Type) where
  mem : Option (LDict P)
  disk : Option (List Char)

/-- One event. Events that need a living process do nothing without one. -/
def step (N : NumText P) (f : Query → P) (dataHash method params : List Char) (s : St P) : Ev → St P × List (Seen P)
  | .ask q =>
    match s.mem with
    | none => (s, [])
    | some c => (⟨some (ask f c q).2, s.disk⟩, [.answer q (ask f c q).1])
  | .save =>
    match s.mem with
    | none => (s, [])
    | some c => (⟨some c, some (dumps N c)⟩, [])
  | .crashInSave k =>
    match s.mem with
    | none => (s, [])
    | some c => (⟨none, some ((dumps N c).take k)⟩, [])
  | .crash => (⟨none, s.disk⟩, [])
  | .start =>
    match openFile N true dataHash method params s.disk with
    | none => (⟨none, s.disk⟩, [.raised])
    | some c => (⟨some c, s.disk⟩, [])

/-- A history, from the beginning (no process, no file). -/
def run (N : NumText P) (f : Query → P) (dataHash method params : List Char) (h : List Ev) : St P × List (Seen P) :=
  h.foldl (fun s e => ((step N f dataHash method params s.1 e).1, s.2 ++ (step N f dataHash method params s.1 e).2)) (⟨none, none⟩, [])

/-! ## The data hash -/

/-- numpy's `_leading_trailing` along one axis with `edgeitems = 3`: an axis longer than 6 keeps its first and last three entries. -/
def edge {α : Type} (l : List α) : List α := if 6 < l.length then l.take 3 ++ l.drop (l.length - 3) else l

/-- numpy's rendering of the entries that are shown; whether a `...` is shown along an axis. Arbitrary otherwise. -/
structure Render (α : Type) where
  full : List (List α) → List Char
  summary : Bool → Bool → List (List α) → List Char

/-- `str(data)` of a two-dimensional numpy array (`N` rows of `n` entries) with the default print options: more than `threshold = 1000` entries are summarised. -/
def strArray {α : Type} (R : Render α) (n : Nat) (rows : List (List α)) : List Char :=
  if rows.length * n ≤ 1000 then R.full rows else R.summary (6 < rows.length) (6 < n) ((edge rows).map edge)

/-- `cit.py:97`: `hashlib.md5(str(data).encode('utf-8')).hexdigest()`. -/
def dataHashOf {α : Type} (md5 : List Char → List Char) (R : Render α) (n : Nat) (rows : List (List α)) : List Char := md5 (strArray R n rows)

/-! ## The d-separation test -/

open Classical in
/-- `cit.py:559-590` `D_Separation.__call__` on a formatted query; `nx.is_d_separator` decides d-separation in the true DAG (trusted). The p-value is 1 or 0. -/
noncomputable def dsepQuery {n : Nat} (D : Fin n → Fin n → Prop) (q : Query) : ℚ :=
  if ∀ x y : Fin n, q.1 = [x.val] → q.2.1 = [y.val] → Spec.DSep D {z | z.val ∈ q.2.2} x y then 1 else 0

/-- `cit.py:559-590`: the call with column numbers, through a cache. `none`: `X` or `Y` in the conditioning set. -/
noncomputable def dsepCall {n : Nat} (D : Fin n → Fin n → Prop) (c : LDict ℚ) (x y : Fin n) (S : List (Fin n)) : Option ℚ :=
  (format1 x y (S.map Fin.val)).bind fun q => (ask (dsepQuery D) c q).1

/-- The test function `pc` is given: the p-value (a raising call is not reached by PC: neither variable is in the conditioning set), and `alpha`. -/
noncomputable def dsepTest {n : Nat} (D : Fin n → Fin n → Prop) (c : LDict ℚ) (alpha : ℚ) : TestFn n ℚ where
  pval x y S := (dsepCall D c x y S).getD 0
  alpha := alpha

end CL.Cit
