import Verif.Model.Txt
import Verif.Model.Pattern

/-!
# Model of the Tetrad text files of `utils/PCUtils/Helper.py`: `adjmat2tetrad`, `tetrad2adjmat`, `rearrange_columns`

Text is a list of characters, a file is a text. Matrices are those of `Verif.Model.Pattern`: `A i j = 1`, `A j i = 0` is `i --> j`, two zeros
are `i --- j`, two ones `i <-> j`, `-1` no edge; NaN is the number `2`.
`pandas.read_csv(path, sep='\t')` on a text without tabs and quotes: the first line is the header, empty lines are dropped, every other line is a row
with one cell.
-/
namespace CL
namespace Tetrad
open Pattern Txt
variable {n : Nat}

/-- NaN on the diagonal. -/
def nan : Int := 2

inductive Kind | dir | und | bi
  deriving DecidableEq

/-- the three arrows of the format -/
def Kind.str : Kind → List Char
  | .dir => ['-', '-', '>']
  | .und => ['-', '-', '-']
  | .bi => ['<', '-', '>']

/-! ## The writer -/

/-- `Helper.py:212-215` `find_undirected`. -/
def findUndirected (A : Mat n) : List (Fin n × Fin n) := (findVal A 0).filter fun p => A p.2 p.1 == 0

/-- `Helper.py:493-495`: the edges in the order in which they are written. -/
def edgeList (A : Mat n) : List (Kind × Fin n × Fin n) :=
  (findFullyDirected A).map (fun e => (Kind.dir, e)) ++
    (((findUndirected A).filter fun e => decide (e.1 < e.2)).map (fun e => (Kind.und, e)) ++
      ((findVal A 1).filter fun e => A e.2 e.1 == 1 && decide (e.1 < e.2)).map fun e => (Kind.bi, e))

/-- `'X' + str(i + 1)` -/
def xName (i : Nat) : List Char := 'X' :: strNat (i + 1)

/-- `Helper.py:508-513`: an edge line without its end of line. -/
def edgeLine (k : Nat) (e : Kind × Fin n × Fin n) : List Char :=
  strNat k ++ '.' :: ' ' :: (xName e.2.1 ++ ' ' :: (e.1.str ++ ' ' :: xName e.2.2))

/-- `Helper.py:507-513`: the edge lines, numbered from `k`. -/
def edgeText : Nat → List (Kind × Fin n × Fin n) → List Char
  | _, [] => []
  | k, e :: es => edgeLine k e ++ '\n' :: edgeText (k + 1) es

/-- `Helper.py:500-502`: the line of names; without variables it is `X0`. -/
def nameLine (n : Nat) : List Char := ((List.range (n - 1)).flatMap fun i => xName i ++ [';']) ++ 'X' :: strNat n

/-- `Helper.py:498-515`: the file with the edges `E`. -/
def fileOf (n : Nat) (E : List (Kind × Fin n × Fin n)) : List Char :=
  "Graph Nodes: ".toList ++ '\n' :: (nameLine n ++ '\n' :: '\n' :: ("Graph Edges: ".toList ++ '\n' :: edgeText 1 E))

/-- `Helper.py:491-515` `adjmat2tetrad`. -/
def write (A : Mat n) : List Char := fileOf n (edgeList A)

/-! ## The reader -/

/-- `sub in l` -/
def contains (sub l : List Char) : Bool := l.tails.any fun t => sub.isPrefixOf t

/-- put a character in front of the first piece -/
def consHead (c : Char) : List (List Char) → List (List Char)
  | [] => [[c]]
  | w :: ws => (c :: w) :: ws

/-- `l.split(sep)`; the number says how many characters of a separator remain to be skipped. -/
def splitSkip (sep : List Char) : Nat → List Char → List (List Char)
  | _, [] => [[]]
  | k + 1, _ :: cs => splitSkip sep k cs
  | 0, c :: cs => if sep.isPrefixOf (c :: cs) then [] :: splitSkip sep (sep.length - 1) cs else consHead c (splitSkip sep 0 cs)

/-- `l.split(sep)` for a separator that is not empty. -/
def splitStr (sep l : List Char) : List (List Char) := splitSkip sep 0 l

/-- `int(l)`: decimal digits only (Python's `int` also allows signs, outer white space and underscores). -/
def parseNat (l : List Char) : Option Nat :=
  if l ≠ [] ∧ ∀ c ∈ l, c.isDigit = true then some (l.foldl (fun a c => 10 * a + (c.toNat - '0'.toNat)) 0) else none

/-- `Helper.py:448-449`: `int(part.split('X')[1]) - 1` -/
def parseIdx (part : List Char) : Option Int :=
  ((splitStr ['X'] part)[1]?.bind parseNat).map fun k => (k : Int) - 1

/-- the separator of the two names -/
def sepOf (k : Kind) : List Char := ' ' :: (k.str ++ [' '])

/-- `Helper.py:447-449`, `459-461`, `472-474`: the two ends of an edge line (`none`: an exception). -/
def parseEnds (k : Kind) (line : List Char) : Option (Int × Int) :=
  (splitStr ['.', ' '] line)[1]?.bind fun rest =>
    (splitStr (sepOf k) rest)[0]?.bind fun l => (splitStr (sepOf k) rest)[1]?.bind fun r =>
      (parseIdx l).bind fun i => (parseIdx r).map fun j => (i, j)

/-- `Helper.py:446`, `458`, `470`: which arrow the line contains. -/
def kindOf (line : List Char) : Option Kind :=
  if contains Kind.dir.str line then some .dir else if contains Kind.und.str line then some .und
  else if contains Kind.bi.str line then some .bi else none

/-- Python's index into an axis of length `n`. -/
def axis (n : Nat) (i : Int) : Option (Fin n) :=
  if h : 0 ≤ i ∧ i < n then some ⟨i.toNat, by omega⟩ else if h : i < 0 ∧ 0 ≤ i + n then some ⟨(i + n).toNat, by omega⟩ else none

/-- the cells that an edge of kind `k` writes at (left, right) and (right, left) -/
def Kind.vals : Kind → Int × Int
  | .dir => (1, 0)
  | .und => (0, 0)
  | .bi => (1, 1)

/-- `Helper.py:450-456`, `462-468`, `475-481`: write the edge, or raise an exception if the pair has other marks already. -/
def place (A : Mat n) (k : Kind) (l r : Fin n) : Option (Mat n) :=
  if A l r ≠ -1 ∧ A r l ≠ -1 then
    if A l r ≠ k.vals.1 ∨ A r l ≠ k.vals.2 then none else some A
  else some (setCell (setCell A l r k.vals.1) r l k.vals.2)

/-- `Helper.py:444-481`: one row of the file. -/
def readLine (A : Mat n) (line : List Char) : Option (Mat n) :=
  match kindOf line with
  | none => some A
  | some k => (parseEnds k line).bind fun e => (axis n e.1).bind fun l => (axis n e.2).bind fun r => place A k l r

/-- `Helper.py:438-440`: NaN on the diagonal, `-1` elsewhere. -/
def start (n : Nat) : Mat n := fun i j => if i = j then nan else -1

/-- the rows of the data frame: the lines after the header that are not empty -/
def rows (text : List Char) : List (List Char) := ((splitBy (· == '\n') text).filter (· ≠ [])).drop 1

/-- `Helper.py:431-436`: the number of variables. -/
def nameCount (row : List Char) : Nat :=
  if ',' ∈ row then (splitStr [','] row).length else if ';' ∈ row then (splitStr [';'] row).length else 0

/-- `Helper.py:427-486` `tetrad2adjmat`; `none` is an exception. -/
def read (text : List Char) : Option (Σ n, Mat n) :=
  (rows text)[0]?.bind fun row => (((rows text).drop 2).foldlM readLine (start (nameCount row))).map fun A => ⟨_, A⟩

/-! ## `rearrange_columns` -/

/-- `Helper.py:336-338`: `new_indices[var_indices[i]] = i` for `i = 1, …`, starting with zeros; `var i` is the number of the `i`-th column of the file
(a permutation of `0, …, n-1`). -/
def newIndices (var : Fin n → Fin n) (h : 0 < n) : Fin n → Fin n :=
  ((List.finRange n).drop 1).foldl (fun f i => fun a => if a = var i then i else f a) fun _ => ⟨0, h⟩

/-- `Helper.py:330-341` `rearrange_columns`. -/
def rearrange (A : Mat n) (var : Fin n → Fin n) (h : 0 < n) : Mat n := fun a b => A (newIndices var h a) (newIndices var h b)

end Tetrad
end CL
