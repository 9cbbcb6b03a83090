import Verif.Model.Graph
import Verif.Model.Cache

/-!
# Model of `causallearn/utils/TXT2GeneralGraph.py` and of `str(graph)` (`GraphUtils.graph_string`, `Edge.__str__`)

Text is a list of characters. `ws` is Python's `str.isspace` on single characters, kept abstract. The file system is not
modelled: `txt2generalgraph` reads the text it is given, split into lines at `'\n'` (Python's universal newlines also split
at `'\r'`, which is white space and so never occurs inside a node name in the theorems).
-/
namespace CL.Txt
variable {n : Nat}

/-- `Edge.py:219-225`: the character for the first end. -/
def ch1 (m : Mark) : Char := if m = .tail then '-' else if m = .arrow then '<' else 'o'

/-- `Edge.py:229-235`: the character for the second end. -/
def ch2 (m : Mark) : Char := if m = .tail then '-' else if m = .arrow then '>' else 'o'

/-- `Edge.py:210-238` `__str__`; `name i` is the name of node `i`. -/
def edgeStr (name : Fin n → List Char) (e : Edge n) : List Char :=
  name e.node1 ++ ' ' :: ([ch1 e.end1, '-', ch2 e.end2] ++ ' ' :: name e.node2)

/-- `GraphUtils.py:95-100`: the node names separated by `;`. -/
def joinSemi : List (List Char) → List Char
  | [] => []
  | [x] => x
  | x :: y :: l => x ++ ';' :: joinSemi (y :: l)

/-- `GraphUtils.py:104-107`: the numbered edge lines, starting after number `c`. -/
def edgeLines (name : Fin n → List Char) : Nat → List (Edge n) → List Char
  | _, [] => []
  | c, e :: es => strNat (c + 1) ++ '.' :: ' ' :: (edgeStr name e ++ '\n' :: edgeLines name (c + 1) es)

/-- `GraphUtils.py:86-109` `graph_string`. -/
def graphString (names : List (List Char)) (name : Fin n → List Char) (G : GG n) : List Char :=
  "Graph Nodes:".toList ++ '\n' :: (joinSemi names ++ '\n' :: '\n' :: ("Graph Edges:".toList ++ '\n' :: edgeLines name 0 G.graphEdges))

/-! ## Python string functions -/

/-- `str.split` at characters satisfying `p`, keeping empty pieces. -/
def splitBy (p : Char → Bool) : List Char → List (List Char)
  | [] => [[]]
  | c :: cs => if p c then [] :: splitBy p cs else
    match splitBy p cs with
    | [] => [[c]]
    | w :: ws => (c :: w) :: ws

/-- `str.split()` without argument: maximal runs of non-white-space. -/
def words (ws : Char → Bool) (l : List Char) : List (List Char) := (splitBy ws l).filter (· ≠ [])

/-- `str.strip()`. -/
def strip (ws : Char → Bool) (l : List Char) : List Char := ((l.dropWhile ws).reverse.dropWhile ws).reverse

/-! ## The reader -/

/-- `TXT2GeneralGraph.py:42-50` `to_endpoint` (`none`: NotImplementedError). -/
def toEndpoint (c : Char) : Option Mark :=
  if c = 'o' then some .circle else if c = '>' then some .arrow else if c = '-' then some .tail else none

/-- State of the reader: the flag `next_nodes_line`, the nodes added so far and the edges added so far (adding a node later
only appends an empty row and column to the matrix, so the matrix is built at the end). -/
structure St where
  next : Bool
  nodes : List (List Char)
  edges : List (List Char × List Char × Mark × Mark)

/-- `GeneralGraph.py:196-221` `add_node`, node list only. -/
def addNode (nodes : List (List Char)) (x : List Char) : List (List Char) := if x ∈ nodes then nodes else nodes ++ [x]

/-- `TXT2GeneralGraph.py:26-38`: an edge line (`none`: an exception). -/
def readEdgeLine (st : St) (w : List (List Char)) : Option St :=
  match w with
  | _ :: n1 :: s :: n2 :: _ =>
    (s.head?.bind fun c => toEndpoint (if c = '<' then '>' else c)).bind fun m1 =>
      (s.getLast?.bind toEndpoint).bind fun m2 =>
        if n1 ∈ st.nodes ∧ n2 ∈ st.nodes then some ⟨false, st.nodes, st.edges ++ [(n1, n2, m1, m2)]⟩ else none
  | _ => none

/-- `TXT2GeneralGraph.py:13-38`: one line. -/
def step (ws : Char → Bool) (st : St) (raw : List Char) : Option St :=
  let line := strip ws raw
  let w := words ws line
  if w.length > 1 ∧ w[1]? = some "Nodes:".toList then some { st with next := true }
  else if line.length > 0 ∧ st.next = true then
    some ⟨false, (splitBy (· == ';') line).foldl addNode st.nodes, st.edges⟩
  else if (w.head?.bind List.getLast?) = some '.' then readEdgeLine st w
  else some st

/-- `TXT2GeneralGraph.py:53-59` `mod_endpoint`. -/
def modEndpoint (e : Edge n) (z : Fin n) (m : Mark) : Edge n :=
  if e.node1 = z then e.setEndpoint1 m else if e.node2 = z then e.setEndpoint2 m else e

/-- `TXT2GeneralGraph.py:35-37`: the edge object built from one line. -/
def readEdge (a b : Fin n) (m1 m2 : Mark) : Edge n := modEndpoint (modEndpoint (mkEdge a b .circle .circle) a m1) b m2

/-- The graph built from the final node list and the edges in order. -/
def build (nodes : List (List Char)) (edges : List (List Char × List Char × Mark × Mark)) : GG nodes.length :=
  edges.foldl (fun H e =>
    if h : nodes.idxOf e.1 < nodes.length ∧ nodes.idxOf e.2.1 < nodes.length then
      (H.addEdge (readEdge ⟨_, h.1⟩ ⟨_, h.2⟩ e.2.2.1 e.2.2.2)).2 else H) (GG.empty nodes.length)

/-- `TXT2GeneralGraph.py:8-39` `txt2generalgraph`. -/
def read (ws : Char → Bool) (text : List Char) : Option (Σ nodes : List (List Char), GG nodes.length) :=
  ((splitBy (· == '\n') text).foldlM (step ws) ⟨false, [], []⟩).map fun st => ⟨st.nodes, build st.nodes st.edges⟩

end CL.Txt
