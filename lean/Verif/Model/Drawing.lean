import Verif.Model.Graph
import Verif.Model.FciLabels
import Mathlib.Data.Real.Basic
import Mathlib.Analysis.SpecialFunctions.Pow.Real

/-!
# Model of the drawing functions and of `lingam/utils/__init__.py`

`causallearn/utils/GraphUtils.py` lines 472-576 (`to_pgv`, `to_pydot`) and `causallearn/search/FCMBased/lingam/utils/__init__.py` lines 105-302. What is modelled is the list of
statements handed to the DOT library; layout, fonts, title and dpi are not.
-/
namespace CL
namespace Draw
variable {n : Nat}

/-- The arrow shapes of DOT that are used. -/
inductive Style
  | none | normal | odot
  deriving DecidableEq, Repr

/-- `GraphUtils.py:487-495`, `548-556` `get_g_arrow_type`; `none` is the NotImplementedError. -/
def arrowType : Mark → Option Style
  | .tail => some .none
  | .arrow => some .normal
  | .circle => some .odot
  | _ => Option.none

/-- An edge statement; `dir` is always `both`. -/
structure DotEdge (n : Nat) where
  src : Fin n
  dst : Fin n
  arrowtail : Style
  arrowhead : Style
  green : Bool
  wide : Bool
  deriving DecidableEq, Repr

/-- `GraphUtils.py:561-576`: the statement for one edge with its properties. -/
def dotEdge (p : Edge n × List Fci.Label) : Option (DotEdge n) :=
  (arrowType p.1.end1).bind fun t => (arrowType p.1.end2).map fun h =>
    ⟨p.1.node1, p.1.node2, t, h, decide (Fci.Label.dd ∈ p.2), decide (Fci.Label.nl ∈ p.2)⟩

/-- `GraphUtils.py:558-578` `to_pydot`: the edge statements; `edges = none` takes the edges of the graph, which carry no properties. -/
def toPydot (G : GG n) (edges : Option (List (Edge n × List Fci.Label))) : Option (List (DotEdge n)) :=
  (edges.getD (G.graphEdges.map fun e => (e, []))).mapM dotEdge

/-- A node statement: number, label, and the shape if given. -/
structure NodeStmt where
  id : Nat
  label : String
  square : Bool
  deriving DecidableEq, Repr

/-- `GraphUtils.py:532-546`: each node is added twice; `latent i` says its type is LATENT. `none` is the AssertionError. -/
def nodeStmts (names : List String) (latent : Nat → Bool) (labels : Option (List String)) : Option (List NodeStmt) :=
  if labels.any fun l => l.length != names.length then none
  else some ((List.range names.length).flatMap fun i =>
    [⟨i, names.getD i "", false⟩, ⟨i, (labels.getD names).getD i "", latent i⟩])

/-- What DOT shows for a node: attributes of later statements override. -/
def shown (l : List NodeStmt) (i : Nat) : Option (String × Bool) :=
  l.foldl (fun acc s => if s.id = i then some (s.label, s.square || (acc.map Prod.snd).getD false) else acc) Option.none

/-- `GraphUtils.py:497-511` `to_pgv`: `AGraph(directed=True)` is strict: adding an edge that is there already changes nothing, and `get_edge` returns it, so its
attributes are overwritten. -/
def pgvAdd (l : List (DotEdge n)) (d : DotEdge n) : List (DotEdge n) :=
  if l.any fun x => decide (x.src = d.src ∧ x.dst = d.dst) then l.map fun x => if x.src = d.src ∧ x.dst = d.dst then d else x else l ++ [d]

/-- `GraphUtils.py:472-513` `to_pgv`. -/
def toPgv (G : GG n) : Option (List (DotEdge n)) :=
  (G.graphEdges.mapM fun e => dotEdge (e, [])).map fun l => l.foldl pgvAdd []

end Draw

namespace LinUtil
variable {n N m : Nat}

/-- What is written at an arrow: a coefficient (printed with two decimals), nothing but two heads, or the prediction of a target. -/
inductive Ink (K : Type)
  | coef (c : K)
  | both
  | predCoef (c : K)
  | predImp (c : K)
  | pred

/-- An edge statement of `make_dot`, from `src` to `dst`, by name. -/
structure Arrow (K : Type) where
  src : String
  dst : String
  ink : Ink K

section dot
variable {K : Type} [AddGroup K] [LinearOrder K]

/-- The index pairs in row-major order. -/
def cells (n : Nat) : List (Fin n × Fin n) := (List.finRange n).flatMap fun i => (List.finRange n).map fun j => (i, j)

/-- `utils/__init__.py:229-232`: the arrows of the matrix; `none` is NaN, which `nan_to_num` (205) turns into zero. -/
def coefArrows (B : Fin n → Fin n → Option K) (limit : K) (name : Fin n → String) : List (Arrow K) :=
  ((cells n).filter fun p => decide (limit < |(B p.1 p.2).getD 0|)).map fun p => ⟨name p.2, name p.1, .coef ((B p.1 p.2).getD 0)⟩

/-- What the caller says about a prediction: nothing, or features with coefficients, importances or neither. -/
inductive Pred (n : Nat) (K : Type)
  | absent
  | coefs (target : String) (l : List (Fin n × K))
  | imps (target : String) (l : List (Fin n × K))
  | plain (target : String) (l : List (Fin n))

/-- `utils/__init__.py:235-264`. -/
def predArrows (limit : K) (name : Fin n → String) : Pred n K → List (Arrow K)
  | .absent => []
  | .coefs t l => (l.filter fun p => decide (limit < |p.2|)).map fun p => ⟨name p.1, t, .predCoef p.2⟩
  | .imps t l => l.map fun p => ⟨name p.1, t, .predImp p.2⟩
  | .plain t l => l.map fun p => ⟨name p, t, .pred⟩

/-- `utils/__init__.py:267-274`: only the lower triangle (with the diagonal) is searched for NaN. -/
def nanArrows (B : Fin n → Fin n → Option K) (name : Fin n → String) : List (Arrow K) :=
  ((cells n).filter fun p => decide (p.2 ≤ p.1) && (B p.1 p.2).isNone).map fun p => ⟨name p.2, name p.1, .both⟩

/-- `utils/__init__.py:170-276` `make_dot` for a square matrix: the edge statements. -/
def makeDot (B : Fin n → Fin n → Option K) (limit : K) (name : Fin n → String) (p : Pred n K) : List (Arrow K) :=
  coefArrows B limit name ++ predArrows limit name p ++ nanArrows B name

/-- A sum of absolute values in which NaN (`none`) is absorbing. -/
def nanSum (l : List (Option K)) : Option K := l.foldl (fun s x => s.bind fun a => x.map fun b => a + |b|) (some 0)

/-- `utils/__init__.py:118-122` `get_sink_variables`; the diagonal is overwritten by zero. -/
def sinkVars (B : Fin n → Fin n → Option K) : List (Fin n) :=
  (List.finRange n).filter fun i => decide (nanSum ((List.finRange n).map fun k => if k = i then some 0 else B k i) = some 0)

/-- `utils/__init__.py:138-142` `get_exo_variables`, for a square matrix. -/
def exoVars (B : Fin n → Fin n → Option K) : List (Fin n) :=
  (List.finRange n).filter fun i => decide (nanSum ((List.finRange n).map fun k => if k = i then some 0 else B i k) = some 0)
end dot

/-- A regression: for a matrix, the columns `S` and a target column, the intercept and the coefficients. -/
abbrev Ols (N n : Nat) := (Fin N → Fin n → ℝ) → Finset (Fin n) → Fin n → ℝ × (Fin n → ℝ)

/-- `utils/__init__.py:163-166`: one feature; the matrix is changed in place. -/
noncomputable def removeStep (ols : Ols N n) (R : Finset (Fin n)) (X : Fin N → Fin n → ℝ) (f : Fin n) : Fin N → Fin n → ℝ :=
  fun k v => if v = f then X k f - ((ols X R f).1 + ∑ s ∈ R, (ols X R f).2 s * X k s) else X k v

/-- `utils/__init__.py:145-167` `remove_effect`; `none` is the ValueError of `LinearRegression` without features. Indices are not negative; the list is used as a set
(a repeated column does not change the predictions). -/
noncomputable def removeEffect (ols : Ols N n) (R : Finset (Fin n)) (X : Fin N → Fin n → ℝ) : Option (Fin N → Fin n → ℝ) :=
  if R = ∅ ∧ 0 < n then none else some (((List.finRange n).filter (· ∉ R)).foldl (removeStep ols R) X)

/-- `utils/__init__.py:279-302` `predict_adaptive_lasso`: `lr` are the coefficients of `LinearRegression` for a matrix and a target, `lasso` those of `LassoLarsIC`. -/
noncomputable def adaptiveLasso (lr lasso : (Fin N → Fin m → ℝ) → (Fin N → ℝ) → Fin m → ℝ) (γ : ℝ) (X : Fin N → Fin m → ℝ) (y : Fin N → ℝ) (j : Fin m) : ℝ :=
  lasso (fun k i => X k i * |lr X y i| ^ γ) y j * |lr X y j| ^ γ

end LinUtil
end CL
