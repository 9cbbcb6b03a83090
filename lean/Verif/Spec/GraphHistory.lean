import Verif.Model.Graph
import Mathlib.Logic.Relation

/-!
# Histories of public edge operations on a `GeneralGraph`, and directed paths

Used by properties C01–C08. A user builds an `Edge(a, b, m1, m2)` and calls one of the four edge-level mutators.
-/
namespace CL
variable {n : Nat}

/-- A call of a public mutator of `GeneralGraph`. -/
inductive Op (n : Nat)
  | addEdge (a b : Fin n) (m1 m2 : Mark)
  | addDirectedEdge (a b : Fin n)
  | removeEdge (a b : Fin n) (m1 m2 : Mark)
  | removeConnectingEdge (a b : Fin n)

/-- Effect of one call. -/
def Op.apply (G : GG n) : Op n → GG n
  | .addEdge a b m1 m2 => (G.addEdge (mkEdge a b m1 m2)).2
  | .addDirectedEdge a b => G.addDirectedEdge a b
  | .removeEdge a b m1 m2 => G.removeEdge (mkEdge a b m1 m2)
  | .removeConnectingEdge a b => G.removeConnectingEdge a b

/-- The graph after a history of calls, starting from the edgeless graph. -/
def run (h : List (Op n)) : GG n := h.foldl Op.apply (GG.empty n)

/-- The two nodes named in a call. -/
def Op.ends : Op n → Fin n × Fin n
  | .addEdge a b _ _ => (a, b)
  | .addDirectedEdge a b => (a, b)
  | .removeEdge a b _ _ => (a, b)
  | .removeConnectingEdge a b => (a, b)

/-- The graph shows exactly one directed edge `x → y`: a tail at `x` and an arrowhead at `y`. -/
def GG.Arrow (G : GG n) (x y : Fin n) : Prop := G.g x y = .tail ∧ G.g y x = .arrow

instance (G : GG n) (x y : Fin n) : Decidable (G.Arrow x y) := by unfold GG.Arrow; infer_instance

/-- A (possibly empty) directed path from `x` to `y`. -/
def GG.DirPath (G : GG n) : Fin n → Fin n → Prop := Relation.ReflTransGen G.Arrow

/-- A directed cycle: a non-empty directed path from a node to itself. -/
def GG.Cyclic (G : GG n) : Prop := ∃ x, Relation.TransGen G.Arrow x x

/-- No pair of nodes carries two edges at once (the codes TAIL_AND_ARROW / ARROW_AND_ARROW are absent). -/
def GG.Simple (G : GG n) : Prop := ∀ a b, G.g a b ≠ .ta ∧ G.g a b ≠ .aa

end CL
