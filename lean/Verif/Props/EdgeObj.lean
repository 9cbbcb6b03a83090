import Verif.Model.EdgeObj

/-!
# C226: what an edge object says about its two nodes

An edge is given by two nodes and the mark at each; `HasMarks e a x b y` says that `e` is the edge with mark `x` at `a` and
mark `y` at `b`, whichever of the two the object stores first.
-/

namespace CL
variable {n : Nat}

/-- The edge joins `a` and `b` with mark `x` at `a` and mark `y` at `b` (in either storage order). -/
def HasMarks (e : Edge n) (a : Fin n) (x : Mark) (b : Fin n) (y : Mark) : Prop :=
  (e.node1 = a ∧ e.end1 = x ∧ e.node2 = b ∧ e.end2 = y) ∨
  (e.node1 = b ∧ e.end1 = y ∧ e.node2 = a ∧ e.end2 = x)

/-- The constructor keeps each mark with its node, and what the accessors return of the new edge is exact. -/
theorem C226_marks (a b : Fin n) (x y : Mark) (hab : a ≠ b) :
    HasMarks (mkEdge a b x y) a x b y ∧
    (mkEdge a b x y).proximal a = some x ∧ (mkEdge a b x y).distal a = some y ∧
    (mkEdge a b x y).distalNode a = some b ∧
    (mkEdge a b x y).proximal b = some y ∧ (mkEdge a b x y).distal b = some x ∧
    (mkEdge a b x y).distalNode b = some a ∧
    (∀ c, c ≠ a → c ≠ b → (mkEdge a b x y).proximal c = none ∧ (mkEdge a b x y).distal c = none ∧
      (mkEdge a b x y).distalNode c = none) ∧
    ((mkEdge a b x y).pointsToward b = true ↔ y = .arrow ∧ (x = .tail ∨ x = .circle)) := by
  have hba : b ≠ a := fun h => hab h.symm
  refine ⟨?_, ?_, ?_, ?_, ?_, ?_, ?_, ?_, ?_⟩
  · unfold HasMarks mkEdge; split <;> simp
  all_goals
    unfold mkEdge
    cases x <;> cases y <;>
      simp +contextual [pointingLeft, Edge.proximal, Edge.distal, Edge.distalNode, Edge.pointsToward, hab, hba,
        fun (c : Fin n) (h : c ≠ a) => h.symm, fun (c : Fin n) (h : c ≠ b) => h.symm]

/-- The four constructors build the edge they name, and the four predicates recognise exactly the edges of their kind,
so no edge is of two kinds. -/
theorem C226_kinds (a b : Fin n) :
    HasMarks (directedEdge a b) a .tail b .arrow ∧
    HasMarks (partiallyOrientedEdge a b) a .circle b .arrow ∧
    HasMarks (bidirectedEdge a b) a .arrow b .arrow ∧
    HasMarks (undirectedEdge a b) a .tail b .tail ∧
    ∀ (e : Edge n) (x y : Mark), HasMarks e a x b y →
      (isDirectedEdgeObj e = true ↔ (x = .tail ∧ y = .arrow) ∨ (x = .arrow ∧ y = .tail)) ∧
      (isPartiallyOrientedEdge e = true ↔ (x = .circle ∧ y = .arrow) ∨ (x = .arrow ∧ y = .circle)) ∧
      (isBidirectedEdge e = true ↔ x = .arrow ∧ y = .arrow) ∧
      (isUndirectedEdge e = true ↔ x = .tail ∧ y = .tail) := by
  refine ⟨?_, ?_, ?_, ?_, ?_⟩
  · left; exact ⟨rfl, rfl, rfl, rfl⟩
  · left; exact ⟨rfl, rfl, rfl, rfl⟩
  · left; exact ⟨rfl, rfl, rfl, rfl⟩
  · left; exact ⟨rfl, rfl, rfl, rfl⟩
  · rintro e x y (⟨-, rfl, -, rfl⟩ | ⟨-, rfl, -, rfl⟩)
    all_goals
      obtain ⟨n1, n2, e1, e2, m1, m2⟩ := e
      simp only [isDirectedEdgeObj, isPartiallyOrientedEdge, isBidirectedEdge, isUndirectedEdge]
      refine ⟨?_, ?_, ?_, ?_⟩ <;> cases e1 <;> cases e2 <;> decide

/-- Following an edge out of a node with `traverse_directed` succeeds exactly on directed edges out of it, and leads to the
node at the other end. -/
theorem C226_traverse (a b : Fin n) (x y : Mark) (hab : a ≠ b) (w : Fin n) :
    traverseDirected a (mkEdge a b x y) = some w ↔ w = b ∧ x = .tail ∧ y = .arrow := by
  have hba : b ≠ a := fun h => hab h.symm
  unfold mkEdge traverseDirected
  cases x <;> cases y <;> simp [pointingLeft, hab] <;> exact ⟨fun h => h.symm, fun h => h.symm⟩

/-- Writing an edge from its other end gives an equal object exactly when its two marks make it point one way
(an arrowhead against a tail or a circle). -/
theorem C226_equal (a b : Fin n) (x y : Mark) (hab : a ≠ b) :
    edgeEq (mkEdge a b x y) (mkEdge b a y x) = true ↔
      (x = .arrow ∧ (y = .tail ∨ y = .circle)) ∨ (y = .arrow ∧ (x = .tail ∨ x = .circle)) := by
  have hba : b ≠ a := fun h => hab h.symm
  unfold mkEdge edgeEq
  cases x <;> cases y <;> simp [pointingLeft, hab, hba]

/-- Violated: two edge objects that say the same are equal.  The undirected, the bidirected and the nondirected edge between
two nodes are not equal to themselves written from the other end. -/
theorem C226_equal_violated (a b : Fin n) (hab : a ≠ b) (x : Mark) :
    HasMarks (mkEdge a b x x) a x b x ∧ HasMarks (mkEdge b a x x) a x b x ∧
    edgeEq (mkEdge a b x x) (mkEdge b a x x) = false := by
  have hba : b ≠ a := fun h => hab h.symm
  unfold mkEdge edgeEq HasMarks
  cases x <;> simp [pointingLeft, hab]

/-- Violated: `<` orders edges.  Each of the directed edges `0 → 3` and `1 → 2` is smaller than the other. -/
theorem C226_order_violated :
    edgeLt (directedEdge (0 : Fin 4) 3) (directedEdge 1 2) = true ∧
    edgeLt (directedEdge (1 : Fin 4) 2) (directedEdge 0 3) = true := by decide

/-- A concrete case: `1 ← 0` is stored as `0 → 1`, points toward `1` and can be followed from `0` but not from `1`. -/
example : mkEdge (1 : Fin 2) 0 .arrow .tail = directedEdge 0 1 ∧
    (mkEdge (1 : Fin 2) 0 .arrow .tail).pointsToward 1 = true ∧
    traverseDirected 0 (mkEdge (1 : Fin 2) 0 .arrow .tail) = some 1 ∧
    traverseDirected 1 (mkEdge (1 : Fin 2) 0 .arrow .tail) = none := by decide

end CL
