import Verif.Model.DagMore
import Verif.Props.DagClass
import Verif.Props.NamedGraph

/-!
# C214: more methods of `Dag`
-/
namespace CL.DagC
open Relation
variable {n : Nat}

/-- **C214.** After any history of calls, `get_nodes_into` gives the nodes that are joined to `v` by an edge with the given mark at `v`, and `get_nodes_out_of` those with the given mark
at the other end, in the order of the node list; for other endpoints than arrow and tail nothing. -/
theorem C214_nodes_into_out_of (h : List (Op n)) (hl : NoLoops h) (v : Fin n) :
    (∀ a, (a ∈ nodesInto (run h) v .arrow ↔ HasEdge h a v) ∧ (a ∈ nodesInto (run h) v .tail ↔ HasEdge h v a) ∧
      (a ∈ nodesOutOf (run h) v .arrow ↔ HasEdge h v a) ∧ (a ∈ nodesOutOf (run h) v .tail ↔ HasEdge h a v)) ∧
    (∀ m, (nodesInto (run h) v m).Pairwise (· < ·) ∧ (nodesOutOf (run h) v m).Pairwise (· < ·)) ∧
    ∀ m, m ≠ .arrow → m ≠ .tail → nodesInto (run h) v m = [] ∧ nodesOutOf (run h) v m = [] := by
  have H := run_holds h hl
  have hsort : ∀ p : Fin n → Bool, ((List.finRange n).filter p).Pairwise (· < ·) := fun p => (List.pairwise_lt_finRange n).filter p
  refine ⟨fun a => ?_, fun m => ?_, fun m h1 h2 => ?_⟩
  · simp only [nodesInto, nodesOutOf, List.mem_filter, List.mem_finRange, true_and, beq_iff_eq, ne_eq, not_true_eq_false, false_and, if_false, if_true, and_false, reduceCtorEq,
      not_false_eq_true, and_true]
    exact ⟨(H a v).1, (H v a).1, (H v a).1, (H a v).1⟩
  · unfold nodesInto nodesOutOf
    constructor <;> · split
                      · exact List.Pairwise.nil
                      · split <;> exact hsort _
  · unfold nodesInto nodesOutOf
    rw [if_pos ⟨h1, h2⟩, if_pos ⟨h1, h2⟩]
    exact ⟨rfl, rfl⟩

/-- **C214.** When edges are added so that no edge is added below one that is there (see C106), `is_descendant_of(x, y)` holds exactly if there is a directed path from `y` to `x`, and
`is_proper_descendant_of` asks in addition that the nodes are different. -/
theorem C214_descendants_partial (es : List (Fin n × Fin n)) (hne : ∀ e ∈ es, e.1 ≠ e.2) (hord : es.Pairwise fun earlier later => earlier.1 ≠ later.2) (x y : Fin n) :
    (isDescendantOf (run (addAll es)) x y = true ↔ ReflTransGen (HasEdge (addAll es)) y x) ∧
    (isProperDescendantOf (run (addAll es)) x y = true ↔ ReflTransGen (HasEdge (addAll es)) y x ∧ x ≠ y) := by
  have h := (C106_is_ancestor_of_partial es hne hord y x).1
  have e : isDescendantOf (run (addAll es)) x y = isAncestorOf (run (addAll es)) y x := rfl
  refine ⟨by rw [e, h], ?_⟩
  unfold isProperDescendantOf
  rw [e, Bool.and_eq_true, h, bne_iff_ne]

/-- Otherwise descendants are missed: `3` is a descendant of `0` here. -/
theorem C214_descendants_violated : ReflTransGen (HasEdge (n := 4) (addAll [(0, 1), (2, 3), (1, 2)])) 0 3 ∧
    isDescendantOf (run (n := 4) (addAll [(0, 1), (2, 3), (1, 2)])) 3 0 = false :=
  C106_is_ancestor_of_violated.1

section
variable {α : Type} [LinearOrder α]

/-- **C214 (partial).** Two Dags over the same node list, sorted by name, compare equal exactly if they have the same edges, and are not changed by that. -/
theorem C214_equality_partial (G H : NG α) (hG : G.Aligned) (hH : H.Aligned) (hn : G.nodes = H.nodes) (hs : G.nodes.Pairwise (· ≤ ·)) :
    ((eq G H).1 = true ↔ G.SameGraph H) ∧ (eq G H).2 = (G, H) := C08_eq_same_sorted_partial G H hG hH hn hs

/-- **C214 (violated).** `A -> B` and `C -> D` compare equal; the same Dag with its nodes in another order compares unequal; and a Dag whose nodes are not sorted by name reports wrong
parents after a comparison with itself. -/
theorem C214_equality_violated :
    (eq ((NG.mk' [0, 1]).putEdge 0 1 .tail .arrow) ((NG.mk' [7, 9]).putEdge 7 9 .tail .arrow)).1 = true ∧
    (eq ((NG.mk' [0, 1]).putEdge 0 1 .tail .arrow) ((NG.mk' [1, 0]).putEdge 0 1 .tail .arrow)).1 = false ∧
    namedParents ((NG.mk' [1, 0, 2]).putEdge 1 2 .tail .arrow) 2 = [1] ∧
    namedParents (eq ((NG.mk' [1, 0, 2]).putEdge 1 2 .tail .arrow) (NG.mk' [1, 0, 2])).2.1 2 = [0] := by
  refine ⟨by decide, by decide, by decide, ?_⟩
  simp [eq, NG.sortNodes, List.mergeSort, List.MergeSort.Internal.splitInTwo, NG.mk', NG.putEdge, namedParents, buildMap, List.range, List.range.loop]

/-- **C214 (violated).** `set_nodes` with a list of the right length is accepted, but the new names stay unknown and the old ones known: a node is found by the
methods exactly if it was before. -/
theorem C214_set_nodes_violated (G : NG α) (hG : G.Aligned) (nodes : List α) :
    (setNodes G nodes = none ↔ nodes.length ≠ G.nodes.length) ∧
    ∀ G', setNodes G nodes = some G' → G'.nodes = nodes ∧ (∀ a b, G'.markAt a b = G.markAt a b) ∧ ∀ a, a ∈ nodes → a ∉ G.nodes → G'.map a = none := by
  unfold setNodes
  rw [← hG.num]
  constructor
  · split <;> simp_all
  · intro G' h
    split at h
    · cases h
    · obtain rfl := Option.some.inj h
      refine ⟨rfl, fun a b => rfl, fun a _ ha => ?_⟩
      cases e : G.map a with
      | none => rfl
      | some i => exact absurd (List.mem_of_getElem? ((hG.map a i).1 e)) ha

end

end CL.DagC
