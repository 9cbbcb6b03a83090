import Verif.Model.GraphGrow
import Verif.Proofs.GraphBasic
import Verif.Props.GraphAncestor
import Mathlib.Tactic

/-!
# C208: a graph may be grown node by node
-/
namespace CL
open GG
variable {n : Nat}

/-- extended matrix: `d` in the new row and column, `z` in the corner -/
def ext {α : Type} (d z : α) (m : Fin n → Fin n → α) : Fin (n + 1) → Fin (n + 1) → α :=
  fun a b => if h : a.val < n ∧ b.val < n then m ⟨a, h.1⟩ ⟨b, h.2⟩ else if a = b then z else d

@[simp] theorem ext_cc {α : Type} (d z : α) (m : Fin n → Fin n → α) (a b : Fin n) : ext d z m a.castSucc b.castSucc = m a b := by
  unfold ext; simp
@[simp] theorem ext_lc {α : Type} (d z : α) (m : Fin n → Fin n → α) (b : Fin n) : ext d z m (Fin.last n) b.castSucc = d := by
  unfold ext; simp [(Fin.castSucc_lt_last b).ne']
@[simp] theorem ext_cl {α : Type} (d z : α) (m : Fin n → Fin n → α) (a : Fin n) : ext d z m a.castSucc (Fin.last n) = d := by
  unfold ext; simp [(Fin.castSucc_lt_last a).ne]
@[simp] theorem ext_ll {α : Type} (d z : α) (m : Fin n → Fin n → α) : ext d z m (Fin.last n) (Fin.last n) = z := by
  unfold ext; simp

theorem ext_funext {α : Type} {f g : Fin (n + 1) → Fin (n + 1) → α} (cc : ∀ a b : Fin n, f a.castSucc b.castSucc = g a.castSucc b.castSucc)
    (lc : ∀ b : Fin n, f (Fin.last n) b.castSucc = g (Fin.last n) b.castSucc) (cl : ∀ a : Fin n, f a.castSucc (Fin.last n) = g a.castSucc (Fin.last n))
    (ll : f (Fin.last n) (Fin.last n) = g (Fin.last n) (Fin.last n)) : f = g := by
  funext a b
  cases a using Fin.lastCases with
  | last => cases b using Fin.lastCases with
    | last => exact ll
    | cast b => exact lc b
  | cast a => cases b using Fin.lastCases with
    | last => exact cl a
    | cast b => exact cc a b

theorem cne (a : Fin n) : a.castSucc ≠ Fin.last n := (Fin.castSucc_lt_last a).ne
theorem lne (a : Fin n) : Fin.last n ≠ a.castSucc := (Fin.castSucc_lt_last a).ne'

theorem upd_ext {α : Type} (d z v : α) (m : Fin n → Fin n → α) (i j : Fin n) : upd (ext d z m) i.castSucc j.castSucc v = ext d z (upd m i j v) := by
  apply ext_funext <;> intros <;> simp [upd, cne, lne]

/-- the object after `add_node` -/
def up (G : GG n) : GG (n + 1) := ⟨ext .null .null G.g, ext false true G.dp⟩

theorem addNode_eq (G : GG n) : G.addNode = up G := by
  unfold addNode up
  have h1 : (GG.adjustDpath ⟨extend .null G.g, extend false G.dp⟩ (Fin.last n) (Fin.last n)).g = extend .null G.g := rfl
  have h2 : (GG.adjustDpath ⟨extend .null G.g, extend false G.dp⟩ (Fin.last n) (Fin.last n)).dp = upd (extend false G.dp) (Fin.last n) (Fin.last n) true :=
    adjust_self_dp _ _
  have key : ∀ H K : GG (n + 1), H.g = K.g → H.dp = K.dp → H = K := by
    rintro ⟨a, b⟩ ⟨c, d⟩ h1 h2
    simp only at h1 h2
    rw [h1, h2]
  apply key
  · rw [h1]
    apply ext_funext <;> intros <;> simp [extend, ext]
  · rw [h2]
    apply ext_funext <;> intros <;> simp [extend, upd, cne, lne]

@[simp] theorem up_g (G : GG n) (a b : Fin n) : (up G).g a.castSucc b.castSucc = G.g a b := ext_cc _ _ _ _ _

theorem setG_up (G : GG n) (i j : Fin n) (v : Mark) : (up G).setG i.castSucc j.castSucc v = up (G.setG i j v) := by
  unfold setG up
  simp only [upd_ext]

theorem adjustStep_ext (dp : Fin n → Fin n → Bool) (i j k : Fin n) :
    adjustStep i.castSucc j.castSucc (ext false true dp) k.castSucc = ext false true (adjustStep i j dp k) := by
  unfold adjustStep
  simp only [ext_cc, upd_ext]
  split <;> simp only [ext_cc, upd_ext] <;> split <;> rfl

theorem adjustStep_last (dp : Fin n → Fin n → Bool) (i j : Fin n) :
    adjustStep i.castSucc j.castSucc (ext false true dp) (Fin.last n) = ext false true dp := by
  unfold adjustStep
  simp

theorem finRange_last (n : Nat) : List.finRange (n + 1) = (List.finRange n).map Fin.castSucc ++ [Fin.last n] := List.finRange_succ_last

theorem adjust_up (G : GG n) (i j : Fin n) : (up G).adjustDpath i.castSucc j.castSucc = up (G.adjustDpath i j) := by
  unfold adjustDpath up
  congr 1
  show List.foldl _ (upd (ext false true G.dp) j.castSucc i.castSucc true) _ = _
  rw [finRange_last, List.foldl_append, upd_ext]
  have : ∀ (l : List (Fin n)) (dp : Fin n → Fin n → Bool), (l.map Fin.castSucc).foldl (adjustStep i.castSucc j.castSucc) (ext false true dp) =
      ext false true (l.foldl (adjustStep i j) dp) := by
    intro l
    induction l with
    | nil => intro dp; rfl
    | cons k l ih => intro dp; rw [List.map_cons, List.foldl_cons, adjustStep_ext, ih]; rfl
  rw [this, List.foldl_cons, List.foldl_nil, adjustStep_last]

/-- an edge object between the same nodes of the larger graph -/
def Edge.lift (e : Edge n) : Edge (n + 1) := ⟨e.node1.castSucc, e.node2.castSucc, e.end1, e.end2, e.num1, e.num2⟩

theorem mkEdge_lift (a b : Fin n) (m1 m2 : Mark) : mkEdge a.castSucc b.castSucc m1 m2 = (mkEdge a b m1 m2).lift := by
  unfold mkEdge Edge.lift
  split <;> rfl

theorem addEdge_up (G : GG n) (e : Edge n) : ((up G).addEdge e.lift).2 = up (G.addEdge e).2 := by
  unfold GG.addEdge Edge.lift
  simp only [up_g]
  repeat' split
  all_goals first
    | rfl
    | (simp only [setG_up, adjust_up, up_g] at * <;> first | rfl | (exfalso; simp_all; done) | simp_all)

theorem directed_up (G : GG n) (a b : Fin n) : (up G).addDirectedEdge a.castSucc b.castSucc = up (G.addDirectedEdge a b) := by
  unfold GG.addDirectedEdge
  rw [setG_up, setG_up, adjust_up]

theorem conn_up (G : GG n) (a b : Fin n) : (up G).removeConnectingEdge a.castSucc b.castSucc = up (G.removeConnectingEdge a b) := by
  unfold GG.removeConnectingEdge
  rw [setG_up, setG_up]

theorem isParentOf_up (G : GG n) (a b : Fin n) : (up G).isParentOf a.castSucc b.castSucc = G.isParentOf a b := by
  unfold GG.isParentOf
  simp only [up_g]

theorem getEdge_up (G : GG n) (a b : Fin n) : (up G).getEdge a.castSucc b.castSucc = (G.getEdge a b).map Edge.lift := by
  unfold GG.getEdge
  simp only [up_g, mkEdge_lift]
  split <;> rfl

theorem pairEdges_up (G : GG n) (a b : Fin n) : (up G).pairEdges a.castSucc b.castSucc = (G.pairEdges a b).map Edge.lift := by
  unfold GG.pairEdges
  simp only [up_g, mkEdge_lift, getEdge_up]
  repeat' split
  all_goals first | rfl | (cases G.getEdge a b <;> rfl)

theorem pairEdges_last (G : GG n) (a : Fin n) : (up G).pairEdges a.castSucc (Fin.last n) = [] := by
  unfold GG.pairEdges up
  simp

theorem rangeFrom_cast (i : Fin n) : rangeFrom i.castSucc = (rangeFrom i).map Fin.castSucc ++ [Fin.last n] := by
  unfold rangeFrom
  rw [finRange_last, List.filter_append, List.filter_map]
  congr 1
  simp [Fin.castSucc_lt_last]

theorem rangeFrom_last : rangeFrom (Fin.last n) = [] := by
  unfold rangeFrom
  rw [List.filter_eq_nil_iff]
  intro a _
  simp [Fin.le_last]

theorem flat_up {α : Type} (f : Fin n → Fin n → List (Edge n)) (f' : Fin (n + 1) → Fin (n + 1) → List (Edge (n + 1)))
    (h : ∀ a b, f' a.castSucc b.castSucc = (f a b).map Edge.lift) (hl : ∀ a : Fin n, f' a.castSucc (Fin.last n) = []) :
    ((List.finRange (n + 1)).flatMap fun i => (rangeFrom i).flatMap fun j => f' i j) =
      ((List.finRange n).flatMap fun i => (rangeFrom i).flatMap fun j => f i j).map Edge.lift := by
  rw [finRange_last, List.flatMap_append, List.flatMap_map]
  simp only [List.flatMap_cons, List.flatMap_nil, rangeFrom_last, List.append_nil, rangeFrom_cast, List.flatMap_append, List.flatMap_map, h, hl, List.map_flatMap]

theorem graphEdges_up (G : GG n) : (up G).graphEdges = G.graphEdges.map Edge.lift :=
  flat_up (α := Unit) _ _ (pairEdges_up G) (pairEdges_last G)

theorem recon_up (G : GG n) (es : List (Edge n)) : (up G).reconstituteDpath (es.map Edge.lift) = up (G.reconstituteDpath es) := by
  unfold GG.reconstituteDpath
  have h1 : (List.finRange (n + 1)).foldl (fun (H : GG (n + 1)) i => H.adjustDpath i i) { up G with dp := fun _ _ => false } =
      up ((List.finRange n).foldl (fun H i => H.adjustDpath i i) { G with dp := fun _ _ => false }) := by
    have e1 := fold_adjust_self (List.finRange (n + 1)) { up G with dp := fun _ _ => false }
    have e2 := fold_adjust_self (List.finRange n) { G with dp := fun _ _ => false }
    have g1 := foldl_adjust_g (List.finRange (n + 1)) { up G with dp := fun _ _ => false }
    have g2 := foldl_adjust_g (List.finRange n) { G with dp := fun _ _ => false }
    revert e1 g1 e2 g2
    generalize (List.finRange (n + 1)).foldl (fun (H : GG (n + 1)) i => H.adjustDpath i i) { up G with dp := fun _ _ => false } = A
    generalize (List.finRange n).foldl (fun (H : GG n) i => H.adjustDpath i i) { G with dp := fun _ _ => false } = C
    intro e1 e2 g1 g2
    obtain ⟨Ag, Ad⟩ := A
    obtain ⟨Cg, Cd⟩ := C
    simp only at e1 e2 g1 g2
    subst g1 g2
    unfold up
    congr 1
    apply ext_funext <;> intros <;> simp [e1, e2, cne, lne]
  simp only [h1]
  rw [← List.map_reverse, List.foldl_map]
  have : ∀ (l : List (Edge n)) (H : GG n), l.foldl (fun (K : GG (n + 1)) (e : Edge n) =>
      if K.isParentOf e.lift.node1 e.lift.node2 then K.adjustDpath e.lift.node1 e.lift.node2
      else if K.isParentOf e.lift.node2 e.lift.node1 then K.adjustDpath e.lift.node2 e.lift.node1 else K) (up H) =
      up (l.foldl (fun H e => if H.isParentOf e.node1 e.node2 then H.adjustDpath e.node1 e.node2
        else if H.isParentOf e.node2 e.node1 then H.adjustDpath e.node2 e.node1 else H) H) := by
    intro l
    induction l with
    | nil => intro H; rfl
    | cons e l ih =>
      intro H
      rw [List.foldl_cons, List.foldl_cons, ← ih]
      congr 1
      unfold Edge.lift
      simp only [isParentOf_up, adjust_up]
      split
      · rfl
      · split <;> rfl
  exact this _ _

theorem removeEdge_up (G : GG n) (e : Edge n) : (up G).removeEdge e.lift = up (G.removeEdge e) := by
  have key : ∀ (b : Bool) (A : GG (n + 1)) (C : GG n), A = up C → (if b then A.reconstituteDpath A.graphEdges else A) = up (if b then C.reconstituteDpath C.graphEdges else C) := by
    rintro b A C rfl
    cases b
    · rfl
    · simp only [if_true, graphEdges_up, recon_up]
  unfold GG.removeEdge
  simp only [Edge.lift, up_g, isParentOf_up]
  refine key _ _ _ ?_
  simp only [setG_up]
  repeat' split
  all_goals rfl

/-- the same call on the larger graph -/
def Op.lift : Op n → Op (n + 1)
  | .addEdge a b m1 m2 => .addEdge a.castSucc b.castSucc m1 m2
  | .addDirectedEdge a b => .addDirectedEdge a.castSucc b.castSucc
  | .removeEdge a b m1 m2 => .removeEdge a.castSucc b.castSucc m1 m2
  | .removeConnectingEdge a b => .removeConnectingEdge a.castSucc b.castSucc

theorem apply_up (G : GG n) (o : Op n) : Op.apply (up G) o.lift = up (Op.apply G o) := by
  cases o with
  | addEdge a b m1 m2 => simp only [Op.apply, Op.lift, mkEdge_lift, addEdge_up]
  | addDirectedEdge a b => exact directed_up G a b
  | removeEdge a b m1 m2 => simp only [Op.apply, Op.lift, mkEdge_lift, removeEdge_up]
  | removeConnectingEdge a b => exact conn_up G a b

namespace DagC

theorem addEdge_up (G : GG n) (e : Edge n) : (addEdge (up G) e.lift).2 = up (addEdge G e).2 := by
  unfold addEdge
  by_cases h : e.end1 = .tail ∧ e.end2 = .arrow
  · have hl : e.lift.end1 = .tail ∧ e.lift.end2 = .arrow := h
    rw [if_pos h, if_pos hl]
    simp only [Edge.lift, setG_up, adjust_up]
  · have hl : ¬ (e.lift.end1 = .tail ∧ e.lift.end2 = .arrow) := h
    rw [if_neg h, if_neg hl]

theorem getEdge_up (G : GG n) (a b : Fin n) : getEdge (up G) a.castSucc b.castSucc = (getEdge G a b).map Edge.lift := by
  unfold getEdge
  simp only [up_g, mkEdge_lift]
  split <;> rfl

theorem graphEdges_up (G : GG n) : graphEdges (up G) = (graphEdges G).map Edge.lift := by
  refine flat_up (α := Unit) _ _ (fun a b => ?_) (fun a => ?_)
  · simp only [up_g, getEdge_up]
    split
    · cases getEdge G a b <;> rfl
    · rfl
  · simp [up]

theorem recon_up (G : GG n) (es : List (Edge n)) : reconstituteDpath (up G) (es.map Edge.lift) = up (reconstituteDpath G es) := by
  unfold reconstituteDpath
  have h1 : (List.finRange (n + 1)).foldl (fun (H : GG (n + 1)) i => H.adjustDpath i i) (up G) =
      up ((List.finRange n).foldl (fun H i => H.adjustDpath i i) G) := by
    have e1 := fold_adjust_self (List.finRange (n + 1)) (up G)
    have e2 := fold_adjust_self (List.finRange n) G
    have g1 := foldl_adjust_g (List.finRange (n + 1)) (up G)
    have g2 := foldl_adjust_g (List.finRange n) G
    revert e1 g1 e2 g2
    generalize (List.finRange (n + 1)).foldl (fun (H : GG (n + 1)) i => H.adjustDpath i i) (up G) = A
    generalize (List.finRange n).foldl (fun (H : GG n) i => H.adjustDpath i i) G = C
    intro e1 e2 g1 g2
    obtain ⟨Ag, Ad⟩ := A
    obtain ⟨Cg, Cd⟩ := C
    simp only at e1 e2 g1 g2
    subst g1 g2
    unfold up
    congr 1
    apply ext_funext <;> intros <;> simp [e1, e2, cne, lne, up]
  rw [h1, ← List.map_reverse, List.foldl_map]
  have : ∀ (l : List (Edge n)) (H : GG n), l.foldl (fun (K : GG (n + 1)) (e : Edge n) => K.adjustDpath e.lift.node1 e.lift.node2) (up H) =
      up (l.foldl (fun H e => H.adjustDpath e.node1 e.node2) H) := by
    intro l
    induction l with
    | nil => intro H; rfl
    | cons e l ih =>
      intro H
      rw [List.foldl_cons, List.foldl_cons, ← ih]
      congr 1
      exact adjust_up H e.node1 e.node2
  exact this _ _

theorem apply_up (G : GG n) (o : Op n) : apply (up G) o.lift = up (apply G o) := by
  cases o with
  | addEdge a b m1 m2 => simp only [apply, Op.lift, mkEdge_lift, addEdge_up]
  | addDirectedEdge a b =>
    simp only [apply, Op.lift, addDirectedEdge]
    rw [setG_up, setG_up, adjust_up]
  | removeEdge a b m1 m2 =>
    simp only [apply, Op.lift, mkEdge_lift]
    unfold removeEdge
    simp only [Edge.lift, setG_up, graphEdges_up, recon_up]
  | removeConnectingEdge a b =>
    simp only [apply, Op.lift, removeConnectingEdge]
    rw [setG_up, setG_up]

theorem empty_up : empty (n + 1) = up (empty n) := by
  unfold empty
  rw [← recon_up]
  unfold reconstituteDpath
  have e1 := fold_adjust_self (List.finRange (n + 1)) ⟨fun _ _ => .null, fun _ _ => false⟩
  have e2 := fold_adjust_self (List.finRange (n + 1)) (up (n := n) ⟨fun _ _ => .null, fun _ _ => false⟩)
  have g1 := foldl_adjust_g (List.finRange (n + 1)) ⟨fun _ _ => .null, fun _ _ => false⟩
  have g2 := foldl_adjust_g (List.finRange (n + 1)) (up (n := n) ⟨fun _ _ => .null, fun _ _ => false⟩)
  simp only [List.map_nil, List.reverse_nil, List.foldl_nil]
  revert e1 g1 e2 g2
  generalize (List.finRange (n + 1)).foldl (fun (H : GG (n + 1)) i => H.adjustDpath i i) ⟨fun _ _ => .null, fun _ _ => false⟩ = A
  generalize (List.finRange (n + 1)).foldl (fun (H : GG (n + 1)) i => H.adjustDpath i i) (up (n := n) ⟨fun _ _ => .null, fun _ _ => false⟩) = C
  intro e1 e2 g1 g2
  obtain ⟨Ag, Ad⟩ := A
  obtain ⟨Cg, Cd⟩ := C
  simp only at e1 e2 g1 g2
  subst g1 g2
  congr 1
  · apply ext_funext <;> intros <;> simp [up]
  · apply ext_funext <;> intros <;> simp [e1, e2, cne, lne, up]
end DagC

theorem empty_up : GG.empty (n + 1) = up (GG.empty n) := by
  unfold GG.empty
  rw [← recon_up]
  have : up (n := n) ⟨fun _ _ => .null, fun _ _ => false⟩ = ⟨fun _ _ => .null, ext false true fun _ _ => false⟩ := by
    unfold up
    congr 1
    apply ext_funext <;> intros <;> simp
  rw [this]
  rfl

/-! ## C208 -/

/-- number of nodes added by a history -/
def nodesOf (h : List GrowCall) : Nat := (h.filter fun | .addNode => true | .edge .. => false).length

/-- The edge calls of a history that name nodes which were there at the time (`m` nodes at the beginning). -/
def edgeCalls : Nat → List GrowCall → List (Nat × Nat × EdgeCall)
  | _, [] => []
  | m, .addNode :: h => edgeCalls (m + 1) h
  | m, .edge a b k :: h => if a < m ∧ b < m then (a, b, k) :: edgeCalls m h else edgeCalls m h

/-- The same calls on a graph that has `N` nodes from the start. -/
def onNodes (N : Nat) (cs : List (Nat × Nat × EdgeCall)) : List (Op N) :=
  cs.filterMap fun c => if h : c.1 < N ∧ c.2.1 < N then some (c.2.2.op ⟨c.1, h.1⟩ ⟨c.2.1, h.2⟩) else none

theorem op_lift (a b : Fin n) (k : EdgeCall) : (k.op a b).lift = k.op a.castSucc b.castSucc := by cases k <;> rfl

theorem onNodes_succ (N : Nat) (cs : List (Nat × Nat × EdgeCall)) (h : ∀ c ∈ cs, c.1 < N ∧ c.2.1 < N) : onNodes (N + 1) cs = (onNodes N cs).map Op.lift := by
  induction cs with
  | nil => rfl
  | cons c cs ih =>
    obtain ⟨h1, h2⟩ := h c (by simp)
    have e1 : onNodes (N + 1) (c :: cs) = c.2.2.op ⟨c.1, by omega⟩ ⟨c.2.1, by omega⟩ :: onNodes (N + 1) cs := by
      unfold onNodes
      rw [List.filterMap_cons, dif_pos ⟨by omega, by omega⟩]
    have e2 : onNodes N (c :: cs) = c.2.2.op ⟨c.1, h1⟩ ⟨c.2.1, h2⟩ :: onNodes N cs := by
      unfold onNodes
      rw [List.filterMap_cons, dif_pos ⟨h1, h2⟩]
    rw [e1, e2, List.map_cons, op_lift, ih fun x hx => h x (by simp [hx])]
    rfl

theorem grow_gen (ap : ∀ n, GG n → Op n → GG n) (hup : ∀ n (G : GG n) (o : Op n), ap (n + 1) (up G) o.lift = up (ap n G o)) (init : ∀ n, GG n)
    (h0 : ∀ n, init (n + 1) = up (init n)) : ∀ (h : List GrowCall) (n : Nat) (cs : List (Nat × Nat × EdgeCall)), (∀ c ∈ cs, c.1 < n ∧ c.2.1 < n) →
      h.foldl (growStep ap) ⟨n, (onNodes n cs).foldl (ap n) (init n)⟩ =
        ⟨n + nodesOf h, (onNodes (n + nodesOf h) (cs ++ edgeCalls n h)).foldl (ap (n + nodesOf h)) (init (n + nodesOf h))⟩ := by
  intro h
  induction h with
  | nil => intro n cs _; simp [nodesOf, edgeCalls]
  | cons c h ih =>
    intro n cs hcs
    rw [List.foldl_cons]
    cases c with
    | addNode =>
      have e : growStep ap ⟨n, (onNodes n cs).foldl (ap n) (init n)⟩ .addNode = ⟨n + 1, (onNodes (n + 1) cs).foldl (ap (n + 1)) (init (n + 1))⟩ := by
        unfold growStep
        simp only [addNode_eq]
        congr 1
        rw [onNodes_succ n cs hcs, h0]
        generalize init n = G
        generalize onNodes n cs = l
        induction l generalizing G with
        | nil => rfl
        | cons o l ih => rw [List.map_cons, List.foldl_cons, List.foldl_cons, hup, ← ih]
      rw [e, ih (n + 1) cs fun c hc => ⟨by have := hcs c hc; omega, by have := hcs c hc; omega⟩]
      have e2 : n + 1 + nodesOf h = n + nodesOf (.addNode :: h) := by simp [nodesOf]; omega
      rw [e2]
      rfl
    | edge a b k =>
      have e2 : nodesOf (.edge a b k :: h) = nodesOf h := by simp [nodesOf]
      rw [e2]
      have es : ∀ G : GG n, growStep ap ⟨n, G⟩ (.edge a b k) = if h : a < n ∧ b < n then ⟨n, ap n G (k.op ⟨a, h.1⟩ ⟨b, h.2⟩)⟩ else ⟨n, G⟩ := fun _ => rfl
      rw [es]
      simp only [edgeCalls]
      by_cases hab : a < n ∧ b < n
      · rw [dif_pos hab, if_pos hab]
        have e3 : (onNodes n (cs ++ [(a, b, k)])).foldl (ap n) (init n) = ap n ((onNodes n cs).foldl (ap n) (init n)) (k.op ⟨a, hab.1⟩ ⟨b, hab.2⟩) := by
          unfold onNodes
          rw [List.filterMap_append, List.foldl_append]
          simp [hab]
        have := ih n (cs ++ [(a, b, k)]) (by
          intro c hc
          rcases List.mem_append.1 hc with hc | hc
          · exact hcs c hc
          · rw [List.mem_singleton] at hc; subst hc; exact hab)
        rw [e3] at this
        rw [this]
        simp
      · rw [dif_neg hab, if_neg hab]
        exact ih n cs hcs

/-- **C208** (`GeneralGraph`): a graph built by any history of `add_node` and of the four edge mutators is the same — marks and ancestor matrix — as the graph created with
all its nodes from the start on which the same edge calls are made (those that do not raise). So everything proved about histories of edge calls holds for graphs that grow. -/
theorem C208_general_graph (h : List GrowCall) : growGraph h = ⟨nodesOf h, run (onNodes (nodesOf h) (edgeCalls 0 h))⟩ := by
  have := grow_gen (fun _ => Op.apply) (fun _ => apply_up) GG.empty (fun _ => empty_up) h 0 [] (by simp)
  unfold growGraph
  rw [Nat.zero_add] at this
  exact this

/-- **C208** (`Dag`). -/
theorem C208_dag (h : List GrowCall) : growDag h = ⟨nodesOf h, DagC.run (onNodes (nodesOf h) (edgeCalls 0 h))⟩ := by
  have := grow_gen (fun _ => DagC.apply) (fun _ => DagC.apply_up) DagC.empty (fun _ => DagC.empty_up) h 0 [] (by simp)
  unfold growDag
  rw [Nat.zero_add] at this
  exact this

/-- A history with a rejected call (node 2 does not exist yet), an edge added before the last node and one to it. -/
example : nodesOf [.addNode, .addNode, .edge 0 2 .addDirectedEdge, .edge 0 1 .addDirectedEdge, .addNode, .edge 1 2 .addDirectedEdge] = 3 ∧
    edgeCalls 0 [.addNode, .addNode, .edge 0 2 .addDirectedEdge, .edge 0 1 .addDirectedEdge, .addNode, .edge 1 2 .addDirectedEdge] =
      [(0, 1, .addDirectedEdge), (1, 2, .addDirectedEdge)] := ⟨rfl, rfl⟩

/-- What the four kinds of calls do to a graph that has just grown two nodes. -/
theorem C208_example :
    (∃ G : GG 2, growGraph [.addNode, .addNode, .edge 0 1 .addDirectedEdge] = ⟨2, G⟩ ∧ G.g 0 1 = .tail ∧ G.g 1 0 = .arrow) ∧
    (∃ G : GG 2, growGraph [.addNode, .addNode, .edge 0 1 .addDirectedEdge, .edge 0 1 .removeConnectingEdge] = ⟨2, G⟩ ∧
      G.g 0 1 = .null ∧ G.g 1 0 = .null) ∧
    (∃ G : GG 2, growGraph [.addNode, .addNode, .edge 0 1 (.addEdge .circle .arrow)] = ⟨2, G⟩ ∧ G.g 0 1 = .circle ∧ G.g 1 0 = .arrow) ∧
    (∃ G : GG 2, growGraph [.addNode, .addNode, .edge 0 1 .addDirectedEdge, .edge 0 1 (.removeEdge .tail .arrow)] = ⟨2, G⟩ ∧
      G.g 0 1 = .null ∧ G.g 1 0 = .null) ∧
    (∃ G : GG 2, growGraph [.addNode, .addNode, .edge 0 1 .addDirectedEdge, .edge 0 1 (.removeEdge .arrow .tail)] = ⟨2, G⟩ ∧
      G.g 0 1 = .tail ∧ G.g 1 0 = .arrow) :=
  ⟨⟨_, rfl, by decide, by decide⟩, ⟨_, rfl, by decide, by decide⟩, ⟨_, rfl, by decide, by decide⟩, ⟨_, rfl, by decide, by decide⟩,
    ⟨_, rfl, by decide, by decide⟩⟩

end CL
