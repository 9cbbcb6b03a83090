import Verif.Model.GraphUtils

/-!
# `GraphUtils.get_sepset`: model of `utils/GraphUtils.py:146-257`

Nodes are the positions `0 … n-1` of the graph. The `path` list of the code is pushed on entry of `sepset_path_found` and the
same node is removed on every way out (lines 190, 193, 206, 221, 226), so it is a plain argument here (most recent node first);
the list `z` is threaded, because the code mutates it. The `colliders` lists are only ever written, never read, and are left out.
`none` = a search still running when its fuel is gone.
-/
namespace CL
namespace GG
variable {n : Nat}

/-- `GraphUtils.py:242-257` `node_reachable`. -/
def nodeReachable (G : GG n) (a b c : Fin n) (z : List (Fin n)) (afuel : Nat) : Option Bool :=
  if !G.isDefCollider a b c && decide (b ∉ z) then some true
  else (G.isAncestorOfSet b z afuel).map fun anc => G.isDefCollider a b c && anc

/-- `GraphUtils.py:233-238`: the `for c in …` loop of `get_pass_nodes`. -/
def passLoop (G : GG n) (a b : Fin n) (z : List (Fin n)) (afuel : Nat) : List (Fin n) → Option (List (Fin n))
  | [] => some []
  | c :: cs =>
    if c = a then passLoop G a b z afuel cs
    else (G.nodeReachable a b c z afuel).bind fun r =>
      (passLoop G a b z afuel cs).map fun ps => if r then c :: ps else ps

/-- `GraphUtils.py:229-240` `get_pass_nodes`. -/
def passNodes (G : GG n) (a b : Fin n) (z : List (Fin n)) (afuel : Nat) : Option (List (Fin n)) :=
  passLoop G a b z afuel (G.adjacentNodes b)

/-- `GraphUtils.py:188-191`, `200-203`, `215-218` and `164-166`: try the nodes in turn, stop at the first success; `z` is
threaded through the calls. -/
def anyPath (f : Fin n → List (Fin n) → Option (Bool × List (Fin n))) :
    List (Fin n) → List (Fin n) → Option (Bool × List (Fin n))
  | [], z => some (false, z)
  | c :: cs, z => (f c z).bind fun r => if r.1 then some r else anyPath f cs r.2

/-- `GraphUtils.py:185`: `b.get_node_type == NodeType.LATENT` compares the bound method, not its result, with the enum
member, so it is false for every node, latent or not. -/
def latentTest (_isLatent : Bool) : Bool := false

/-- `GraphUtils.py:175-227` `sepset_path_found`; `lat` is the node-type attribute of the nodes. Result: the boolean and the
new `z`. -/
def sepsetPathFound (G : GG n) (lat : Fin n → Bool) (y : Fin n) (afuel : Nat) :
    Nat → Fin n → Fin n → List (Fin n) → List (Fin n) → Option (Bool × List (Fin n))
  | 0, _, _, _, _ => none
  | f + 1, a, b, path, z =>
    if b = y then some (true, z)
    else if b ∈ path then some (false, z)
    else if latentTest (lat b) || decide (b ∈ z) then
      (G.passNodes a b z afuel).bind fun ps =>
        anyPath (fun c z' => sepsetPathFound G lat y afuel f b c (b :: path) z') ps z
    else
      (G.passNodes a b z afuel).bind fun ps =>
      (anyPath (fun c z' => sepsetPathFound G lat y afuel f b c (b :: path) z') ps z).bind fun r1 =>
      if r1.1 then
        (G.passNodes a b (r1.2 ++ [b]) afuel).bind fun ps2 =>
        (anyPath (fun c z' => sepsetPathFound G lat y afuel f b c (b :: path) z') ps2 (r1.2 ++ [b])).bind fun r2 =>
        if r2.1 then some (true, r2.2.erase b) else some (false, r2.2)
      else some (false, r1.2)

/-- `GraphUtils.py:159-173`: the `while` loop of `get_sepset_visit`. `some none` = the code returns `None`. Lines 168-170 sort
both lists by name before comparing; with distinct names that compares them up to order, which is all that is kept here, so
the order of the returned list is not modelled. -/
def sepsetLoop (G : GG n) (lat : Fin n → Bool) (x y : Fin n) (afuel pfuel : Nat) :
    Nat → List (Fin n) → Option (Option (List (Fin n)))
  | 0, _ => none
  | f + 1, z =>
    (anyPath (fun b z' => sepsetPathFound G lat y afuel pfuel x b [x] z') (G.adjacentNodes x) z).bind fun r =>
      if r.1 then some none
      else if r.2.isPerm z then some (some r.2)
      else sepsetLoop G lat x y afuel pfuel f r.2

/-- `GraphUtils.py:153-173` `get_sepset_visit`. -/
def sepsetVisit (G : GG n) (lat : Fin n → Bool) (x y : Fin n) (afuel pfuel fuel : Nat) : Option (Option (List (Fin n))) :=
  if x = y then some none else sepsetLoop G lat x y afuel pfuel fuel []

/-- `GraphUtils.py:146-151` `get_sepset`. -/
def getSepset (G : GG n) (lat : Fin n → Bool) (x y : Fin n) (afuel pfuel fuel : Nat) : Option (Option (List (Fin n))) :=
  (sepsetVisit G lat x y afuel pfuel fuel).bind fun r =>
    match r with
    | some z => some (some z)
    | none => sepsetVisit G lat y x afuel pfuel fuel

end GG
end CL
