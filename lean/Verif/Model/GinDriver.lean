import Verif.Model.GIN
import Verif.Model.Skeleton
import Verif.Model.NamedGraph
import Mathlib.Order.Lattice

/-!
# Model of `causallearn/search/HiddenCausal/GIN/GIN.py`: the two drivers `GIN` and `GIN_MI`

Variables are column numbers. The numerical routines (SVD residual, KCI / HSIC tests, Fisher's method) are oracles.
Python sets are duplicate-free lists; the order in which Python iterates over a set is the parameter `ord`, an arbitrary
function that permutes its argument (the theorems assume only that).
-/
namespace CL.GIN

/-- The numerical routines called by `GIN` (`GIN.py:16-19`, `50-56`, `220-224`): `resid X Z` is the vector
`cal_e_with_gin(data, cov, X, Z)`, `pval z e` the p-value of `indep_test(data[:, [z]], e)`, `geAlpha ps` is
`fisher_test(ps) >= alpha` and `ltAlpha ps` is `fisher_test(ps) < alpha` (two fields, because both are false on NaN). -/
structure Oracle (E P : Type) where
  resid : List Nat → List Nat → E
  pval : Nat → E → P
  geAlpha : List P → Bool
  ltAlpha : List P → Bool

variable {E P : Type}

/-- `GIN.py:66-68` and `97-99`: the p-values collected for the pair `(X, Z)`. The loop runs over `range(len(Z))` and uses
the loop index itself as the column of the data. -/
def pvals (O : Oracle E P) (X Z : List Nat) : List P := (List.range Z.length).map fun z => O.pval z (O.resid X Z)

/-- `GIN.py:62-71`: the `k`-subsets of `var_set` that pass the GIN test. -/
def accepted (O : Oracle E P) (ord : List Nat → List Nat) (vs : List Nat) (k : Nat) : List (List Nat) :=
  (combos vs k).filter fun c => O.geAlpha (pvals O c (ord (vs.filter fun v => decide (v ∉ c))))

/-- `GIN.py:72` `merge_overlaping_cluster` (`300-340`, `CL.GIN.mergeOverlapping`; by C48 this fuel suffices, so the default
is never used); the order inside a cluster is a set order. -/
def merged (ord : List Nat → List Nat) (cl : List (List Nat)) : List (List Nat) :=
  ((mergeOverlapping cl (2 * cl.length + 1)).getD []).map ord

/-- `GIN.py:74-75`: `var_set -= set(cluster)` for all new clusters. -/
def dropVars (vs : List Nat) (cl : List (List Nat)) : List Nat := vs.filter fun v => decide (v ∉ cl.flatten)

/-- `GIN.py:58-76`: the loop finding clusters; `none` means that the fuel was not sufficient. -/
def clusterLoop (O : Oracle E P) (ord : List Nat → List Nat) :
    Nat → Nat → List Nat → List (List Nat) → Option (List Nat × List (List Nat))
  | 0, k, vs, cs => if k < vs.length then none else some (vs, cs)
  | fuel + 1, k, vs, cs =>
    if k < vs.length then
      clusterLoop O ord fuel (k + 1) (dropVars vs (merged ord (accepted O ord vs k))) (cs ++ merged ord (accepted O ord vs k))
    else some (vs, cs)

/-- Consecutive slices of the given lengths. -/
def cut {α : Type} : List α → List Nat → List (List α)
  | _, [] => []
  | x, m :: ms => x.take m :: cut (x.drop m) ms

/-- `GIN.py:343-358` `array_split`. -/
def arraySplit {α : Type} (x : List α) (k : Nat) : List (List α) :=
  cut x (List.replicate (x.length % k) (x.length / k + 1) ++ List.replicate (k - x.length % k) (x.length / k))

/-- First part of `array_split(c, 2)`. -/
def half1 (c : List Nat) : List Nat := (arraySplit c 2).getD 0 []
/-- Second part of `array_split(c, 2)`. -/
def half2 (c : List Nat) : List Nat := (arraySplit c 2).getD 1 []

/-- `GIN.py:82-103`: `cluster_i` passes against `cluster_j`. -/
def passes (O : Oracle E P) (order : List (List Nat)) (ci cj : List Nat) : Bool :=
  !O.ltAlpha (pvals O (order.flatMap half1 ++ half1 ci ++ half1 cj) (order.flatMap half2 ++ half2 ci))

/-- `GIN.py:89-103`: `is_root` for the cluster at position `i`. -/
def isRoot (O : Oracle E P) (order cs : List (List Nat)) (i : Nat) : Bool :=
  (List.range cs.length).all fun j => i == j || passes O order (cs.getD i []) (cs.getD j [])

/-- `GIN.py:78-108`: the `while updated` loop; returns `causal_order` and what is left in `clusters_list`. -/
def orderLoop (O : Oracle E P) : Nat → List (List Nat) → List (List Nat) → Option (List (List Nat) × List (List Nat))
  | 0, _, _ => none
  | fuel + 1, order, cs =>
    match (List.range cs.length).find? (isRoot O order cs) with
    | none => some (order, cs)
    | some i => orderLoop O fuel (order ++ [cs.getD i []]) (cs.erase (cs.getD i []))

/-! ## The output graph -/

/-- Node names: `X k` is the string `X{k+1}` of the variable in column `k`, `L k` is `L{k}`. -/
inductive Name
  | X (k : Nat)
  | L (k : Nat)

/-- Injective code used only to order names. -/
def Name.code : Name → Nat
  | .X k => 2 * k
  | .L k => 2 * k + 1

theorem Name.code_inj : Function.Injective Name.code := by
  intro a b h
  cases a <;> cases b <;> simp only [Name.code] at h <;> first | (congr 1; omega) | omega

instance : LinearOrder Name := LinearOrder.lift' Name.code Name.code_inj

/-- `GeneralGraph.py:196-221` `add_node` (without `dpath`). -/
def addNode {α : Type} [LinearOrder α] (G : NG α) (a : α) : NG α :=
  if a ∈ G.nodes then G
  else ⟨G.nodes ++ [a], fun x => if x = a then some G.num else G.map x, G.num + 1,
    fun x y => if x = G.num ∨ y = G.num then .null else G.mat x y⟩

/-- `GIN.py:126-129`, `146-149`, `211-214`: add the measured children of a latent. -/
def addChild (l : Name) (G : NG Name) (o : Nat) : NG Name := (addNode G (.X o)).putEdge l (.X o) .tail .arrow

/-- `GIN.py:119-129`, `135-149`, `203-214`: one cluster: a new latent with directed edges from `dir`, undirected edges from
`und`, and its measured children (`add_directed_edge` 97-103; `add_edge` with two tails on a new pair). -/
def addCluster (G : NG Name) (id : Nat) (dir und : List Name) (cluster : List Nat) : NG Name :=
  cluster.foldl (addChild (.L id))
    (und.foldl (fun G l => G.putEdge l (.L id) .tail .tail)
      (dir.foldl (fun G l => G.putEdge l (.L id) .tail .arrow) (addNode G (.L id))))

/-- Loop state of the graph construction (`GIN.py:115-116`, `132`): graph, `latent_id`, `l_nodes`, `undirected_l_nodes`. -/
structure GSt where
  G : NG Name
  id : Nat
  dir : List Name
  und : List Name

/-- `GIN.py:118-130` (also `200-215`, where the test `l != l_node` skips the latent itself). -/
def orderedStep (s : GSt) (c : List Nat) : GSt := ⟨addCluster s.G s.id s.dir [] c, s.id + 1, s.dir ++ [.L s.id], s.und⟩

/-- `GIN.py:134-150`. -/
def restStep (s : GSt) (c : List Nat) : GSt := ⟨addCluster s.G s.id s.dir s.und c, s.id + 1, s.dir, s.und ++ [.L s.id]⟩

/-- `GIN.py:110-150`. -/
def ginGraph (vs : List Nat) (order rest : List (List Nat)) : NG Name :=
  (rest.foldl restStep
    (order.foldl orderedStep ⟨vs.foldl (fun G v => addNode G (.X v)) (NG.mk' []), 1, [], []⟩)).G

/-- What a run of `GIN` computes; the function returns `graph` and `order`. -/
structure GinResult where
  vars : List Nat
  order : List (List Nat)
  rest : List (List Nat)
  graph : NG Name

/-- `GIN.py:22-152` `GIN` on data with `n` columns; `none` means that the fuel was not sufficient. -/
def gin (O : Oracle E P) (ord : List Nat → List Nat) (n : Nat) : Option GinResult :=
  (clusterLoop O ord n 2 (ord (List.range n)) []).bind fun r =>
    (orderLoop O (r.2.length + 1) [] r.2).map fun s => ⟨r.1, s.1, s.2, ginGraph r.1 s.1 s.2⟩

/-! ## `GIN_MI` -/

variable {S : Type} [LinearOrder S]

/-- The dependence statistic `cal_dep_for_gin(data, cov, X, Z)` (`GIN.py:227-249`) and the two constants `1e9`, `1e30` used
as initial values (`GIN.py:179`, `268`). NaN statistics are excluded by taking a linear order. -/
structure Dep (S : Type) where
  dep : List Nat → List Nat → S
  big9 : S
  big30 : S

/-- `GIN.py:178-179`: `min_cluster`, `min_dep_score`. -/
structure Best (S : Type) where
  score : Nat → S
  cluster : Nat → List Nat

/-- `GIN.py:184-187`, one member `i` of the pair. -/
def betterOne (d : S) (c : List Nat) (b : Best S) (i : Nat) : Best S :=
  if d < b.score i then ⟨fun k => if k = i then d else b.score k, fun k => if k = i then c else b.cluster k⟩ else b

/-- `GIN.py:180-187`, one pair. -/
def betterPair (D : Dep S) (ord : List Nat → List Nat) (vs : List Nat) (b : Best S) (c : List Nat) : Best S :=
  (ord c).foldl (betterOne (D.dep (ord c) (ord (vs.filter fun v => decide (v ∉ c)))) c) b

/-- `GIN.py:180-189`: the list of best pairs, one per variable. -/
def bestPairs (D : Dep S) (ord : List Nat → List Nat) (n : Nat) : List (List Nat) :=
  (List.range n).map fun i =>
    ord (((combos (ord (List.range n)) 2).foldl (betterPair D ord (ord (List.range n))) ⟨fun _ => D.big9, fun _ => []⟩).cluster i)

/-- `GIN.py:273-283`: the statistic of `find_root` for clusters `i`, `j`. (`i[0]`, `k[1]` raise on short lists; the model
reads 0 there, and C112 proves that the lists have at least two elements.) -/
def rootStat (D : Dep S) (order : List (List Nat)) (ci cj : List Nat) : S :=
  D.dep ([ci.getD 0 0, cj.getD 0 0] ++ order.map fun k => k.getD 0 0) (ci.drop 1 ++ order.map fun k => k.getD 1 0)

/-- `GIN.py:269-286`, one pair `(i, j)`. -/
def rootStep (D : Dep S) (order : List (List Nat)) (s : S × List Nat) (p : List Nat × List Nat) : S × List Nat :=
  if p.1 = p.2 then s else if rootStat D order p.1 p.2 < s.1 then (rootStat D order p.1 p.2, p.1) else s

/-- `GIN.py:252-288` `find_root`. -/
def findRoot (D : Dep S) (order cs : List (List Nat)) : List Nat :=
  if cs.length = 1 then cs.getD 0 []
  else ((cs.flatMap fun i => cs.map fun j => (i, j)).foldl (rootStep D order) (D.big30, cs.getD 0 [])).2

/-- `GIN.py:194-198`: the `while` loop; `none` means that the fuel was not sufficient. -/
def miLoop (D : Dep S) : Nat → List (List Nat) → List (List Nat) → Option (List (List Nat))
  | 0, order, cs => if cs = [] then some order else none
  | fuel + 1, order, cs =>
    if cs = [] then some order else miLoop D fuel (order ++ [findRoot D order cs]) (cs.erase (findRoot D order cs))

/-- `GIN.py:155-217` `GIN_MI`: causal order and graph. -/
def ginMI (D : Dep S) (ord : List Nat → List Nat) (n : Nat) : Option (List (List Nat) × NG Name) :=
  (miLoop D (merged ord (bestPairs D ord n)).length [] (merged ord (bestPairs D ord n))).map fun o => (o, ginGraph [] o [])

end CL.GIN
