import Verif.Model.Lingam

/-!
# Model of `causallearn/search/FCMBased/lingam/bottom_up_parce_lingam.py`

The data enter through the values of the HSIC tests and through the regression coefficients. p-values are elements of a linear order `Q`, statistics of a linear
order `K` with an addition (so rounding is allowed); no NaN.
-/
namespace CL
namespace Parce
open Lingam

/-- The tests for one data set. Residuals are described by the target and the list of its predictors. -/
structure Data (K Q : Type) [LinearOrder K] [Add K] [LinearOrder Q] where
  /-- `hsic_test_gamma` for the only predictor: p-value and statistic (`259-260`) -/
  pair : Nat → List Nat → Q × K
  /-- `inf if hsic_p == 0 else -2 * log(hsic_p)` for target, predictors and one of the predictors (`263-264`) -/
  contrib : Nat → List Nat → Nat → K
  /-- `1 - chi2.cdf(stat, df=2 * k)` (`268`) -/
  tail : Nat → K → Q
  /-- the numbers 0 -/
  zeroK : K
  zeroQ : Q
  /-- `alpha / (n_features - 1)` (`103`) -/
  thresh : Q
  le_add : ∀ a m ps x, a ≤ a + contrib m ps x
  tail_anti : ∀ k a b, a ≤ b → tail k b ≤ tail k a

variable {K Q : Type} [LinearOrder K] [Add K] [LinearOrder Q]

/-- `bottom_up_parce_lingam.py:262-267`: the loop with its early exit; `cap` is `max_p_stat`, `none` is `inf`. -/
def fisherLoop (D : Data K Q) (m : Nat) (ps : List Nat) (cap : Option K) : List Nat → K → K
  | [], acc => acc
  | x :: l, acc => if cap.any (· < acc + D.contrib m ps x) then acc + D.contrib m ps x else fisherLoop D m ps cap l (acc + D.contrib m ps x)

/-- `bottom_up_parce_lingam.py:254-270` `_fisher_hsic_test` of the residual of `m` on `ps` against `ps`: p-value and statistic. -/
def fisherTest (D : Data K Q) (ps : List Nat) (m : Nat) (cap : Option K) : Q × K :=
  if ps.length = 1 then D.pair m ps else (D.tail ps.length (fisherLoop D m ps cap ps D.zeroK), fisherLoop D m ps cap ps D.zeroK)

/-- `bottom_up_parce_lingam.py:219-234`: one `j`; the state is `m`, `max_p`, `max_p_stat` (`none` before the first). -/
def exoStep (D : Data K Q) (U : List Nat) (s : Option (Nat × Q × K)) (j : Nat) : Option (Nat × Q × K) :=
  if s.all fun b => decide ((fisherTest D (U.filter (· ≠ j)) j (s.map (·.2.2))).2 < b.2.2) || decide (b.2.1 < (fisherTest D (U.filter (· ≠ j)) j (s.map (·.2.2))).1) then
    some (j, fisherTest D (U.filter (· ≠ j)) j (s.map (·.2.2)))
  else s

/-- `bottom_up_parce_lingam.py:213-237` `_find_exo_vec`: `m` and `max_p`; `none` for an empty list (`max_p = -inf`). -/
def findExo (D : Data K Q) (U : List Nat) : Option (Nat × Q) := (U.foldl (exoStep D U) none).map fun b => (b.1, b.2.1)

/-- The attributes `_Aknw`, `_partial_orders`. -/
structure Obj where
  aknw : Option Prior
  orders : List (Nat × Nat)

/-- `bottom_up_parce_lingam.py:29-70` constructor; `_extract_partial_orders` (`120-150`) is the same code as in `direct_lingam.py`; `none` is the ValueError. -/
def mkObj (n : Nat) (pk : Option Prior) : Option Obj :=
  match pk with
  | none => some ⟨none, []⟩
  | some pk => (extractPartialOrders n pk).map fun o => o.elim ⟨none, []⟩ fun po => ⟨some pk, po⟩

/-- `bottom_up_parce_lingam.py:152-160` `_search_candidate`. -/
def candidates (aknw : Option Prior) (orders : List (Nat × Nat)) (U : List Nat) : List Nat :=
  if aknw.isSome then U.filter fun i => i ∉ orders.map Prod.fst else U

/-- The variables of `_search_causal_order`: the partial orders left, `U`, and `K_bttm` together with `p_bttm`. -/
structure St (Q : Type) where
  orders : List (Nat × Nat)
  U : List Nat
  K : List (Nat × Q)

/-- `bottom_up_parce_lingam.py:174-188`: the variable `m` and `fisher_p`. -/
def pick (D : Data K Q) (aknw : Option Prior) (s : St Q) : Option (Nat × Q) :=
  if (candidates aknw s.orders s.U).length = 1 then
    (candidates aknw s.orders s.U).head?.map fun m => (m, (fisherTest D (s.U.filter (· ≠ m)) m none).1)
  else findExo D (candidates aknw s.orders s.U)

/-- `bottom_up_parce_lingam.py:192-200`: placing `m` at the bottom. -/
def place (aknw : Option Prior) (s : St Q) (m : Nat × Q) : St Q :=
  ⟨if aknw.isSome then s.orders.filter fun o => o.2 ≠ m.1 else s.orders, s.U.filter (· ≠ m.1), m :: s.K⟩

/-- `bottom_up_parce_lingam.py:174-211`: the loop of `_search_causal_order`; `none` when the fuel runs out. -/
def searchLoop (D : Data K Q) (aknw : Option Prior) : Nat → St Q → Option (St Q)
  | 0, _ => none
  | f + 1, s =>
    (pick D aknw s).elim (some s) fun m =>
      if D.thresh ≤ m.2 then
        if (place aknw s m).U.length ≤ 1 then some ⟨(place aknw s m).orders, [], (place aknw s m).U.map (fun v => (v, D.zeroQ)) ++ (place aknw s m).K⟩
        else searchLoop D aknw f (place aknw s m)
      else some s

/-- An element of `causal_order_`: a list of variables of unknown order, or a variable. -/
inductive Item where
  | unknown (l : List Nat)
  | var (v : Nat)
  deriving DecidableEq

/-- `_flatten` of an element (`272-275`). -/
def Item.vars : Item → List Nat
  | .unknown l => l
  | .var v => [v]

/-- `bottom_up_parce_lingam.py:108-115`: `causal_order_`. -/
def causalOrder (n : Nat) (bottom : List Nat) : List Item :=
  (if 1 < ((List.range n).filter (· ∉ bottom)).length then [.unknown ((List.range n).filter (· ∉ bottom))] else []) ++ bottom.map .var

/-- `bottom_up_parce_lingam.py:301-306`: the predictors of a target after the elements `before`; line 295 zeroes the diagonal of the prior. -/
def predictorsOf (pk : Option Prior) (before : List Item) (target : Nat) : List Nat :=
  match pk with
  | none => before.flatMap Item.vars
  | some pk => (before.flatMap Item.vars).filter fun p => p ≠ target ∧ pk target p ≠ some 0

/-- `bottom_up_parce_lingam.py:298-313`: the regressions of the elements after `before`. -/
def regress {R : Type} (coef : Nat → List Nat → Nat → R) (pk : Option Prior) : List Item → List Item → (Nat → Nat → R) → Nat → Nat → R
  | _, [], B => B
  | before, i :: l, B =>
    regress coef pk (before ++ [i]) l fun a b =>
      if i = .var a ∧ b ∈ predictorsOf pk before a then coef a (predictorsOf pk before a) b else B a b

/-- `bottom_up_parce_lingam.py:315-322`: NaN (`none`) between variables of unknown order. -/
def mark {R : Type} (order : List Item) (B : Nat → Nat → R) (a b : Nat) : Option R :=
  if order.any fun i => match i with
    | .unknown l => decide (a ∈ l ∧ b ∈ l ∧ a ≠ b)
    | .var _ => false
  then none else some (B a b)

/-- `bottom_up_parce_lingam.py:277-325` `_estimate_adjacency_matrix`. The first element has no predictors. -/
def adjacency {R : Type} [Zero R] (coef : Nat → List Nat → Nat → R) (pk : Option Prior) (order : List Item) : Nat → Nat → Option R :=
  mark order (regress coef pk (order.take 1) (order.drop 1) fun _ _ => 0)

/-- What `fit` leaves behind. -/
structure Fitted (Q R : Type) where
  obj : Obj
  order : List Item
  ps : List Q
  B : Nat → Nat → Option R

/-- `bottom_up_parce_lingam.py:72-118` `fit`; `none` is an exception (for one variable `alpha / (n_features - 1)` divides by zero, line 103) or no fuel. -/
def fit {R : Type} [Zero R] (D : Data K Q) (coef : Nat → List Nat → Nat → R) (n : Nat) (o : Obj) : Option (Fitted Q R) :=
  if n ≤ 1 then none
  else (searchLoop D o.aknw n ⟨o.orders, List.range n, []⟩).map fun s =>
    ⟨⟨o.aknw, s.orders⟩, causalOrder n (s.K.map Prod.fst), s.K.map Prod.snd, adjacency coef o.aknw (causalOrder n (s.K.map Prod.fst))⟩

/-- Repeated fits of one object, as in `bootstrap` (`476-477`). -/
def fitMany {R : Type} [Zero R] (n : Nat) : List (Data K Q × (Nat → List Nat → Nat → R)) → Obj → Option (List (Fitted Q R))
  | [], _ => some []
  | d :: ds, o => (fit d.1 d.2 n o).bind fun r => (fitMany n ds r.obj).map fun l => r :: l

end Parce
end CL
