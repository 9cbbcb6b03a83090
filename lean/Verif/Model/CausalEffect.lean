import Mathlib.Algebra.BigOperators.Fin
import Mathlib.Algebra.Order.BigOperators.Group.Finset
import Mathlib.Algebra.Order.Field.Basic
import Mathlib.Data.Fin.Tuple.Basic
import Mathlib.Data.List.FinRange

/-!
# Model of `causallearn/search/FCMBased/lingam/causal_effect.py`

Exact arithmetic in an ordered field. `B i j` is the coefficient of variable `j` in the equation of variable `i`.
-/
namespace CL
namespace Effect
variable {n : Nat} {K : Type} [Field K] [LinearOrder K]

/-- `causal_effect.py:58-67`: the loop; `orig` is `original_index`, and `B_` is `B` restricted to it. `np.delete` of the position of the
row found removes that index (the indices are distinct). `none` is the ValueError. -/
def orderLoop (eps : K) (B : Fin n → Fin n → K) : Nat → List (Fin n) → Option (List (Fin n))
  | 0, _ => some []
  | k + 1, orig =>
    (orig.find? fun i => decide ((orig.map fun j => |B i j|).sum < eps)).bind fun i =>
      (orderLoop eps B k (orig.filter (· ≠ i))).map (i :: ·)

/-- `causal_effect.py:35-70` `_check_init_params` for a square matrix: the causal order (`eps` is `1e-10`). -/
def causalOrder (eps : K) (B : Fin n → Fin n → K) : Option (List (Fin n)) := orderLoop eps B n (List.finRange n)

/-- `causal_effect.py:97-100`: the body of the loop. -/
def propStep (B : Fin n → Fin n → K) (En : Fin n → K) (idx : Fin n) (v : K) (eff : Fin n → K) (i : Fin n) : Fin n → K :=
  Function.update eff i (if i = idx then v else ∑ j, B i j * eff j + En i)

/-- `causal_effect.py:78-102` `_get_propagated_effects`. -/
def propagate (B : Fin n → Fin n → K) (order : List (Fin n)) (En : Fin n → K) (idx : Fin n) (v : K) : Fin n → K :=
  order.foldl (propStep B En idx v) fun _ => 0

/-- `causal_effect.py:157`: `En = Ex - np.dot(B, Ex)`. -/
def noise (B : Fin n → Fin n → K) (Ex : Fin n → K) (i : Fin n) : K := Ex i - ∑ j, B i j * Ex j

/-- `causal_effect.py:129-175` `estimate_effects_on_prediction`: row `i`. `Ex`, `std` are the column means and standard deviations, `pred`
is `_predict` of the variables other than the target (`X[vars_]`). -/
def effectsOnPrediction (B : Fin (n + 1) → Fin (n + 1) → K) (order : List (Fin (n + 1))) (Ex std : Fin (n + 1) → K) (target : Fin (n + 1))
    (pred : (Fin n → K) → K) (i : Fin (n + 1)) : K × K :=
  let p := fun v => pred fun k => propagate B order (noise B Ex) i v (target.succAbove k)
  (|p (Ex i) - p (Ex i + std i)|, |p (Ex i) - p (Ex i - std i)|)

/-- The variables of the loop `225-237`: `s`, `Ex`, `alpha`. -/
structure St (n : Nat) (K : Type) where
  s : List (Fin n)
  Ex : Fin n → K
  alpha : Fin n → K

/-- `causal_effect.py:213-223`: the state before the loop. `root_vars` are the variables whose row has sum zero. -/
def optInit (B : Fin n → Fin n → K) (Ex : Fin n → K) (idx : Fin n) : St n K :=
  ⟨((List.finRange n).filter (· ≠ idx)).filter (fun i => decide (¬ ∑ j, B i j = 0)), Function.update Ex idx 0, Function.update (fun _ => 0) idx 1⟩

/-- `causal_effect.py:227-237`: the body of the loop for the variable `k` drawn from `s`. -/
def optStep (B : Fin n → Fin n → K) (En : Fin n → K) (idx : Fin n) (st : St n K) (k : Fin n) : St n K :=
  if st.s.all fun q => decide (¬ B k q ≠ 0) then
    ⟨st.s.filter (· ≠ k), Function.update st.Ex k ((∑ q, if q ≠ idx then B k q * st.Ex q else 0) + En k),
      Function.update st.alpha k (∑ q, B k q * st.alpha q)⟩
  else st

/-- `causal_effect.py:225-237`: the loop with the outcomes of `np.random.choice` given as a list; `none` if a number drawn is not in `s` or
the list ends before `s` is empty. -/
def optLoop (B : Fin n → Fin n → K) (En : Fin n → K) (idx : Fin n) : List (Fin n) → St n K → Option (St n K)
  | draws, st =>
    if st.s = [] then some st
    else match draws with
      | [] => none
      | k :: draws => if k ∈ st.s then optLoop B En idx draws (optStep B En idx st k) else none

/-- `causal_effect.py:177-241` `estimate_optimal_intervention` for a linear predictor `coef`, `intercept`; line 223 sets the noise of the
intervened variable to zero, line 236 inserts a zero coefficient for the target. -/
def optimalIntervention (B : Fin (n + 1) → Fin (n + 1) → K) (Ex : Fin (n + 1) → K) (target : Fin (n + 1)) (coef : Fin n → K) (intercept : K)
    (idx : Fin (n + 1)) (desired : K) (draws : List (Fin (n + 1))) : Option K :=
  (optLoop B (Function.update (noise B Ex) idx 0) idx draws (optInit B Ex idx)).map fun st =>
    (desired - ∑ k, target.insertNth (α := fun _ => K) 0 coef k * st.Ex k - intercept) / ∑ k, target.insertNth (α := fun _ => K) 0 coef k * st.alpha k

end Effect
end CL
