import Verif.Model.TimeSeries
import Verif.Model.Bootstrap

/-!
# Model of `lingam/longitudinal_lingam.py` `bootstrap`, `get_error_independence_p_values` and of `LongitudinalBootstrapResult`

A cell of a matrix is an `Option`: `none` is NaN, for which every comparison is false.
-/
namespace CL
namespace LB
open TS (put)

/-- `longitudinal_lingam.py:147-158`: the matrix of total effects of one bootstrap sample; `te from_t from to_t to` is
`estimate_total_effect`, `orders t` the causal order at time `t`. -/
def totalEffects {V : Type} (zero : V) (T p start : Nat) (orders : Nat → List Nat) (te : Nat → Nat → Nat → Nat → V) : Nat → Nat → V :=
  ((List.range T).drop start).foldl (fun m from_t => ((orders from_t).zipIdx).foldl (fun m cf =>
    let m1 := ((orders from_t).drop (cf.2 + 1)).foldl (fun m t => put m (from_t * p + t) (from_t * p + cf.1) (te from_t cf.1 from_t t)) m
    ((List.range T).drop (from_t + 1)).foldl (fun m to_t => (orders to_t).foldl (fun m t =>
      put m (to_t * p + t) (from_t * p + cf.1) (te from_t cf.1 to_t t)) m) m1) m) fun _ _ => zero

/-- `bootstrap.py:497`: `am = np.concatenate([*m[t]], axis=1)`; `m t tau i j` is a cell of the adjacency matrices of one sample. -/
def rowOf {V : Type} (p : Nat) (m : Nat → Nat → Nat → Nat → V) (t i c : Nat) : V := m t (c / p) i (c % p)

/-- `bootstrap.py:498-503`: the directions (to, from, sign) of one sample at time `t`; `L` is the number of lags. -/
def directions {R : Type} (exceeds : R → Bool) (sign : R → Int) (split : Bool) (p L : Nat) (m : Nat → Nat → Nat → Nat → Option R) (t : Nat) :
    List (Nat × Nat × Int) :=
  (((List.range p).flatMap fun i => (List.range (p * (1 + L))).map fun c => (i, c)).filter fun d => (rowOf p m t d.1 d.2).any exceeds).map
    fun d => (d.1, d.2, if split then ((rowOf p m t d.1 d.2).map sign).getD 0 else 0)

/-- `bootstrap.py:491-530` `get_causal_direction_counts` at time `t`. -/
def directionCounts {R : Type} (exceeds : R → Bool) (sign : R → Int) (split : Bool) (p L : Nat)
    (sortDesc : List ((Nat × Nat × Int) × Nat) → List ((Nat × Nat × Int) × Nat)) (nDirections : Option Nat)
    (samples : List (Nat → Nat → Nat → Nat → Option R)) (t : Nat) : List ((Nat × Nat × Int) × Nat) :=
  let dirs := samples.flatMap fun m => directions exceeds sign split p L m t
  if dirs.length = 0 then []
  else
    let sorted := sortDesc (Lingam.uniqueCounts dirs)
    nDirections.elim sorted fun k => sorted.take k

/-- `bootstrap.py:572-612` `get_directed_acyclic_graph_counts` at time `t`, after the parameter checks (lines 556-570, the same as in
`Lingam.checkCount`, `Lingam.checkMin`). A thresholded matrix is represented by the list of its non-zero cells with their signs, which is how it
is reported; the representation is faithful because the sign of a cell above a non-negative threshold is not 0. -/
def dagCounts {R : Type} (exceeds : R → Bool) (sign : R → Int) (split : Bool) (p L : Nat)
    (sortDesc : List (List (Nat × Nat × Int) × Nat) → List (List (Nat × Nat × Int) × Nat)) (nDags : Option Nat)
    (samples : List (Nat → Nat → Nat → Nat → Option R)) (t : Nat) : List (List (Nat × Nat × Int) × Nat) :=
  let sorted := sortDesc (Lingam.uniqueCounts (samples.map fun m => directions exceeds sign split p L m t))
  nDags.elim sorted fun k => sorted.take k

/-- `bootstrap.py:572-612`: the list over the time points. -/
def dagCountsList {R : Type} (exceeds : R → Bool) (sign : R → Int) (split : Bool) (p L T : Nat)
    (sortDesc : List (List (Nat × Nat × Int) × Nat) → List (List (Nat × Nat × Int) × Nat)) (nDags : Option Nat)
    (samples : List (Nat → Nat → Nat → Nat → Option R)) : List (List (List (Nat × Nat × Int) × Nat)) :=
  (List.range T).map fun t => dagCounts exceeds sign split p L sortDesc nDags samples t

/-- `bootstrap.py:640-690` `get_total_causal_effects`: the code of `BootstrapResult` on the (T p) × (T p) matrices. -/
def totalCausalEffects {K : Type} [Field K] [LinearOrder K] (T p : Nat) (minEffect : Option K)
    (sortDesc : List ((Nat × Nat) × K × K) → List ((Nat × Nat) × K × K)) (te : List (Nat → Nat → K)) : Option (List ((Nat × Nat) × K × K)) :=
  Lingam.totalCausalEffects (T * p) minEffect sortDesc te

/-- `bootstrap.py:633-636` `get_probabilities`: numerator of a cell. -/
def probCount {R : Type} (exceeds : R → Bool) (samples : List (Nat → Nat → Nat → Nat → Option R)) (t tau i j : Nat) : Nat :=
  samples.foldl (fun a m => a + if (m t tau i j).any exceeds then 1 else 0) 0

end LB
end CL
