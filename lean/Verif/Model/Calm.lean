import Verif.Model.Graph
import Mathlib.LinearAlgebra.Matrix.Trace
import Mathlib.Algebra.Order.Field.Basic

/-!
# CALM (`causallearn/search/ScoreBased/CALM.py`, `causallearn/utils/CALMUtils.py`)

Simplifications: exact arithmetic in an ordered field; the sigmoid is an arbitrary function; the optimisation of one round (40000 Adam steps on
random Gumbel noise, lines 84-90) is an arbitrary function `opt` of the round, the penalty and the current parameters. The weighted matrix is not
modelled.
-/
namespace CL.Calm
variable {d : Nat} {K : Type} [Field K] [LinearOrder K]

/-- The parameters: `B_logit`. -/
abbrev Logits (d : Nat) (K : Type) := Fin d → Fin d → K

/-- `CALM.py:92-94`, `170-171`: `sigmoid(B_logit / tau)` with `-inf` (so `0`) outside the moral graph. -/
def weights (sig : K → K) (mask : Fin d → Fin d → Bool) (tau : K) (L : Logits d K) : Matrix (Fin d) (Fin d) K :=
  Matrix.of fun i j => if mask i j then sig (L i j / tau) else 0

/-- `CALMUtils.py:14-16` and `CALM.py:193-198` `compute_h`: `trace((I + W/d)^d) - d`. -/
def h (W : Matrix (Fin d) (Fin d) K) : K := Matrix.trace ((1 + (1 / (d : K)) • W) ^ d) - d

/-- `CALM.py:83-98`: at most `fuel` (100) rounds from penalty `rho`. -/
def rounds (sig : K → K) (mask : Fin d → Fin d → Bool) (tau mult htol big : K) (opt : Nat → K → Logits d K → Logits d K) :
    Nat → K → Logits d K → Logits d K
  | 0, _, L => L
  | fuel + 1, rho, L =>
    let L' := opt fuel rho L
    if h (weights sig mask tau L') ≤ htol ∨ big < rho * mult then L'
    else rounds sig mask tau mult htol big opt fuel (rho * mult) L'

/-- `CALM.py:162-176` `get_params`: the entries at or above the threshold. -/
def edges (sig : K → K) (mask : Fin d → Fin d → Bool) (tau : K) (L : Logits d K) (i j : Fin d) : Prop :=
  1 / 2 ≤ weights sig mask tau L i j

instance (sig : K → K) (mask : Fin d → Fin d → Bool) (tau : K) (L : Logits d K) (i j : Fin d) : Decidable (edges sig mask tau L i j) :=
  inferInstanceAs (Decidable (_ ≤ _))

/-- `CALM.py:104-112`: the graph. -/
def graph (B : Fin d → Fin d → Prop) [∀ i j, Decidable (B i j)] : GG d :=
  ((List.finRange d).flatMap fun i => (List.finRange d).map fun j => (i, j)).foldl
    (fun G p => if B p.1 p.2 then G.addDirectedEdge p.1 p.2 else G) (GG.empty d)

/-- `CALM.py:13-119` `calm`, from the moral graph and the initial parameters (all zero, lines 149-151). -/
def calm (sig : K → K) (mask : Fin d → Fin d → Bool) (tau rho0 mult htol big : K) (opt : Nat → K → Logits d K → Logits d K) : GG d :=
  graph (edges sig mask tau (rounds sig mask tau mult htol big opt 100 rho0 fun _ _ => 0))

end CL.Calm
