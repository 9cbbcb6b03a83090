import Mathlib.Algebra.Order.Field.Basic
import Mathlib.Algebra.Order.AbsoluteValue.Basic

/-!
# Model of `utils/ScoreUtils.py` `minimize` (lines 115-337) with a negative `length`

The hyperparameters are a column `(p+1, 1)` of an `ndarray`; numbers are elements of an ordered field `K` with a function `sqrt`. The function to be minimised is
`f : Vec p K → Option (K × Vec p K)`, value and gradient; `none` is an exception, or (during extrapolation, where it has the same effect) NaN or inf. What the code computes
from 0/0 or the root of a negative number is NaN or inf; `none` stands for it. The list `seen` of the values of `f` obtained is not part of the code.
-/
namespace CL
namespace Mini
variable {p : Nat} {K : Type}

/-- A column with `p + 1` entries. -/
abbrev Vec (p : Nat) (K : Type) := Fin (p + 1) → K

variable [Field K] [LinearOrder K]

/-- `(a.T * b)[0, 0]` of `ndarray`s (lines 197, 241, 307, 319, 322, 334): `*` multiplies entry by entry, so this is the product of the first entries. -/
def dot00 (a b : Vec p K) : K := a 0 * b 0

/-- `X + x3 * s`. -/
def move (X : Vec p K) (x3 : K) (s : Vec p K) : Vec p K := fun k => X k + x3 * s k

/-- `ScoreUtils.py:152-153`: `SIG` and `RHO`. -/
def SIG : K := 1 / 10
@[inherit_doc SIG] def RHO : K := SIG / 2

/-- `ScoreUtils.py:148-149`: `INT` and `EXT`. -/
def INT : K := 1 / 10
@[inherit_doc INT] def EXT : K := 3

/-- `X0`, `F0`, `dF0`, and the values seen. -/
structure Best (p : Nat) (K : Type) where
  X : Vec p K
  F : K
  dF : Vec p K
  seen : List K

/-- `ScoreUtils.py:237-240`, `301-304`. -/
def keep (b : Best p K) (X : Vec p K) (v : K) (g : Vec p K) : Best p K := if v < b.F then ⟨X, v, g, b.seen⟩ else b

/-- The current third point and the evaluations left. -/
structure Pt (p : Nat) (K : Type) where
  x3 : K
  f3 : K
  df3 : Vec p K
  M : Nat
  best : Best p K

/-- `ScoreUtils.py:218-240`: evaluate, bisecting towards `x2 = 0` while the function fails, and keep the best. -/
def tryPoint (f : Vec p K → Option (K × Vec p K)) (X s : Vec p K) (f0 : K) (df0 : Vec p K) : Nat → K → Best p K → Pt p K
  | 0, x3, b => ⟨x3, f0, df0, 0, keep b (move X x3 s) f0 df0⟩
  | M + 1, x3, b =>
    (f (move X x3 s)).elim (tryPoint f X s f0 df0 M ((0 + x3) / 2) b) fun r =>
      ⟨x3, r.1, r.2, M, keep ⟨b.X, b.F, b.dF, b.seen ++ [r.1]⟩ (move X x3 s) r.1 r.2⟩

/-- `ScoreUtils.py:253-257`: cubic extrapolation from `x1` and `x2`; `none` is NaN or inf. -/
def cubicOut (sqrt : K → K) (x1 f1 d1 x2 f2 d2 : K) : Option K :=
  let A := 6 * (f1 - f2) + 3 * (d2 + d1) * (x2 - x1)
  let B := 3 * (f2 - f1) - (2 * d1 + d2) * (x2 - x1)
  if B * B - A * d1 * (x2 - x1) < 0 ∨ B + sqrt (B * B - A * d1 * (x2 - x1)) = 0 then none
  else some (x1 - d1 * (x2 - x1) ^ 2 / (B + sqrt (B * B - A * d1 * (x2 - x1))))

/-- `ScoreUtils.py:258-265`. -/
def nextOut (x1 x2 : K) : Option K → K
  | none => x2 * EXT
  | some x3 => if x3 < 0 then x2 * EXT else if x2 * EXT < x3 then x2 * EXT else if x3 < x2 + INT * (x2 - x1) then x2 + INT * (x2 - x1) else x3

/-- `ScoreUtils.py:210-265`: extrapolation; point 2 is reset to the start in every round (211-213). Every round uses an evaluation or ends, so fuel `M + 1` suffices. -/
def extrapolate (sqrt : K → K) (f : Vec p K → Option (K × Vec p K)) (X s : Vec p K) (f0 : K) (df0 : Vec p K) (d0 : K) : Nat → Nat → K → Best p K → Pt p K
  | 0, M, x3, b => tryPoint f X s f0 df0 M x3 b
  | fuel + 1, M, x3, b =>
    let r := tryPoint f X s f0 df0 M x3 b
    if SIG * d0 < dot00 r.df3 s ∨ f0 + r.x3 * RHO * d0 < r.f3 ∨ r.M = 0 then r
    else extrapolate sqrt f X s f0 df0 d0 fuel r.M (nextOut 0 r.x3 (cubicOut sqrt 0 f0 d0 r.x3 r.f3 (dot00 r.df3 s))) r.best

/-- A point of the line: position, value, slope. -/
structure Lp (K : Type) where
  x : K
  f : K
  d : K

/-- `ScoreUtils.py:280-289`: quadratic or cubic interpolation; `none` is NaN or inf. -/
def interX3 (sqrt : K → K) (f0 : K) (a b : Lp K) : Option K :=
  if f0 < b.f then
    if b.f - a.f - a.d * (b.x - a.x) = 0 then none else some (a.x - (1 / 2 * a.d * (b.x - a.x) ^ 2) / (b.f - a.f - a.d * (b.x - a.x)))
  else
    let A := 6 * (a.f - b.f) / (b.x - a.x) + 3 * (b.d + a.d)
    let B := 3 * (b.f - a.f) - (2 * a.d + b.d) * (b.x - a.x)
    if b.x - a.x = 0 ∨ B * B - A * a.d * (b.x - a.x) ^ 2 < 0 ∨ A = 0 then none else some (a.x + (sqrt (B * B - A * a.d * (b.x - a.x) ^ 2) - B) / A)

/-- `ScoreUtils.py:291-296`. -/
def clip (a b : Lp K) (x : Option K) : K := max (min (x.getD ((a.x + b.x) / 2)) (b.x - INT * (b.x - a.x))) (a.x + INT * (b.x - a.x))

/-- `ScoreUtils.py:271-278`: the subinterval; `none` if `x4` is not defined yet (an UnboundLocalError). -/
def subinterval (f0 d0 : K) (a : Lp K) (b : Option (Lp K)) (c : Lp K) : Lp K × Option (Lp K) :=
  if 0 < c.d ∨ f0 + c.x * RHO * d0 < c.f then (a, some c) else (c, b)

/-- `ScoreUtils.py:268-307`: interpolation, `M` rounds at most; `none` is an exception. -/
def interpolate (sqrt : K → K) (f : Vec p K → Option (K × Vec p K)) (X s : Vec p K) (f0 d0 : K) : Nat → Lp K → Option (Lp K) → Pt p K → Option (Pt p K)
  | 0, _, _, r => some r
  | M + 1, a, b, r =>
    if -(SIG * d0) < |dot00 r.df3 s| ∨ f0 + r.x3 * RHO * d0 < r.f3 then
      (subinterval f0 d0 a b ⟨r.x3, r.f3, dot00 r.df3 s⟩).2.bind fun b' =>
        let a' := (subinterval f0 d0 a b ⟨r.x3, r.f3, dot00 r.df3 s⟩).1
        (f (move X (clip a' b' (interX3 sqrt f0 a' b')) s)).bind fun v =>
          interpolate sqrt f X s f0 d0 M a' (some b') ⟨clip a' b' (interX3 sqrt f0 a' b'), v.1, v.2, M,
            keep ⟨r.best.X, r.best.F, r.best.dF, r.best.seen ++ [v.1]⟩ (move X (clip a' b' (interX3 sqrt f0 a' b')) s) v.1 v.2⟩
    else some r

/-- The result: the point, the column `fX`, the number of evaluations and the values seen; an exception; or a successful line search, after which (for two or more hyperparameters) the
search direction is no longer a column (314-316), which is not modelled. -/
inductive Out (p : Nat) (K : Type)
  | done (X : Vec p K) (fX : List K) (i : Nat) (seen : List K)
  | raises
  | succeeded

/-- `ScoreUtils.py:210-310`: one line search from `X`. -/
def lineSearch (sqrt : K → K) (f : Vec p K → Option (K × Vec p K)) (X s : Vec p K) (f0 : K) (df0 : Vec p K) (d0 x3 : K) (M : Nat) (seen : List K) : Option (Pt p K) :=
  let r := extrapolate sqrt f X s f0 df0 d0 (M + 1) M x3 ⟨X, f0, df0, seen⟩
  interpolate sqrt f X s f0 d0 r.M ⟨0, f0, d0⟩ none r

/-- `ScoreUtils.py:310`: whether the line search succeeded. -/
def succeeds (f0 d0 : K) (s : Vec p K) (r : Pt p K) : Bool := decide (|dot00 r.df3 s| < -(SIG * d0) ∧ r.f3 < f0 + r.x3 * RHO * d0)

/-- `ScoreUtils.py:200-336`: the main loop for `length = -len`; the direction is steepest descent, since the loop goes on only after a failed line search (333-334). Fuel: the second
failure ends the loop. -/
def mainLoop (sqrt : K → K) (f : Vec p K → Option (K × Vec p K)) (len : Nat) (fX : List K) : Nat → Bool → Nat → Vec p K → K → Vec p K → K → List K → Out p K
  | 0, _, i, X, _, _, _, seen => .done X fX i seen
  | fuel + 1, failed, i, X, f0, df0, x3, seen =>
    if i < len then
      let s : Vec p K := fun k => -df0 k
      let d0 := -dot00 s s
      (lineSearch sqrt f X s f0 df0 d0 x3 (min 20 (len - i)) seen).elim .raises fun r =>
        if succeeds f0 d0 s r = true then .succeeded
        else
          let i' := i + (min 20 (len - i) - r.M)
          if failed = true ∨ len < i' then .done r.best.X fX i' r.best.seen
          else mainLoop sqrt f len fX fuel true i' r.best.X r.best.F r.best.dF (1 / (1 - -dot00 (fun k => -r.best.dF k) (fun k => -r.best.dF k))) r.best.seen
    else .done X fX i seen

/-- `ScoreUtils.py:115-337` `minimize(X, f, -len, …)`. -/
def minimize (sqrt : K → K) (f : Vec p K → Option (K × Vec p K)) (len : Nat) (X : Vec p K) : Out p K :=
  (f X).elim .raises fun r =>
    mainLoop sqrt f len [r.1] (len + 2) false 1 X r.1 r.2 (1 / (1 - -dot00 (fun k => -r.2 k) (fun k => -r.2 k))) [r.1]

end Mini
end CL
