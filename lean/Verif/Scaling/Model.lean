import Verif.Wire.Model
/-!
Model of `runtimepy/primitives/scaling.py` and of `Primitive.scale`/`Primitive.invert`
(base.py 168–192). Python computes in IEEE doubles; the model computes in exact rational
arithmetic (simplification: no rounding error, no infinities, no NaN).
-/
namespace Verif.Scaling

open Verif.Wire

/-- Python's `round` to an integer: nearest, ties to even. -/
def pyRound (q : Rat) : Int :=
  let f := q.floor
  let d := q - f
  if d < 1 / 2 then f
  else if 1 / 2 < d then f + 1
  else if f % 2 = 0 then f else f + 1

/-- `invert` without the final rounding, scaling.py 17–29. -/
def unscale (value : Rat) (scaling : List Rat) : Except PyErr Rat :=
  match scaling with
  | [] => .ok value
  | [offset] => .ok ((value - offset) / 1)
  | [offset, scale] => if scale = 0 then .error .zeroDivision else .ok ((value - offset) / scale)
  | _ => .error .assertion

/-- `invert`, scaling.py 12–34. -/
def invert (value : Rat) (scaling : List Rat) (shouldRound : Bool) : Except PyErr Rat :=
  (unscale value scaling).map (fun v => if shouldRound then (pyRound v : Rat) else v)

/-- The accumulation loop of `apply`, scaling.py 43–47. -/
def applyLoop (value : Rat) : List Rat → Rat → Rat → Rat
  | [], result, _ => result
  | scalar :: rest, result, poly => applyLoop value rest (result + scalar * poly) (poly * value)

/-- `apply`, scaling.py 37–51. -/
def apply (value : Rat) (scaling : List Rat) : Rat :=
  if scaling = [] then value else applyLoop value scaling 0 1

/-- `Primitive.invert`, base.py 182–192, for an integer primitive: round, then clamp to the
bounds of the type. -/
def invertInt (k : IntKind) (value : Rat) (scaling : List Rat) : Except PyErr Int :=
  (unscale value scaling).map (fun v => k.bounds.clamp (pyRound v))

end Verif.Scaling
