import Verif.Wire.Model
/-!
Model of `runtimepy/primitives/base.py`, `int.py`, `bool.py`: a primitive with change
callbacks. Callback bodies are represented by the calls they receive (a log) and by
whether they raise. A callback that itself registers or removes callbacks on the same
primitive is not modelled (CPython raises `RuntimeError` for it).
-/
namespace Verif.Prim

open Verif.Wire

/-- One invocation of a change callback: `callback(curr, new)`, base.py 148. -/
structure Call (V : Type) where
  id : Nat
  old : V
  new : V
  deriving DecidableEq, Repr

/-- The state of a primitive, base.py 60–67: stored value, next callback identifier,
callbacks in insertion order with their one-shot flag, and the time of the last update. -/
structure Cell (V : Type) where
  raw : V
  curr : Nat
  callbacks : List (Nat × Bool)
  lastUpdated : Int
  deriving DecidableEq, Repr

variable {V : Type} [DecidableEq V]

/-- `Primitive.__init__`, base.py 52–69. `store` is what assigning to `raw.value` keeps. -/
def Cell.init (store : V → V) (v : V) (now : Int) : Cell V :=
  { raw := store v, curr := 0, callbacks := [], lastUpdated := now }

/-- `Primitive.register_callback`, base.py 102–110. -/
def Cell.register (c : Cell V) (once : Bool) : Cell V × Nat :=
  ({ c with curr := c.curr + 1, callbacks := c.callbacks ++ [(c.curr, once)] }, c.curr)

/-- `Primitive.remove_callback`, base.py 112–118. -/
def Cell.remove (c : Cell V) (id : Nat) : Cell V × Bool :=
  if c.callbacks.any (·.1 == id) then
    ({ c with callbacks := c.callbacks.filter (·.1 != id) }, true)
  else (c, false)

/-- The `for` loop of `Primitive._check_callbacks`, base.py 147–150: calls in insertion
order; `raises i` says that callback `i` raises, which stops the loop. Returns the calls
made, the identifiers queued for removal, and whether an exception was raised. -/
def serviceLoop (raises : Nat → Bool) (old new : V) :
    List (Nat × Bool) → List (Call V) × List Nat × Bool
  | [] => ([], [], false)
  | (i, once) :: rest =>
    if raises i then ([⟨i, old, new⟩], [], true)
    else
      let (calls, rm, err) := serviceLoop raises old new rest
      (⟨i, old, new⟩ :: calls, if once then i :: rm else rm, err)

/-- `Primitive._check_callbacks`, base.py 142–154. -/
def Cell.checkCallbacks (c : Cell V) (raises : Nat → Bool) (old new : V) :
    Cell V × List (Call V) × Bool :=
  if c.callbacks ≠ [] ∧ old ≠ new then
    let (calls, rm, err) := serviceLoop raises old new c.callbacks
    if err then (c, calls, true)
    else (rm.foldl (fun c i => (c.remove i).1) c, calls, false)
  else (c, [], false)

/-- `Primitive.set_value`, base.py 156–166: time stamp, store, then callbacks with the
*requested* value. The Boolean result says whether a callback raised. -/
def Cell.setValue (store : V → V) (c : Cell V) (v : V) (now : Int) (raises : Nat → Bool) :
    Cell V × List (Call V) × Bool :=
  let old := c.raw
  let c := { c with lastUpdated := now, raw := store v }
  c.checkCallbacks raises old v

/-- `Primitive.age_ns`, base.py 76–82. -/
def Cell.age (c : Cell V) (now : Int) : Int := now - c.lastUpdated

/-- `BaseIntPrimitive.increment`, int.py 36–41: returns the requested (unwrapped) value. -/
def increment (k : IntKind) (c : Cell Int) (amount : Int) (now : Int) (raises : Nat → Bool) :
    Cell Int × List (Call Int) × Bool × Int :=
  let newVal := c.raw + amount
  let (c', calls, err) := c.setValue (wrap k) newVal now raises
  (c', calls, err, newVal)

/-- `BooleanPrimitive.toggle`, bool.py 21–23. -/
def toggle (c : Cell Bool) (now : Int) (raises : Nat → Bool) :
    Cell Bool × List (Call Bool) × Bool := c.setValue id (!c.raw) now raises

/-- Operations of a history. Callbacks do not raise in these histories; see
`Cell.setValue` for the raising case. -/
inductive Op (V : Type) where
  | register (once : Bool)
  | remove (id : Nat)
  | set (v : V) (now : Int)
  deriving DecidableEq, Repr

/-- What one operation returns to its caller, and the callback calls it makes. -/
inductive Out (V : Type) where
  | registered (id : Nat)
  | removed (ok : Bool)
  | calls (cs : List (Call V))
  deriving DecidableEq, Repr

/-- One operation. -/
def Cell.step (store : V → V) (c : Cell V) : Op V → Cell V × Out V
  | .register once => let (c, i) := c.register once; (c, .registered i)
  | .remove i => let (c, b) := c.remove i; (c, .removed b)
  | .set v now => let (c, cs, _) := c.setValue store v now (fun _ => false); (c, .calls cs)

/-- The state after a history, *newest operation first*. -/
def Cell.after (store : V → V) (c0 : Cell V) : List (Op V) → Cell V
  | [] => c0
  | op :: h => ((Cell.after store c0 h).step store op).1

end Verif.Prim
