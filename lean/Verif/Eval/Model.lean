import Verif.Prim.Model
/-!
Model of `runtimepy/primitives/evaluation.py`: waiting for a condition on a primitive and
sampling its changes. A schedule is the list of value changes made by other tasks between
suspension and resumption; every list is a possible schedule.
-/
namespace Verif.Eval

open Verif.Wire Verif.Prim

/-- `EvalResult`, evaluation.py 41–52; only `success` is truthy. -/
inductive EvalResult where
  | notSet | timeout | fail | success
  deriving DecidableEq, Repr

/-- `EvalResult.__bool__`, evaluation.py 50–52. -/
def EvalResult.truthy : EvalResult → Bool
  | .success => true
  | _ => false

/-- `Operator`, evaluation.py 18–28. -/
inductive Operator where
  | lessThan | lessThanOrEqual | equal | notEqual | greaterThanOrEqual | greaterThan
  deriving DecidableEq, Repr

/-- `OPERATOR_MAP`, evaluation.py 31–38, on integers. -/
def Operator.eval : Operator → Int → Int → Bool
  | .lessThan, a, b => decide (a < b)
  | .lessThanOrEqual, a, b => decide (a ≤ b)
  | .equal, a, b => decide (a = b)
  | .notEqual, a, b => decide (a ≠ b)
  | .greaterThanOrEqual, a, b => decide (a ≥ b)
  | .greaterThan, a, b => decide (a > b)

variable {V : Type} [DecidableEq V]

/-- `change_callback`, evaluation.py 72–79: every call overwrites the result. The event it
sets only influences when the waiter resumes, which the schedule already leaves open. -/
def changeCallback (ev : V → V → EvalResult) (id : Nat) (r : EvalResult) (call : Call V) :
    EvalResult :=
  if call.id = id then ev call.old call.new else r

/-- The changes happening while `evaluate` is suspended, evaluation.py 82–86. -/
def waitLoop (store : V → V) (ev : V → V → EvalResult) (id : Nat) :
    Cell V → EvalResult → List (V × Int) → Cell V × EvalResult
  | c, r, [] => (c, r)
  | c, r, (v, t) :: rest =>
    let (c', calls, _) := c.setValue store v t (fun _ => false)
    waitLoop store ev id c' (calls.foldl (changeCallback ev id) r) rest

/-- `evaluate`, evaluation.py 58–88, resumed after the given changes (by the event or by the
timeout: both paths return `result`). -/
def evaluate (store : V → V) (ev : V → V → EvalResult) (c : Cell V) (changes : List (V × Int)) :
    Cell V × EvalResult :=
  if (ev c.raw c.raw).truthy then (c, .success)
  else
    let (c1, id) := c.register false
    let (c2, r) := waitLoop store ev id c1 .timeout changes
    ((c2.remove id).1, r)

/-- The evaluator built by `compare_latest`, evaluation.py 105–107: the requested value is the
left operand. -/
def compareLatest (lhs : Int) (op : Operator) (_old new : Int) : EvalResult :=
  if op.eval lhs new then .success else .fail

/-! ### Sampling -/

/-- The local state of `sample_for`, evaluation.py 123–125, and what it has yielded. -/
structure Sampler (V : Type) where
  queue : List (V × Int)
  keep : Bool
  samples : Int
  yielded : List (V × Int)
  deriving DecidableEq, Repr

/-- Putting a sample on the queue and `poll_sample_event`, evaluation.py 127–138, 142–143. -/
def Sampler.push (s : Sampler V) (count : Int) (x : V × Int) : Sampler V :=
  let samples := s.samples + 1
  { s with
    queue := s.queue ++ [x]
    samples := samples
    keep := if samples ≥ count ∧ count > 0 then false else s.keep }

/-- The callback `sample`, evaluation.py 145–150. -/
def Sampler.sample (s : Sampler V) (count : Int) (x : V × Int) : Sampler V :=
  if s.keep then s.push count x else s

/-- What can happen while the sampler is in its loop, evaluation.py 153–159: a set of the
primitive by another task, or the consumer asking for the next element. -/
inductive Act (V : Type) where
  | change (v : V) (t : Int)
  | get
  deriving DecidableEq, Repr

/-- One event while in the loop; the primitive is a cell in which the sampler's callback has
identifier `id`. A `get` on an empty queue blocks, a `get` after the count was reached has
left the loop (evaluation.py 156–157). -/
def sampleStep (store : V → V) (count : Int) (id : Nat) (c : Cell V) (s : Sampler V) :
    Act V → Cell V × Sampler V
  | .change v t =>
    let (c', calls, _) := c.setValue store v t (fun _ => false)
    (c', calls.foldl (fun s call => if call.id = id then s.sample count (call.new, t) else s) s)
  | .get =>
    if s.keep then
      match s.queue with
      | [] => (c, s)
      | x :: q => (c, { s with queue := q, yielded := s.yielded ++ [x] })
    else (c, s)

/-- The loop under a schedule. -/
def sampleLoop (store : V → V) (count : Int) (id : Nat) :
    Cell V → Sampler V → List (Act V) → Cell V × Sampler V
  | c, s, [] => (c, s)
  | c, s, a :: rest =>
    let (c', s') := sampleStep store count id c s a
    sampleLoop store count id c' s' rest

/-- The state before the loop, evaluation.py 123–143. -/
def sampleInit (c : Cell V) (count : Int) (current : Bool) : Sampler V :=
  let s : Sampler V := { queue := [], keep := true, samples := 0, yielded := [] }
  if current then s.push count (c.raw, c.lastUpdated) else s

/-- `sample_for`, evaluation.py 112–163: the loop under a schedule ended by timeout or count,
removal of the callback, and the final drain. -/
def sampleFor (store : V → V) (c : Cell V) (count : Int) (current : Bool) (sched : List (Act V)) :
    Cell V × List (V × Int) :=
  let s := sampleInit c count current
  let (c1, id) := c.register false
  let (c2, s') := sampleLoop store count id c1 s sched
  ((c2.remove id).1, s'.yielded ++ s'.queue)

end Verif.Eval
