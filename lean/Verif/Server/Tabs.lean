import Verif.Base
import Verif.Dict
/-!
C69: live channel values in browser tabs (net/server/websocket/state.py, net/server/app/env/tab/message.py,
primitives/base.py, channel/environment/base.py 174–208).

One channel environment is shown by any number of tab states (one for each web-socket connection), numbered
by `Nat`. The environment is described by `Env`: its names, the primitive behind each name (bit-fields of one
group share a primitive), and what `env.value(name)` gives for the value a primitive holds. Left out: log
messages, commands, the metrics of the user interface, and the transport: what is sent arrives, in order.
Raw values are compared with `=`; a float that holds NaN, which differs from itself, is not modelled on the
side of the primitive.
-/
namespace Verif.Tabs

variable {R V : Type} [DecidableEq R] [DecidableEq V]

/-- The channel environment as the tab uses it. `render n r` is `env.value(n)` (channel/environment/base.py
189–208) when the primitive of `n` holds `r`: `none` when it raises `KeyError` (`enum.get_str`,
enum/__init__.py 101–107, no entry for the value). `store p v` is what primitive `p` keeps of an assigned
`v`. `nan x` is `math.isnan` for a value that is not a string. -/
structure Env (R V : Type) where
  names : List String
  prim : String → Nat
  render : String → R → Option V
  store : Nat → R → R
  nan : V → Bool

/-- A primitive, primitives/base.py 52–69: value, time of the last update, next identifier and the
callbacks. The callback made by `_setup_callback` (message.py 28–35) refers to a tab and a name. -/
structure Prim (R : Type) where
  raw : R
  stamp : Int
  next : Nat
  cbs : List (Nat × (Nat × String))
  deriving DecidableEq, Repr

/-- `TabState`, state.py 22–35, without the logger. `latest` is `latest_ui_values`. -/
structure Tab (V : Type) where
  shown : Bool
  points : List (String × List (V × Int))
  primitives : List (String × Nat)
  callbacks : List (String × Nat)
  latest : List (String × V)
  deriving DecidableEq, Repr

/-- `TabState.create`, state.py 87–93. -/
def Tab.create : Tab V := ⟨false, [], [], [], []⟩

/-- The primitives and the tab states. -/
structure World (R V : Type) where
  prims : Nat → Prim R
  tabs : Nat → Tab V

/-- Assignment at one index. -/
def upd {α : Type} (f : Nat → α) (i : Nat) (x : α) : Nat → α := fun j => if j = i then x else f j

/-- What a tab sends to its browser: values (`send(to_send)`, message.py 66) or the points of a frame
(state.py 50–52). -/
inductive Msg (V : Type) where
  | values (d : List (String × V))
  | points (d : List (String × List (V × Int)))
  deriving DecidableEq, Repr

/-- The callback of `_setup_callback`, message.py 28–35: appends the value and the time stamp. -/
def notify (E : Env R V) (W : World R V) (i : Nat) (n : String) : World R V × Option PyErr :=
  match E.render n (W.prims (E.prim n)).raw with
  | none => (W, some .key)
  | some x =>
    let T := W.tabs i
    let old := (dget T.points n).getD []
    (⟨W.prims, upd W.tabs i ⟨T.shown, dset T.points n (old ++ [(x, (W.prims (E.prim n)).stamp)]),
      T.primitives, T.callbacks, T.latest⟩⟩, none)

/-- The loop of `_check_callbacks`, primitives/base.py 147–150: an exception ends it. -/
def notifyAll (E : Env R V) (W : World R V) : List (Nat × (Nat × String)) → World R V × Option PyErr
  | [] => (W, none)
  | (_, (i, n)) :: rest =>
    match notify E W i n with
    | (W1, some e) => (W1, some e)
    | (W1, none) => notifyAll E W1 rest

/-- `Primitive.set_value`, primitives/base.py 156–166, with `_check_callbacks`, 142–154. -/
def write (E : Env R V) (W : World R V) (p : Nat) (v : R) (t : Int) : World R V × Option PyErr :=
  let P := W.prims p
  let W1 : World R V := ⟨upd W.prims p ⟨E.store p v, t, P.next, P.cbs⟩, W.tabs⟩
  if P.raw ≠ v then notifyAll E W1 P.cbs else (W1, none)

/-- `env.values()`, channel/environment/base.py 174–187: NaN is left out. -/
def values (E : Env R V) (W : World R V) : List String → Except PyErr (List (String × V))
  | [] => .ok []
  | n :: rest =>
    match E.render n (W.prims (E.prim n)).raw with
    | none => .error .key
    | some x =>
      match values E W rest with
      | .error e => .error e
      | .ok d => .ok (if E.nan x then d else (n, x) :: d)

/-- Equality of two dictionaries. -/
def same (a b : List (String × V)) : Bool :=
  a.length == b.length && a.all (fun q => dget b q.1 == some q.2)

/-- `_setup_callback`, message.py 21–38. -/
def setup (E : Env R V) (W : World R V) (i : Nat) (n : String) : World R V :=
  let p := E.prim n
  let P := W.prims p
  let T := W.tabs i
  ⟨upd W.prims p ⟨P.raw, P.stamp, P.next + 1, P.cbs ++ [(P.next, (i, n))]⟩,
    upd W.tabs i ⟨T.shown, T.points, dset T.primitives n p, dset T.callbacks n P.next, T.latest⟩⟩

/-- `primitive.remove_callback`, primitives/base.py 112–118. -/
def Prim.remove (P : Prim R) (id : Nat) : Prim R :=
  ⟨P.raw, P.stamp, P.next, P.cbs.filter (fun q => q.1 != id)⟩

/-- The loop of `clear_telemetry`, state.py 60–61. -/
def removeAll (prims : Nat → Prim R) (of : List (String × Nat)) :
    List (String × Nat) → (Nat → Prim R) × Option PyErr
  | [] => (prims, none)
  | (n, id) :: rest =>
    match dget of n with
    | none => (prims, some .key)
    | some p => removeAll (upd prims p ((prims p).remove id)) of rest

/-- `clear_telemetry`, state.py 56–66. -/
def clearTelemetry (W : World R V) (i : Nat) : World R V × Option PyErr :=
  let T := W.tabs i
  match removeAll W.prims T.primitives T.callbacks with
  | (ps, some e) => (⟨ps, W.tabs⟩, some e)
  | (ps, none) => (⟨ps, upd W.tabs i ⟨T.shown, [], [], [], T.latest⟩⟩, none)

/-- What happens: an assignment to a primitive, and the messages of a browser. -/
inductive Op (R : Type) where
  | write (p : Nat) (v : R) (t : Int)
  | shown (i : Nat)
  | hidden (i : Nat)
  | frame (i : Nat)
  | close (i : Nat)
  deriving DecidableEq, Repr

/-- `state.shown = shown`, message.py 49. -/
def mark (W : World R V) (i : Nat) (b : Bool) : World R V :=
  let T := W.tabs i
  ⟨W.prims, upd W.tabs i ⟨b, T.points, T.primitives, T.callbacks, T.latest⟩⟩

/-- `state.latest_ui_values.update(latest)`, message.py 75. -/
def saveLatest (W : World R V) (i : Nat) (d : List (String × V)) : World R V :=
  let T := W.tabs i
  ⟨W.prims, upd W.tabs i ⟨T.shown, T.points, T.primitives, T.callbacks,
    d.foldl (fun l q => dset l q.1 q.2) T.latest⟩⟩

/-- The values that are missing or changed, message.py 58–64. -/
def toSend (known d : List (String × V)) : List (String × V) :=
  d.filter (fun q => !(dget known q.1 == some q.2))

/-- One operation: the state, what is sent to which browser, and the exception, if any.
`shown` and `hidden` are `handle_shown_state` (message.py 40–77), `frame` is `TabState.frame` (state.py
37–54) and `close` the `clear_telemetry` of `disable_extra` (websocket/__init__.py 151–156, state.py 68–78). -/
def step (E : Env R V) (W : World R V) : Op R → World R V × List (Nat × Msg V) × Option PyErr
  | .write p v t =>
    match write E W p v t with
    | (W1, e) => (W1, [], e)
  | .shown i =>
    let W1 := mark W i true
    match values E W1 E.names with
    | .error e => (W1, [], some e)
    | .ok d =>
      let known := (W1.tabs i).latest
      let out := if same d known then [] else [(i, Msg.values (toSend known d))]
      (saveLatest (E.names.foldl (fun w n => setup E w i n) W1) i d, out, none)
  | .hidden i =>
    let W1 := mark W i false
    match values E W1 E.names with
    | .error e => (W1, [], some e)
    | .ok d =>
      match clearTelemetry W1 i with
      | (W2, some e) => (W2, [], some e)
      | (W2, none) => (saveLatest W2 i d, [], none)
  | .frame i =>
    let T := W.tabs i
    if T.points = [] then (W, [], none)
    else (⟨W.prims, upd W.tabs i ⟨T.shown, [], T.primitives, T.callbacks, T.latest⟩⟩, [(i, .points T.points)], none)
  | .close i =>
    match clearTelemetry W i with
    | (W1, e) => (W1, [], e)

/-- Several operations: the state, what is sent, and the exceptions raised. -/
def run (E : Env R V) : World R V → List (Op R) → World R V × List (Nat × Msg V) × List PyErr
  | W, [] => (W, [], [])
  | W, op :: ops =>
    let r := step E W op
    let q := run E r.1 ops
    (q.1, r.2.1 ++ q.2.1, r.2.2.toList ++ q.2.2)

/-- The start: primitives with values and no callbacks, fresh tab states. -/
def start (raw : Nat → R) : World R V := ⟨fun p => ⟨raw p, 0, 0, []⟩, fun _ => Tab.create⟩

end Verif.Tabs
