import Verif.Bits.Model
import Verif.Registry.Model
import Verif.Scaling.Model
/-!
Model of `runtimepy/channel/environment/base.py` (setting, reading, exporting and applying
values), `runtimepy/primitives/field/manager/base.py` (bit fields by name) and
`runtimepy/channel/environment/command/processor.py` (commands).

The static part of an environment (names, channels, fields, enumerations) is `Env`; the stored
values of the primitives are a function `Nat → PV` from primitive identities, so several channels
and fields may share a primitive. Callbacks of primitives are not part of this area (see `Prim`).

Simplifications: numbers of float channels are exact rationals or NaN (no infinities, no rounding
in the arithmetic of scaling); `rnd` stands for the rounding done when a number is stored in a
`c_float` or `c_double`. `parseInt`, `parseFloat`, `parseBool` stand for Python's `int(str)`,
`float(str)` and vcorelib's `StrToBool.parse`.
-/
namespace Verif.Environment

open Verif.Wire Verif.Registry

/-- Interpretation of strings and of float storage. -/
structure Sem where
  parseInt : String → Option Int
  parseFloat : String → Option (Option Rat)
  parseBool : String → Option Bool
  rnd : Rat → Rat

/-- Kinds of primitives. Both float types are the parameter `rnd`. -/
inductive SKind where
  | int (k : IntKind)
  | bool
  | float
  deriving DecidableEq, Repr

/-- What a primitive stores. -/
inductive PV where
  | int (v : Int)
  | bool (b : Bool)
  | num (q : Option Rat)
  deriving DecidableEq

/-- `ChannelValue`, base.py: a Python number (`num none` is NaN), truth value or string. -/
inductive CV where
  | int (v : Int)
  | bool (b : Bool)
  | num (q : Option Rat)
  | str (s : String)
  deriving DecidableEq

/-- A number as read from a primitive. -/
def PV.toCV : PV → CV
  | .int v => .int v
  | .bool b => .bool b
  | .num q => .num q

/-- `float(value)` of a number. -/
def PV.rat : PV → Option Rat
  | .int v => some v
  | .bool b => some (if b then 1 else 0)
  | .num q => q

/-- The integer that a Python number equals, if any (dictionary look-up uses `==`: `True == 1`,
`2.0 == 2`). -/
def CV.eqInt : CV → Option Int
  | .int v => some v
  | .bool b => some (if b then 1 else 0)
  | .num (some q) => if q.den = 1 then some q.num else none
  | .num none => none
  | .str _ => none

/-- The static part of a primitive: its kind and its scaling polynomial (primitives/base.py). -/
structure Prim where
  kind : SKind
  scaling : List Rat

/-- `RuntimeEnum`, enum/__init__.py 36–72. -/
inductive Enum where
  | ints (m : Mapping Int)
  | bools (m : Mapping Bool)

/-- `RuntimeEnum.get_str` of a number, enum/__init__.py 91–107. -/
def Enum.getStr (e : Enum) (v : CV) : Except PyErr String :=
  match e, v.eqInt with
  | _, none => .error .key
  | .ints m, some i => Registry.getStr m (.id i)
  | .bools m, some i =>
    if i = 0 then Registry.getStr m (.id false)
    else if i = 1 then Registry.getStr m (.id true)
    else .error .key

/-- `RuntimeEnum.get_int` of a string, enum/__init__.py 123–137: a boolean enumeration resolves
through `as_bool`. -/
def Enum.getInt (sem : Sem) (e : Enum) (s : String) : Except PyErr Int :=
  match e with
  | .ints m => Registry.getInt sem.parseInt m (.name s)
  | .bools m => (Registry.getBool sem.parseBool m (.name s)).map (fun b => if b then 1 else 0)

/-- `RuntimeEnum.get_bool` of a string, enum/__init__.py 139–156: the property `bools` asserts that
the enumeration is boolean. -/
def Enum.getBool (sem : Sem) (e : Enum) (s : String) : Except PyErr Bool :=
  match e with
  | .ints _ => .error .assertion
  | .bools m => Registry.getBool sem.parseBool m (.name s)

/-- `Channel`, channel/__init__.py 37–120: the primitive, the enumeration found for it
(`channel_enums`, base.py 83–89), the commandable flag. -/
structure Chan where
  slot : Nat
  enum : Option Enum
  commandable : Bool

/-- A bit field of the manager with the primitive of its group and its enumeration. The two look-ups
`lookup` (name to group) and `BitFields.fields` (name to field) are one dictionary here. -/
structure FieldE where
  slot : Nat
  index : Nat
  width : Nat
  enum : Option Enum
  commandable : Bool

/-- The static part of a channel environment, base.py 45–110. -/
structure Env where
  names : Mapping Int
  chans : List (String × Chan)
  fields : List (String × FieldE)
  prim : Nat → Prim

/-- The stored values. -/
abbrev State := Nat → PV

/-- Assignment to one primitive. -/
def State.put (σ : State) (slot : Nat) (v : PV) : State := fun j => if j = slot then v else σ j

/-- The stored integer of the primitive of a group (its kind is an integer type). -/
def PV.raw : PV → Int
  | .int v => v
  | _ => 0

/-- `FieldOrChannel`. -/
inductive Target where
  | chan (c : Chan)
  | field (f : FieldE)

/-- `BitFieldsManagerBase.get_field`, manager/base.py 190–203. -/
def Env.getField (E : Env) (key : Key Int) : Option FieldE :=
  (E.names.nameOf key).bind (dget E.fields)

/-- `BitFieldsManagerBase.has_field`, manager/base.py 214–218. -/
def Env.hasField (E : Env) (key : Key Int) : Bool := (E.getField key).isSome

/-- `BaseChannelEnvironment.get`, base.py 233–244 (`Registry.get`). -/
def Env.getChan (E : Env) (key : Key Int) : Option Chan :=
  (E.names.nameOf key).bind (dget E.chans)

/-- `exists`, base.py 210–212. -/
def Env.exists (E : Env) (key : Key Int) : Bool := E.hasField key || (E.getChan key).isSome

/-- `field_or_channel`, base.py 214–231: the channel wins. -/
def Env.fieldOrChannel (E : Env) (key : Key Int) : Option Target :=
  match E.getChan key with
  | some c => some (.chan c)
  | none => (E.getField key).map .field

/-- What `set` and `value` act on, base.py 118–123 and 195–201: the field wins. -/
def Env.target (E : Env) (key : Key Int) : Option Target :=
  match E.getField key with
  | some f => some (.field f)
  | none => (E.getChan key).map .chan

/-- ctypes assignment `raw.value = v` of a number: integers wrap and refuse floats, booleans take
the truth value, floats take any number. -/
def store (sem : Sem) (kind : SKind) (v : CV) : Except PyErr PV :=
  match kind, v with
  | _, .str _ => .error .type
  | .int k, .int v => .ok (.int (wrap k v))
  | .int k, .bool b => .ok (.int (wrap k (if b then 1 else 0)))
  | .int _, .num _ => .error .type
  | .bool, .int v => .ok (.bool (decide (v ≠ 0)))
  | .bool, .bool b => .ok (.bool b)
  | .bool, .num none => .ok (.bool true)
  | .bool, .num (some q) => .ok (.bool (decide (q ≠ 0)))
  | .float, .int v => .ok (.num (some (sem.rnd v)))
  | .float, .bool b => .ok (.num (some (sem.rnd (if b then 1 else 0))))
  | .float, .num q => .ok (.num (q.map sem.rnd))

/-- `float(value)` of a channel value; strings never get here. -/
def CV.rat : CV → Option Rat
  | .int v => some v
  | .bool b => some (if b then 1 else 0)
  | .num q => q
  | .str _ => none

/-- The scaling half of `invert`, scaling.py 17–29: without scaling the value is passed on. -/
def invertCV (scaling : List Rat) (v : CV) : Except PyErr CV :=
  match scaling with
  | [] => .ok v
  | _ =>
    match v.rat with
    | some q => (Scaling.unscale q scaling).map (fun q => .num (some q))
    | none => (Scaling.unscale 0 scaling).map (fun _ => .num none)

/-- `Primitive.invert`, primitives/base.py 182–192: for integer kinds round (NaN raises
`ValueError`) and clamp to the bounds. -/
def primInvert (p : Prim) (v : CV) : Except PyErr CV :=
  match invertCV p.scaling v with
  | .error e => .error e
  | .ok v =>
    match p.kind with
    | .int k =>
      match v.rat with
      | none => .error .value
      | some q => .ok (.int (k.bounds.clamp (Scaling.pyRound q)))
    | _ => .ok v

/-- `Primitive.scaled`, primitives/base.py 168–180, reading. -/
def primScaled (p : Prim) (v : PV) : CV :=
  match p.scaling with
  | [] => v.toCV
  | s =>
    match v.rat with
    | some q => .num (some (Scaling.apply q s))
    | none => .num none

/-- `chan.raw.scaled = value` or `chan.raw.value = value`, base.py 162–166. -/
def assign (sem : Sem) (p : Prim) (v : CV) (scaled : Bool) : Except PyErr PV :=
  if scaled then
    match primInvert p v with
    | .ok v => store sem p.kind v
    | .error e => .error e
  else store sem p.kind v

/-- Resolution of a string for a channel, base.py 125–160. -/
def resolve (sem : Sem) (p : Prim) (enum : Option Enum) (s : String) : Except PyErr CV :=
  match enum with
  | some e =>
    if p.kind = .bool then (e.getBool sem s).map .bool else (e.getInt sem s).map .int
  | none =>
    match p.kind with
    | .bool => match sem.parseBool s with
      | some b => .ok (.bool b)
      | none => .error .value
    | .float => match sem.parseFloat s with
      | some q => .ok (.num q)
      | none => .error .value
    | .int _ =>
      if p.scaling = [] then
        match sem.parseInt s with
        | some v => .ok (.int v)
        | none => .error .value
      else
        match sem.parseFloat s with
        | some q => .ok (.num q)
        | none => .error .value

/-- Setting a channel, base.py 123–166. -/
def setChan (sem : Sem) (E : Env) (σ : State) (c : Chan) (v : CV) (scaled : Bool) :
    Except PyErr State :=
  let p := E.prim c.slot
  let v : Except PyErr CV := match v with
    | .str s => resolve sem p c.enum s
    | v => .ok v
  match v with
  | .error e => .error e
  | .ok v =>
    match assign sem p v scaled with
    | .ok w => .ok (σ.put c.slot w)
    | .error e => .error e

/-- The integer a field is set to, base.py 119 and manager/base.py 126–137. -/
def fieldInt (sem : Sem) (f : FieldE) (v : CV) : Except PyErr Int :=
  match v with
  | .int v => .ok v
  | .bool b => .ok (if b then 1 else 0)
  | .num _ => .error .assertion
  | .str s =>
    match f.enum with
    | some e => e.getInt sem s
    | none =>
      match sem.parseBool s with
      | some b => .ok (if b then 1 else 0)
      | none =>
        match sem.parseInt s with
        | some v => .ok v
        | none => .error .value

/-- The integer type of the primitive of a group. -/
def SKind.intKind : SKind → IntKind
  | .int k => k
  | _ => .uint8

/-- Writing a bit field. -/
def putField (E : Env) (σ : State) (f : FieldE) (v : Int) : State :=
  σ.put f.slot (.int (Bits.writeField (E.prim f.slot).kind.intKind (σ f.slot).raw f.index f.width v).1)

/-- Setting a field, manager/base.py 113–137. -/
def setField (sem : Sem) (E : Env) (σ : State) (f : FieldE) (v : CV) : Except PyErr State :=
  (fieldInt sem f v).map (putField E σ f)

/-- `set`, base.py 112–166. -/
def Env.set (sem : Sem) (E : Env) (σ : State) (key : Key Int) (v : CV) (scaled : Bool) :
    Except PyErr State :=
  match E.target key with
  | some (.field f) => setField sem E σ f v
  | some (.chan c) => setChan sem E σ c v scaled
  | none => .error .key

/-- Reading a field, manager/base.py 139–160. -/
def getFieldValue (σ : State) (f : FieldE) (resolveEnum : Bool) : Except PyErr CV :=
  let v := Bits.readField (σ f.slot).raw f.index f.width
  match f.enum, resolveEnum with
  | some e, true => (e.getStr (.int v)).map .str
  | _, _ => .ok (if f.width = 1 then .bool (decide (v ≠ 0)) else .int v)

/-- Reading a channel, base.py 201–208. -/
def getChanValue (E : Env) (σ : State) (c : Chan) (resolveEnum scaled : Bool) : Except PyErr CV :=
  let v : CV := if scaled then primScaled (E.prim c.slot) (σ c.slot) else (σ c.slot).toCV
  match c.enum, resolveEnum with
  | some e, true => (e.getStr v).map .str
  | _, _ => .ok v

/-- `value`, base.py 189–208. -/
def Env.value (E : Env) (σ : State) (key : Key Int) (resolveEnum scaled : Bool) : Except PyErr CV :=
  match E.target key with
  | some (.field f) => getFieldValue σ f resolveEnum
  | some (.chan c) => getChanValue E σ c resolveEnum scaled
  | none => .error .key

/-- `isinstance(value, str) or not math.isnan(value)`, base.py 184. -/
def CV.exported : CV → Bool
  | .num none => false
  | _ => true

/-- The loop of `values`, base.py 174–187, over the names. -/
def Env.valuesOf (E : Env) (σ : State) (resolveEnum : Bool) :
    List String → Except PyErr (List (String × CV))
  | [] => .ok []
  | n :: rest =>
    match E.value σ (.name n) resolveEnum true with
    | .error e => .error e
    | .ok v =>
      match E.valuesOf σ resolveEnum rest with
      | .error e => .error e
      | .ok l => .ok (if v.exported then (n, v) :: l else l)

/-- `values`, base.py 174–187: names in the order of the reverse dictionary (mapping.py 113–116). -/
def Env.values (E : Env) (σ : State) (resolveEnum : Bool) : Except PyErr (List (String × CV)) :=
  E.valuesOf σ resolveEnum (E.names.reverse.map (·.1))

/-- `apply`, base.py 168–172: what was set before an exception stays set. -/
def Env.apply (sem : Sem) (E : Env) (σ : State) : List (String × CV) → State × Except PyErr Unit
  | [] => (σ, .ok ())
  | (n, v) :: rest =>
    match E.set sem σ (.name n) v true with
    | .ok σ => E.apply sem σ rest
    | .error e => (σ, .error e)

/-! ### Commands -/

/-- `ChannelCommand`, command/parser.py 20–27. -/
inductive Cmd where
  | set | toggle | get | custom
  deriving DecidableEq, Repr

/-- The parsed arguments, command/parser.py 40–110. -/
structure Args where
  command : Cmd
  remote : Bool
  force : Bool
  channel : String
  extra : List String

/-- `CommandResult`, command/result.py: success and a reason (kept as a tag). -/
inductive Res where
  | success (value : Option CV)
  | noChannel
  | notCommandable
  | noValue
  | setFailed
  | notBoolean
  deriving DecidableEq

/-- `bool(result)`. -/
def Res.good : Res → Bool
  | .success _ => true
  | _ => false

def Target.commandable : Target → Bool
  | .chan c => c.commandable
  | .field f => f.commandable

/-- `do_set`, processor.py 86–104. -/
def doSet (sem : Sem) (E : Env) (σ : State) (a : Args) : State × Except PyErr Res :=
  match a.extra with
  | [] => (σ, .ok .noValue)
  | s :: _ =>
    match E.set sem σ (.name a.channel) (.str s) true with
    | .ok σ => (σ, .ok (.success none))
    | .error .value => (σ, .ok .setFailed)
    | .error .key => (σ, .ok .setFailed)
    | .error e => (σ, .error e)

/-- `do_toggle`, processor.py 106–126, with `BitField.invert` and `Bool.toggle`. -/
def doToggle (E : Env) (σ : State) (t : Target) : State × Except PyErr Res :=
  match t with
  | .field f =>
    (σ.put f.slot (.int
      (Bits.invertField (E.prim f.slot).kind.intKind (σ f.slot).raw f.index f.width).1),
      .ok (.success none))
  | .chan c =>
    if (E.prim c.slot).kind = .bool then
      match σ c.slot with
      | .bool b => (σ.put c.slot (.bool (!b)), .ok (.success none))
      | _ => (σ, .error .type)
    else (σ, .ok .notBoolean)

/-- One executed hook: which hook, with which channel argument. -/
structure Call (H : Type) where
  hook : H
  arg : Option Target

/-- `handle_command`, processor.py 128–175: the new state, the hooks run, the result. -/
def handle {H : Type} (sem : Sem) (E : Env) (hooks : List H) (σ : State) (a : Args) :
    State × List (Call H) × Except PyErr Res :=
  if a.remote || a.command == .custom then
    (σ, hooks.map (fun h => ⟨h, none⟩), .ok (.success none))
  else if a.command = .get ∧ E.exists (.name a.channel) = true then
    (σ, [], (E.value σ (.name a.channel) true true).map (fun v => .success (some v)))
  else
    match E.fieldOrChannel (.name a.channel) with
    | none => (σ, [], .ok .noChannel)
    | some t =>
      if !t.commandable && !a.force then (σ, [], .ok .notCommandable)
      else
        let r : State × Except PyErr Res :=
          match a.command with
          | .toggle => doToggle E σ t
          | .set => doSet sem E σ a
          | _ => (σ, .ok (.success none))
        match r.2 with
        | .ok res => (r.1, if res.good then hooks.map (fun h => ⟨h, some t⟩) else [], .ok res)
        | .error e => (r.1, [], .error e)

/-- `RemoteCommandProcessor.handle_command`, processor.py 224–231. -/
def handleRemote {H : Type} (sem : Sem) (E : Env) (hooks : List H) (σ : State) (a : Args) :
    State × List (Call H) × Except PyErr Res :=
  handle sem E hooks σ { a with remote := true }

/-- `command`, processor.py 185–208: `parse` stands for the argument parser; an unparsable line
gives `none` (a failing result carrying the parser's message). -/
def command {H : Type} (sem : Sem) (parse : String → Option Args) (E : Env) (hooks : List H)
    (σ : State) (line : String) : State × List (Call H) × Except PyErr (Option Res) :=
  match parse line with
  | none => (σ, [], .ok none)
  | some a =>
    match handle sem E hooks σ a with
    | (σ, log, r) => (σ, log, r.map some)

end Verif.Environment
