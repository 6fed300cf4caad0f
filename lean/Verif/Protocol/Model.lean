import Verif.Serial.Append
import Verif.Bits.RoundTrip
import Verif.Registry.Model
import Verif.Utf8
/-!
Model of `runtimepy/codec/protocol/base.py`, `json.py` and of the part of
`runtimepy/primitives/field/manager/` they use, on top of the heap of serializables.

Simplifications: the name registry is the list of registered names (its identifiers are the
subject of `Registry`); the enumeration registry is fixed and holds integer enumerations; values
given to primitives are of their kind or integers (no float conversions); a bit-fields object is
its layout (a `Bits.Group`, whose own `raw` is not used) with a reference to its primitive.
-/
namespace Verif.Protocol

open Verif.Wire Verif.Serial Verif.Registry

/-- An enumeration: its default primitive and its members. -/
structure Enum where
  kind : Kind
  map : Mapping Int

/-- What the code takes from elsewhere: name validation, the enumeration registry, `int(str)` and
`StrToBool.parse`. -/
structure Env where
  validName : String → Bool
  enums : Key Int → Option Enum
  parseInt : String → Option Int
  parseBool : String → Option Bool

/-- `FieldSpec`, base.py 38–44. -/
structure FieldSpec where
  name : String
  kind : Kind
  enum : Option (Key Int)
  len : Option Nat

/-- An item of `_build`, base.py 103. -/
inductive BuildItem where
  | bits (idx : Nat)
  | spec (s : FieldSpec)
  | ser (name : String)

/-- A `BitFields` object. -/
structure BitGroup where
  ref : Nat
  grp : Bits.Group

/-- `ProtocolBase`, base.py 65–128, with the attributes of its `BitFieldsManager`
(manager/base.py 48–66). -/
structure Proto where
  id : Int
  order : ByteOrder
  arr : Nat
  regular : List (String × Nat)
  enumFields : List (String × Enum)
  groups : List BitGroup
  lookup : List (String × Nat)
  enumLookup : List (String × Enum)
  build : List BuildItem
  serials : List (String × Nat)

/-- All objects and the names of the shared registry. -/
structure World where
  heap : Heap
  names : List String

/-- Values of fields. Arrays are shown by their elements. -/
inductive PVal where
  | val (v : Val)
  | str (s : String)
  | cells (c : List (Kind × Val))
  deriving DecidableEq

/-- The value of a new primitive. -/
def zeroVal : Kind → Val
  | .int _ => .int 0
  | .bool => .bool false
  | .float => .f32 0
  | .double => .f64 0

/-- `register_name`, base.py 145–150 with registry/name.py 37–62: an automatic identifier is always
free (C17), so only an invalid name is refused. -/
def World.register (env : Env) (w : World) (name : String) : World × Except PyErr Unit :=
  if name ∈ w.names then (w, .ok ())
  else if env.validName name then ({ w with names := w.names ++ [name] }, .ok ())
  else (w, .error .assertion)

/-- A protocol without fields, base.py 77–106. -/
def Proto.new (w : World) (o : ByteOrder) (id : Int) : World × Proto :=
  let (h, i) := w.heap.newArray o []
  ({ w with heap := h }, ⟨id, o, i, [], [], [], [], [], [], []⟩)

/-- `add_field` without a serializable, base.py 162–202. -/
def Proto.addField (env : Env) (w : World) (p : Proto) (name : String) (kind : Option Kind)
    (enum : Option (Key Int)) (len : Option Nat) (track : Bool) : World × Proto × Except PyErr Nat :=
  match w.register env name with
  | (w, .error e) => (w, p, .error e)
  | (w, .ok ()) =>
    let resolved : Except PyErr (Proto × Option Kind) :=
      match enum with
      | none => .ok (p, kind)
      | some key =>
        match env.enums key with
        | none => .error .key
        | some e => .ok ({ p with enumFields := dset p.enumFields name e }, some (kind.getD e.kind))
    match resolved with
    | .error e => (w, p, .error e)
    | .ok (p, none) => (w, p, .error .assertion)
    | .ok (p, some k) =>
      let (h, r) := w.heap.newPrim k (zeroVal k)
      match h.add p.arr r len with
      | (h, .error e) => ({ w with heap := h }, p, .error e)
      | (h, .ok n) =>
        ({ w with heap := h },
          { p with regular := dset p.regular name r,
                   build := if track then p.build ++ [.spec ⟨name, k, enum, len⟩] else p.build }, .ok n)

/-- The loop of `BitFieldsManager.add`, manager/base.py 100–107. -/
def Proto.enter (env : Env) (w : World) (p : Proto) (idx : Nat) :
    List (String × Bits.Field) → World × Proto × Except PyErr Unit
  | [] => (w, p, .ok ())
  | (name, f) :: rest =>
    match w.register env name with
    | (w, .error e) => (w, p, .error e)
    | (w, .ok ()) =>
      let p := { p with lookup := dset p.lookup name idx }
      match f.enum with
      | none => Proto.enter env w p idx rest
      | some key =>
        match env.enums (.id key) with
        | none => (w, p, .error .key)
        | some e => Proto.enter env w { p with enumLookup := dset p.enumLookup name e } idx rest

/-- `BitFieldsManager.add`, manager/base.py 89–109. -/
def Proto.addGroup (env : Env) (w : World) (p : Proto) (g : BitGroup) : World × Proto × Except PyErr Unit :=
  let g : BitGroup := ⟨g.ref, g.grp.finalize⟩
  Proto.enter env w { p with groups := p.groups ++ [g] } p.groups.length g.grp.fields

/-- `_add_bit_fields`, base.py 204–210. -/
def Proto.addBitFields (env : Env) (w : World) (p : Proto) (g : BitGroup) (track : Bool) :
    World × Proto × Except PyErr Unit :=
  let idx := p.groups.length
  match Proto.addGroup env w p g with
  | (w, p, .error e) => (w, p, .error e)
  | (w, p, .ok ()) =>
    match w.heap.add p.arr g.ref none with
    | (h, .error e) => ({ w with heap := h }, p, .error e)
    | (h, .ok _) =>
      ({ w with heap := h }, { p with build := if track then p.build ++ [.bits idx] else p.build }, .ok ())

/-- `add_bit_fields`, base.py 212–220, with a body that builds the group `g`. -/
def Proto.addBits (env : Env) (w : World) (p : Proto) (g : Bits.Group) : World × Proto × Except PyErr Unit :=
  let (h, r) := w.heap.newPrim (.int g.kind) (.int g.raw)
  Proto.addBitFields env { w with heap := h } p ⟨r, g⟩ true

/-- `add_serializable`, base.py 152–160. -/
def Proto.addSerializable (env : Env) (w : World) (p : Proto) (name : String) (i : Nat) (len : Option Nat) :
    World × Proto × Except PyErr Nat :=
  match w.register env name with
  | (w, .error e) => (w, p, .error e)
  | (w, .ok ()) =>
    let p := { p with serials := dset p.serials name i, build := p.build ++ [.ser name] }
    match w.heap.addToEnd p.arr i len with
    | (h, r) => ({ w with heap := h }, p, r)

/-- Finding a bit field: `get_field`, manager/base.py 164–186 and 203–209. -/
def Proto.findBits (w : World) (p : Proto) (name : String) : Except PyErr (BitGroup × Bits.Field) :=
  if name ∈ w.names then
    match dget p.lookup name with
    | none => .error .key
    | some idx =>
      match p.groups[idx]? with
      | none => .error .index
      | some g =>
        match dget g.grp.fields name with
        | none => .error .key
        | some f => .ok (g, f)
  else .error .key

/-- The integer in a primitive. -/
def intOf : Val → Int
  | .int v => v
  | .bool b => if b then 1 else 0
  | _ => 0

/-- `BitFieldsManager.get`, manager/base.py 135–154. -/
def Proto.getBits (w : World) (p : Proto) (name : String) (resolve : Bool) : Except PyErr PVal :=
  match p.findBits w name with
  | .error e => .error e
  | .ok (g, f) =>
    let v := Bits.readField (intOf (w.heap.prim g.ref).val) f.index f.width
    if f.enum.isSome && resolve then
      match dget p.enumLookup name with
      | none => .error .key
      | some e => (getStr e.map (.id v)).map .str
    else if f.width = 1 then .ok (.val (.bool (v ≠ 0)))
    else .ok (.val (.int v))

/-- `value`, base.py 222–236. -/
def Proto.value (w : World) (p : Proto) (name : String) (resolve : Bool) : Except PyErr PVal :=
  match dget p.regular name with
  | some r =>
    match (if resolve then dget p.enumFields name else none), (w.heap.prim r).val with
    | none, v => .ok (.val v)
    | some e, .int v => (getStr e.map (.id v)).map .str
    | some _, _ => .error .key
  | none => p.getBits w name resolve

/-- `str` of a serializable: fixed.py 22–24, prefixed.py 43–45. -/
def showNode (h : Heap) (i : Nat) : Except PyErr PVal :=
  match (h.node i).body with
  | .array a => .ok (.cells (cells h a))
  | .fixed d => (utf8Dec d).map (fun s => .str (String.ofList s))
  | .prefixed p => (utf8Dec p.data).map (fun s => .str (String.ofList s))

/-- `__getitem__`, base.py 254–260. -/
def Proto.getItem (w : World) (p : Proto) (name : String) : Except PyErr PVal :=
  match dget p.serials name with
  | some i => showNode w.heap i
  | none => p.value w name true

/-- The integer given to a bit field: manager/base.py 124–133. -/
def bitsArg (env : Env) (p : Proto) (name : String) : PVal → Except PyErr Int
  | .val (.int v) => .ok v
  | .val (.bool b) => .ok (if b then 1 else 0)
  | .str s =>
    match dget p.enumLookup name with
    | some e => getInt env.parseInt e.map (.name s)
    | none =>
      match env.parseBool s with
      | some b => .ok (if b then 1 else 0)
      | none =>
        match env.parseInt s with
        | some v => .ok v
        | none => .error .value
  | _ => .error .type

/-- `BitFieldsManager.set`, manager/base.py 111–133. -/
def Proto.setBits (env : Env) (w : World) (p : Proto) (name : String) (v : PVal) : World × Except PyErr Unit :=
  match p.findBits w name with
  | .error e => (w, .error e)
  | .ok (g, f) =>
    match bitsArg env p name v with
    | .error e => (w, .error e)
    | .ok v =>
      let raw := intOf (w.heap.prim g.ref).val
      ({ w with heap := w.heap.setPrim g.ref (.int (Bits.writeField g.grp.kind raw f.index f.width v).1) }, .ok ())

/-- `__setitem__`, base.py 262–273. -/
def Proto.setItem (env : Env) (w : World) (p : Proto) (name : String) (v : PVal) : World × Except PyErr Unit :=
  match dget p.regular name with
  | some r =>
    match v with
    | .str s =>
      match dget p.enumFields name with
      | none => (w, .error .key)
      | some e =>
        match getInt env.parseInt e.map (.name s) with
        | .error x => (w, .error x)
        | .ok i => ({ w with heap := w.heap.setPrim r (.int i) }, .ok ())
    | .val v => ({ w with heap := w.heap.setPrim r v }, .ok ())
    | .cells _ => (w, .error .type)
  | none =>
    match dget p.serials name, v with
    | some i, .str s =>
      match w.heap.update i (utf8 s.toList) with
      | (h, r) => ({ w with heap := h }, r.map (fun _ => ()))
    | _, _ => p.setBits env w name v

/-! ### Copies and JSON -/

/-- Copies of bit-fields: through their dictionaries (manager/base.py 72–79; `copy` of a
`DictCodec`). -/
def copyGroups (env : Env) (h : Heap) : List BitGroup → Heap × Except PyErr (List BitGroup)
  | [] => (h, .ok [])
  | g :: rest =>
    match Bits.Group.create env.validName (Bits.Group.asdict { g.grp with raw := intOf (h.prim g.ref).val }) with
    | .error e => (h, .error e)
    | .ok g' =>
      let (h, r) := h.newPrim (.int g'.kind) (.int g'.raw)
      match copyGroups env h rest with
      | (h, .error e) => (h, .error e)
      | (h, .ok gs) => (h, .ok (⟨r, g'⟩ :: gs))

/-- The constructor of the manager, manager/base.py 60–70. -/
def Proto.addGroups (env : Env) (w : World) (p : Proto) : List BitGroup → World × Proto × Except PyErr Unit
  | [] => (w, p, .ok ())
  | g :: rest =>
    match Proto.addGroup env w p g with
    | (w, p, .error e) => (w, p, .error e)
    | (w, p, .ok ()) => Proto.addGroups env w p rest

/-- The loop over `build` in the constructor, base.py 111–125; `ss` are the serializables not yet
used. -/
def Proto.replay (env : Env) (w : World) (p : Proto) (ss : List (String × Nat)) :
    List BuildItem → World × Proto × Except PyErr (List (String × Nat))
  | [] => (w, p, .ok ss)
  | .bits idx :: rest =>
    match p.groups[idx]? with
    | none => (w, p, .error .index)
    | some g =>
      match Proto.addBitFields env w p g false with
      | (w, p, .error e) => (w, p, .error e)
      | (w, p, .ok ()) => Proto.replay env w p ss rest
  | .ser name :: rest =>
    if ss = [] then (w, p, .error .assertion)
    else
      match dget ss name with
      | none => (w, p, .error .key)
      | some i =>
        match Proto.addSerializable env w p name i none with
        | (w, p, .error e) => (w, p, .error e)
        | (w, p, .ok _) => Proto.replay env w p (dpop ss name) rest
  | .spec s :: rest =>
    match Proto.addField env w p s.name (some s.kind) s.enum s.len false with
    | (w, p, .error e) => (w, p, .error e)
    | (w, p, .ok _) => Proto.replay env w p ss rest

/-- The constructor, base.py 65–128, with a manager holding the given groups. -/
def Proto.create (env : Env) (w : World) (o : ByteOrder) (id : Int) (groups : List BitGroup)
    (build : List BuildItem) (ss : List (String × Nat)) : World × Except PyErr Proto :=
  let (w, p) := Proto.new w o id
  match Proto.addGroups env w p groups with
  | (w, _, .error e) => (w, .error e)
  | (w, p, .ok ()) =>
    match Proto.replay env w p ss build with
    | (w, _, .error e) => (w, .error e)
    | (w, p, .ok left) => if left = [] then (w, .ok p) else (w, .error .assertion)

/-- Copies of the named serializables, base.py 139–142. -/
def copySerials (h : Heap) : List (String × Nat) → Heap × List (String × Nat)
  | [] => (h, [])
  | (n, i) :: rest =>
    let (h, j) := h.copyOne i
    let (h, l) := copySerials h rest
    (h, (n, j) :: l)

/-- `__copy__`, base.py 130–143. The identifier is not passed on. -/
def Proto.copy (env : Env) (w : World) (p : Proto) : World × Except PyErr Proto :=
  match copyGroups env w.heap p.groups with
  | (h, .error e) => ({ w with heap := h }, .error e)
  | (h, .ok gs) =>
    let (h, ss) := copySerials h p.serials
    Proto.create env { w with heap := h } p.order 1 gs p.build ss

/-- The exported data, json.py 45–90. The enumerations are exported and imported as they are. -/
structure Data where
  id : Int
  order : ByteOrder
  names : List String
  groups : List Bits.Data
  build : List BuildItem
  values : List (String × PVal)

/-- Reading values by name, manager/base.py 156–162 and json.py 85–86. -/
def Proto.readAll (w : World) (p : Proto) (get : String → Except PyErr PVal) :
    List String → List (String × PVal) → Except PyErr (List (String × PVal))
  | [], acc => .ok acc
  | n :: rest, acc =>
    match get n with
    | .error e => .error e
    | .ok v => Proto.readAll w p get rest (dset acc n v)

/-- `export_json`, json.py 45–90. -/
def Proto.export (w : World) (p : Proto) : Except PyErr Data :=
  match Proto.readAll w p (fun n => p.getBits w n true) (p.lookup.map (·.1)) [] with
  | .error e => .error e
  | .ok vs =>
    match Proto.readAll w p (fun n => p.value w n true) (p.regular.map (·.1)) vs with
    | .error e => .error e
    | .ok vs =>
      .ok { id := p.id, order := p.order
            names := p.lookup.map (·.1) ++ p.regular.map (·.1)
            groups := p.groups.map (fun g => Bits.Group.asdict { g.grp with raw := intOf (w.heap.prim g.ref).val })
            build := p.build
            values := vs }

/-- The build items read back, json.py 104–115: no array length, and a string item raises
`TypeError`. -/
def importBuild : List BuildItem → Except PyErr (List BuildItem)
  | [] => .ok []
  | .bits i :: rest => (importBuild rest).map (.bits i :: ·)
  | .spec s :: rest => (importBuild rest).map (.spec { s with len := none } :: ·)
  | .ser _ :: _ => .error .type

/-- New groups from dictionaries, manager/__init__.py 27–33. -/
def loadGroups (env : Env) (h : Heap) : List Bits.Data → Heap × Except PyErr (List BitGroup)
  | [] => (h, .ok [])
  | d :: rest =>
    match Bits.Group.create env.validName d with
    | .error e => (h, .error e)
    | .ok g =>
      let (h, r) := h.newPrim (.int g.kind) (.int g.raw)
      match loadGroups env h rest with
      | (h, .error e) => (h, .error e)
      | (h, .ok gs) => (h, .ok (⟨r, g⟩ :: gs))

/-- Setting the values, json.py 127–128. -/
def Proto.setAll (env : Env) (w : World) (p : Proto) : List (String × PVal) → World × Except PyErr Unit
  | [] => (w, .ok ())
  | (n, v) :: rest =>
    match p.setItem env w n v with
    | (w, .error e) => (w, .error e)
    | (w, .ok ()) => Proto.setAll env w p rest

/-- `import_json`, json.py 92–130, in a world with a new name registry. -/
def Proto.import (env : Env) (w : World) (d : Data) : World × Except PyErr Proto :=
  match loadGroups env w.heap d.groups with
  | (h, .error e) => ({ w with heap := h }, .error e)
  | (h, .ok gs) =>
    match importBuild d.build with
    | .error e => ({ w with heap := h }, .error e)
    | .ok build =>
      match Proto.create env { heap := h, names := d.names } d.order d.id gs build [] with
      | (w, .error e) => (w, .error e)
      | (w, .ok p) =>
        match p.setAll env w d.values with
        | (w, .error e) => (w, .error e)
        | (w, .ok ()) => (w, .ok p)

/-! ### Building -/

/-- New serializables given to `add_serializable`. -/
inductive SerSpec where
  | fixed (d : Bytes)
  | prefixed (k : IntKind) (o : ByteOrder)
  | array (o : ByteOrder) (ks : List Kind)

/-- New primitives. -/
def newPrims (h : Heap) : List Kind → Heap × List Nat
  | [] => (h, [])
  | k :: rest =>
    let (h, r) := h.newPrim k (zeroVal k)
    let (h, rs) := newPrims h rest
    (h, r :: rs)

/-- Creating a serializable. -/
def SerSpec.make (h : Heap) : SerSpec → Heap × Except PyErr Nat
  | .fixed d => let (h, i) := h.newNode (.fixed d); (h, .ok i)
  | .prefixed k o => h.newPrefixed k o 0
  | .array o ks =>
    let (h, rs) := newPrims h ks
    let (h, i) := h.newArray o rs
    (h, .ok i)

/-- The steps by which users build protocols. -/
inductive BOp where
  | field (name : String) (kind : Option Kind) (enum : Option (Key Int)) (len : Option Nat)
  | bits (g : Bits.Group)
  | serial (name : String) (s : SerSpec)

/-- One step. -/
def Proto.step (env : Env) (w : World) (p : Proto) : BOp → World × Proto × Except PyErr Unit
  | .field name kind enum len =>
    match p.addField env w name kind enum len true with
    | (w, p, r) => (w, p, r.map (fun _ => ()))
  | .bits g => p.addBits env w g
  | .serial name s =>
    match s.make w.heap with
    | (h, .error e) => ({ w with heap := h }, p, .error e)
    | (h, .ok i) =>
      match p.addSerializable env { w with heap := h } name i none with
      | (w, p, r) => (w, p, r.map (fun _ => ()))

/-- All steps, as long as none raises. -/
def Proto.steps (env : Env) (w : World) (p : Proto) : List BOp → Except PyErr (World × Proto)
  | [] => .ok (w, p)
  | op :: rest =>
    match p.step env w op with
    | (_, _, .error e) => .error e
    | (w, p, .ok ()) => Proto.steps env w p rest

end Verif.Protocol
