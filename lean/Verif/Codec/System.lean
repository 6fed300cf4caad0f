import Verif.Base
import Verif.Dict

/-!
C73: the type system (runtimepy/codec/system/__init__.py): names, composed types and their sizes.

Names are lists of characters. A primitive type is anything with a size (`κ`, `size`), so half precision is
included. `vcorelib`'s `Namespace` is a stack of names, a set of tracked names and an abstract `search`
(`Search` says what is assumed of it). All serializables a type system creates are primitive arrays, so a
protocol is a chain of lists of primitives; finding fields by name is C28.
-/
namespace Verif.Codec

abbrev Name := List Char

/-- `Namespace.namespace(name)` with the delimiter `::` under the given stack. -/
def full : List Name → Name → Name
  | [], n => n
  | s :: st, n => s ++ ':' :: ':' :: full st n

/-- What is assumed of `Namespace.search(pattern=name)`: it finds tracked names only, each once, and a
tracked name when it is the one the pattern spells out under the stack. -/
structure Search where
  search : List Name → List Name → Name → List Name
  sub : ∀ T st p x, x ∈ search T st p → x ∈ T
  finds : ∀ T st p, full st p ∈ T → full st p ∈ search T st p
  nodup : ∀ T st p, T.Nodup → (search T st p).Nodup

/-- `resolve_name`, 25–40: the shortest match, which has to be the only one of its length. An empty list
is a KeyError (`by_len[-1]`). -/
def resolveName (ms : List Name) : Except PyErr Name :=
  match ms with
  | [] => .error .key
  | m :: ms' =>
    let shortest := ms'.foldl (fun a x => if x.length < a then x.length else a) m.length
    match ms.filter (fun x => x.length == shortest) with
    | [r] => .ok r
    | _ => .error .assertion

/-- A protocol's array: the members of its chain. -/
abbrev Chain (κ : Type) := List (List κ)

variable {κ : Type}

/-- `PrimitiveArray.add`, array/__init__.py 174–208: into the last member of the chain. `array_length` n
gives n elements, but never less than one. -/
def addPrims (ks : List κ) : Chain κ → Chain κ
  | [] => [ks]
  | [s] => [s ++ ks]
  | s :: t => s :: addPrims ks t

def copies (len : Option Int) : Nat :=
  match len with
  | none => 1
  | some n => 1 + (n - 1).toNat

/-- `Serializable.add_to_end`, serializable/base.py 141–161: the chain of the copy, as often. -/
def addChain (c : Chain κ) (len : Option Int) (t : Chain κ) : Chain κ :=
  t ++ (List.replicate (copies len) c).flatten

/-- `TypeSystem`, 43–68. `enums` is the enumeration registry with the primitive of each. -/
structure Sys (κ : Type) where
  root : List Name
  prims : List (Name × κ)
  enums : List (Name × κ)
  custom : List (Name × Chain κ)
  tracked : List Name

def keys {β : Type} (d : List (Name × β)) : List Name := d.map (·.1)

/-- `Namespace.namespace(name, track=True)`. -/
def track (s : Sys κ) (n : Name) : Sys κ :=
  if n ∈ s.tracked then s else { s with tracked := s.tracked ++ [n] }

/-- `_find_name`, 159–190, without `strict`. -/
def find (sr : Search) (s : Sys κ) (name : Name) (ns : List Name) (exact : Bool) : Except PyErr (Option Name) :=
  if name ∈ keys s.prims then .ok (some name)
  else
    if full (s.root ++ ns) name ∈ keys s.custom then .ok (some (full (s.root ++ ns) name))
    else
      match (sr.search s.tracked (s.root ++ ns) name).filter (fun x => !exact || x == full (s.root ++ ns) name) with
      | [] => .ok none
      | [x] => .ok (some x)
      | ms => (resolveName ms).map some

/-- `_find_name` with `strict` (187): an empty match does not count either. -/
def findStrict (sr : Search) (s : Sys κ) (name : Name) (ns : List Name) (exact : Bool) : Except PyErr Name :=
  match find sr s name ns exact with
  | .error e => .error e
  | .ok none => .error .assertion
  | .ok (some []) => .error .assertion
  | .ok (some (c :: x)) => .ok (c :: x)

/-- `_name` with `check_available`, 192–208: the name is tracked as soon as it is available. -/
def newName (sr : Search) (s : Sys κ) (name : Name) (ns : List Name) : Except PyErr (Name × Sys κ) :=
  match find sr s name ns true with
  | .error e => .error e
  | .ok r =>
    if r = some (full (s.root ++ ns) name) then .error .assertion
    else .ok (full (s.root ++ ns) name, track s (full (s.root ++ ns) name))

def byteOrder : Name := "ByteOrder".toList

/-- `Protocol(self._enums)` registers `ByteOrder` when the registry has none (protocol/base.py 80–81). -/
def withByteOrder (u8 : κ) (s : Sys κ) : Sys κ :=
  if byteOrder ∈ keys s.enums then s else { s with enums := s.enums ++ [(byteOrder, u8)] }

/-- `register`, 105–112. -/
def register (sr : Search) (u8 : κ) (s : Sys κ) (name : Name) (ns : List Name) : Sys κ × Except PyErr Unit :=
  match newName sr (withByteOrder u8 s) name ns with
  | .error e => (withByteOrder u8 s, .error e)
  | .ok (n, s') => ({ s' with custom := dset s'.custom n [[]] }, .ok ())

/-- `enum`, 88–103, and `_register_primitive`, 210–214. `accepts` says whether the enumeration registry
takes the name and the items. -/
def enum (sr : Search) (accepts : Name → Bool) (s : Sys κ) (name : Name) (ns : List Name) (k : κ) :
    Sys κ × Except PyErr Unit :=
  match newName sr s name ns with
  | .error e => (s, .error e)
  | .ok (n, s') =>
    if n ∈ keys s'.enums ∨ accepts n = false then (s', .error .assertion)
    else
      let s'' : Sys κ := { s' with enums := s'.enums ++ [(n, k)] }
      if n ∈ keys s''.prims then (s'', .error .assertion)
      else ({ s'' with prims := s''.prims ++ [(n, k)] }, .ok ())

/-- What a field of the named type adds to a protocol (137–157): the primitive of an enumeration, a copy
of a custom type's chain, or a primitive. -/
inductive Content (κ : Type) where
  | prim (k : κ)
  | chain (c : Chain κ)

def content (s : Sys κ) (ft : Name) : Except PyErr (Content κ) :=
  match dget s.enums ft with
  | some k => .ok (.prim k)
  | none =>
    match dget s.custom ft with
    | some c => .ok (.chain c)
    | none =>
      match dget s.prims ft with
      | some k => .ok (.prim k)
      | none => .error .key

def extend (c : Content κ) (len : Option Int) (t : Chain κ) : Chain κ :=
  match c with
  | .prim k => addPrims (List.replicate (copies len) k) t
  | .chain d => addChain d len t

/-- `add`, 124–157: the names the two arguments resolve to, and what is done. `valid` is the check of the
field's name (an already used field name is accepted). -/
def add (sr : Search) (valid : Name → Bool) (s : Sys κ) (ct field ft : Name) (len : Option Int) (exact : Bool) :
    Sys κ × Except PyErr (Name × Name) :=
  match findStrict sr s ct [] exact with
  | .error e => (s, .error e)
  | .ok t =>
    match findStrict sr s ft [] exact with
    | .error e => (s, .error e)
    | .ok f =>
      match dget s.custom t with
      | none => (s, .error .assertion)
      | some chain =>
        match content s f with
        | .error e => (s, .error e)
        | .ok c =>
          if valid field then ({ s with custom := dset s.custom t (extend c len chain) }, .ok (t, f))
          else (s, .error .assertion)

/-- `ProtocolBase.size`: the length of the chain. -/
def chainSize (size : κ → Nat) (c : Chain κ) : Nat := (c.map (fun seg => (seg.map size).sum)).sum

/-- `size`, 216–234, of a resolved name. -/
def sizeOf (size : κ → Nat) (s : Sys κ) (n : Name) : Except PyErr Nat :=
  match dget s.prims n with
  | some k => .ok (size k)
  | none =>
    match dget s.custom n with
    | some c => .ok (chainSize size c)
    | none => .error .key

def sizeNamed (sr : Search) (size : κ → Nat) (s : Sys κ) (name : Name) (ns : List Name) (exact : Bool) :
    Except PyErr Nat :=
  match findStrict sr s name ns exact with
  | .error e => .error e
  | .ok n => sizeOf size s n

/-- The calls of a type system. -/
inductive Op (κ : Type) where
  | register (name : Name) (ns : List Name)
  | enum (name : Name) (ns : List Name) (k : κ)
  | add (ct field ft : Name) (len : Option Int) (exact : Bool)

/-- What is left abstract, in one place. -/
structure World (κ : Type) where
  sr : Search
  accepts : Name → Bool
  valid : Name → Bool
  u8 : κ

/-- One call; the result of a successful `add` are the two resolved names. -/
def step (w : World κ) (s : Sys κ) : Op κ → Sys κ × Except PyErr (Option (Name × Name))
  | .register name ns => ((register w.sr w.u8 s name ns).1, (register w.sr w.u8 s name ns).2.map fun _ => none)
  | .enum name ns k => ((enum w.sr w.accepts s name ns k).1, (enum w.sr w.accepts s name ns k).2.map fun _ => none)
  | .add ct fl ft len ex => ((add w.sr w.valid s ct fl ft len ex).1, (add w.sr w.valid s ct fl ft len ex).2.map some)

def run (w : World κ) (s : Sys κ) (ops : List (Op κ)) : Sys κ := ops.foldl (fun s o => (step w s o).1) s

/-- A fresh system, 46–68: the primitives, with `runtimepy::ByteOrder` as an enumeration. -/
def Sys.new (root : List Name) (prims : List (Name × κ)) (u8 : κ) : Sys κ :=
  let bo := full ["runtimepy".toList] byteOrder
  ⟨root, prims ++ [(bo, u8)], [(bo, u8)], [], prims.map (·.1) ++ [bo]⟩

end Verif.Codec
