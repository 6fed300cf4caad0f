import Verif.Base
import Verif.Dict
/-!
Model of `runtimepy/mapping.py`, `runtimepy/registry/{name,bool,__init__,item}.py` and
`runtimepy/enum/__init__.py`.

`validName` stands for `RegexMixin.validate_name` (a regular-expression match), `parseInt` for
Python's `int(str)` and `parseBool` for vcorelib's `StrToBool.parse`.
-/
namespace Verif.Registry

/-- `MappingKey`, mapping.py 28: a name or a key. -/
inductive Key (K : Type) where
  | name (s : String)
  | id (k : K)
  deriving DecidableEq, Repr

/-- `TwoWayNameMapping`, mapping.py 42–60. -/
structure Mapping (K : Type) where
  mapping : List (K × String)
  reverse : List (String × K)
  order : List String
  deriving DecidableEq, Repr

/-- The empty mapping, mapping.py 52–55. -/
def Mapping.empty {K : Type} : Mapping K := ⟨[], [], []⟩

variable {K : Type} [DecidableEq K]

/-- `TwoWayNameMapping._set`, mapping.py 62–82. The state is returned also when an assertion
fails, because the first half may already have been stored. -/
def Mapping.set (validName : String → Bool) (m : Mapping K) (key : K) (name : String) :
    Mapping K × Except PyErr Unit :=
  if validName name then
    let first : Mapping K × Bool :=
      match dget m.mapping key with
      | none => ({ m with mapping := dset m.mapping key name }, true)
      | some curr => (m, curr == name)
    if first.2 then
      match dget first.1.reverse name with
      | none => ({ first.1 with
          reverse := dset first.1.reverse name key, order := first.1.order ++ [name] }, .ok ())
      | some curr => (first.1, if curr = key then .ok () else .error .assertion)
    else (first.1, .error .assertion)
  else (m, .error .assertion)

/-- `load_key_to_name` and `load_name_to_key`, mapping.py 84–92, over the (key, name) pairs. -/
def Mapping.load (validName : String → Bool) (m : Mapping K) :
    List (K × String) → Mapping K × Except PyErr Unit
  | [] => (m, .ok ())
  | (k, n) :: rest =>
    match m.set validName k n with
    | (m, .ok ()) => m.load validName rest
    | (m, .error e) => (m, .error e)

/-- The constructor, mapping.py 45–60. -/
def Mapping.new (validName : String → Bool) (mapping : List (K × String))
    (reverse : List (String × K)) : Except PyErr (Mapping K) :=
  match (Mapping.empty : Mapping K).load validName mapping with
  | (_, .error e) => .error e
  | (m, .ok ()) =>
    match m.load validName (reverse.map (fun p => (p.2, p.1))) with
    | (_, .error e) => .error e
    | (m, .ok ()) => .ok m

/-- `identifier`, mapping.py 94–102. -/
def Mapping.identifier (m : Mapping K) : Key K → Option K
  | .name s => dget m.reverse s
  | .id k => if (dget m.mapping k).isSome then some k else none

/-- `name`, mapping.py 104–111. (A string that is no name is looked up among the keys, where
there are no strings.) -/
def Mapping.nameOf (m : Mapping K) : Key K → Option String
  | .name s => if (dget m.reverse s).isSome then some s else none
  | .id k => dget m.mapping k

/-- The two dictionaries built by `int_from_dict` and `bool_from_dict`, mapping.py 122–141 and
147–165, from data whose keys are names or identifiers (values already converted). -/
def split : List (String × K ⊕ K × String) → List (K × String) × List (String × K)
  | [] => ([], [])
  | .inl p :: rest => ((split rest).1, p :: (split rest).2)
  | .inr p :: rest => (p :: (split rest).1, (split rest).2)

/-- `NameRegistry`, registry/name.py 18–35. -/
structure NameReg where
  map : Mapping Int
  current : Int
  deriving DecidableEq, Repr

/-- `NameRegistry.__init__`, registry/name.py 21–35. -/
def NameReg.new (validName : String → Bool) (mapping : List (Int × String))
    (reverse : List (String × Int)) : Except PyErr NameReg :=
  match Mapping.new validName mapping reverse with
  | .error e => .error e
  | .ok m => .ok ⟨m, m.mapping.foldl (fun c p => if p.1 ≥ c then p.1 + 1 else c) 1⟩

/-- The loop `while self._current in self._mapping`, registry/name.py 53–54, with as many
iterations as there are entries (enough by `nextFree_spec`). -/
def nextFree (mapping : List (Int × String)) : Nat → Int → Int
  | 0, c => c
  | fuel + 1, c => if (dget mapping c).isSome then nextFree mapping fuel (c + 1) else c

/-- `NameRegistry.register_name`, registry/name.py 37–62. -/
def NameReg.register (validName : String → Bool) (r : NameReg) (name : String)
    (identifier : Option Int) : NameReg × Except PyErr (Option Int) :=
  match r.map.identifier (.name name) with
  | some curr =>
    if identifier = none ∨ identifier = some curr then (r, .ok (some curr))
    else (r, .error .assertion)
  | none =>
    if validName name then
      let (r, ident) : NameReg × Int :=
        match identifier with
        | none =>
          let c := nextFree r.map.mapping r.map.mapping.length r.current
          ({ r with current := c }, c)
        | some i => (r, i)
      if (dget r.map.mapping ident).isSome then (r, .ok none)
      else
        match r.map.set validName ident name with
        | (m, .ok ()) => ({ r with map := m }, .ok (some ident))
        | (m, .error e) => ({ r with map := m }, .error e)
    else (r, .ok none)

/-- `BooleanRegistry.register`, registry/bool.py 12–26 (generic in the key type here). -/
def Mapping.register (validName : String → Bool) (m : Mapping K) (name : String) (value : K) :
    Mapping K × Bool :=
  if !validName name || (dget m.reverse name).isSome || (dget m.mapping value).isSome then (m, false)
  else ({ m with mapping := dset m.mapping value name, reverse := dset m.reverse name value }, true)

/-! ### Registries of items -/

/-- `Registry`, registry/__init__.py 29–50. -/
structure Reg (α : Type) where
  items : List (String × α)
  names : NameReg

/-- `Registry.init`, registry/__init__.py 38–50, from already created items. -/
def Reg.new {α : Type} (validName : String → Bool) (idOf : α → Int) (items : List (String × α)) :
    Except PyErr (Reg α) :=
  let items := items.foldl (fun d p => dset d p.1 p.2) []
  match NameReg.new validName [] (items.map (fun p => (p.1, idOf p.2))) with
  | .error e => .error e
  | .ok n => .ok ⟨items, n⟩

/-- `Registry.register`, registry/__init__.py 69–78. -/
def Reg.register {α : Type} (validName : String → Bool) (idOf : α → Int) (r : Reg α)
    (name : String) (item : α) : Reg α × Except PyErr Bool :=
  match r.names.register validName name (some (idOf item)) with
  | (n, .error e) => ({ r with names := n }, .error e)
  | (n, .ok identifier) =>
    if identifier.isSome && (dget r.items name).isNone then
      (⟨dset r.items name item, n⟩, .ok true)
    else ({ r with names := n }, .ok false)

/-- `Registry.register_dict`, registry/__init__.py 80–92. `given` is the identifier present in
the data, `make` creates the item from the data with its final identifier. -/
def Reg.registerDict {α : Type} (validName : String → Bool) (idOf : α → Int) (r : Reg α)
    (name : String) (given : Option Int) (make : Int → Except PyErr α) :
    Reg α × Except PyErr (Option α) :=
  let (r, ident) : Reg α × Except PyErr (Option Int) :=
    match given with
    | some i => (r, .ok (some i))
    | none =>
      let (n, res) := r.names.register validName name none
      ({ r with names := n }, res)
  match ident with
  | .error e => (r, .error e)
  | .ok none => (r, .ok none)
  | .ok (some i) =>
    match make i with
    | .error e => (r, .error e)
    | .ok item =>
      match r.register validName idOf name item with
      | (r, .error e) => (r, .error e)
      | (r, .ok true) => (r, .ok (some item))
      | (r, .ok false) => (r, .ok none)

/-- `Registry.get`, registry/__init__.py 94–101. -/
def Reg.get {α : Type} (r : Reg α) (key : Key Int) : Option α :=
  match r.names.map.nameOf key with
  | none => none
  | some n => dget r.items n

/-- `Registry.__getitem__`, registry/__init__.py 103–109. -/
def Reg.getItem {α : Type} (r : Reg α) (key : Key Int) : Except PyErr α :=
  match r.get key with
  | none => .error .key
  | some x => .ok x

/-! ### Enumerations -/

/-- `RuntimeEnum.as_int`, enum/__init__.py 109–121, of an integer enumeration. -/
def asInt (parseInt : String → Option Int) (m : Mapping Int) (key : Key Int) : Option Int :=
  match m.identifier key with
  | some i => some i
  | none =>
    match key with
    | .name s => (parseInt s).bind (fun i => m.identifier (.id i))
    | .id _ => none

/-- `RuntimeEnum.get_int`, enum/__init__.py 123–137, of an integer enumeration. -/
def getInt (parseInt : String → Option Int) (m : Mapping Int) (key : Key Int) : Except PyErr Int :=
  match asInt parseInt m key with
  | some i => .ok i
  | none => .error .key

/-- `RuntimeEnum.get_str`, enum/__init__.py 91–107. -/
def getStr (m : Mapping K) (key : Key K) : Except PyErr String :=
  match m.nameOf key with
  | some s => .ok s
  | none => .error .key

/-- `RuntimeEnum.as_bool`, enum/__init__.py 139–148. -/
def asBool (parseBool : String → Option Bool) (m : Mapping Bool) (key : Key Bool) : Option Bool :=
  match m.identifier key with
  | some b => some b
  | none =>
    match key with
    | .name s => parseBool s
    | .id _ => none

/-- `RuntimeEnum.get_bool`, enum/__init__.py 150–156. -/
def getBool (parseBool : String → Option Bool) (m : Mapping Bool) (key : Key Bool) :
    Except PyErr Bool :=
  match asBool parseBool m key with
  | some b => .ok b
  | none => .error .key

end Verif.Registry
