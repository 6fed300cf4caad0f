import Verif.Env.Snapshot
import Verif.Bits.Solid
/-!
C68: exporting a channel environment and loading it again (channel/environment/file.py, with the parts of
channel/__init__.py, channel/registry.py, registry/__init__.py, enum/__init__.py, primitives/field/manager/ and
channel/environment/create.py and base.py it uses).

Objects: primitives are identities (`Nat`) with a kind and a scaling, groups of bit fields are identities with their
layout and the primitive they are on. The exported dictionary is a value; writing it to files and reading them back
(`ARBITER.encode` and `decode`) is assumed to give the same dictionary.

Simplifications: the description and the controls of channels are left out; a default value is one the primitive can
hold. `enum_lookup` of the manager, which may keep an enumeration of an earlier field of the same name, is the
enumeration of the field itself. The namespace is already part of the names.
-/
namespace Verif.Environment

open Verif.Wire Verif.Registry

/-- The patterns names are checked with: of channels and fields registered in an environment
(channel/registry.py 36–39), of enumerations and their members (mixins/regex.py), of fields (field/__init__.py 114). -/
structure Rx where
  chan : String → Bool
  name : String → Bool
  field : String → Bool

/-- `Channel.asdict`, channel/__init__.py 113–134: no scaling and no value in it. -/
structure ChanD where
  id : Int
  kind : SKind
  commandable : Bool
  enum : Option (Key Int)
  default : Option PV

/-- `RuntimeEnum`: identifier and members. -/
structure EnumD where
  id : Int
  enum : Enum

/-- The exported `items`, enum/__init__.py 74–89. -/
inductive Members where
  | ints (items : List (String × Int))
  | bools (items : List (String × Bool))

/-- `RuntimeEnum.asdict`, enum/__init__.py 74–89. -/
def EnumD.asdict (e : EnumD) : Int × Members :=
  (e.id, match e.enum with
    | .ints m => .ints m.reverse
    | .bools m => .bools m.reverse)

/-- `RuntimeEnum.init`, enum/__init__.py 50–72. -/
def EnumD.create (rx : Rx) (d : Int × Members) : Except PyErr EnumD :=
  match d.2 with
  | .ints l => (Mapping.new rx.name [] l).map (fun m => ⟨d.1, .ints m⟩)
  | .bools l => (Mapping.new rx.name [] l).map (fun m => ⟨d.1, .bools m⟩)

/-- A channel environment: the channel registry (each channel with its primitive), the enumeration registry, the
groups of fields that exist, the ones the manager has (`fields`), its `lookup`, and `to_add` (base.py 48–110,
manager/base.py 47–72). -/
structure Live where
  chans : Reg (ChanD × Nat)
  enums : Reg EnumD
  group : Nat → Bits.Group × Nat
  groups : List Nat
  lookup : List (String × Nat)
  toAdd : List Nat
  prim : Nat → Prim

/-- The exported dictionary, file.py 50–68. -/
structure Doc where
  channels : List (String × ChanD)
  enums : List (String × (Int × Members))
  fields : List Bits.Data
  chanNames : List (String × Int)
  enumNames : List (String × Int)
  values : List (String × CV)

/-- The enumeration a key stands for. -/
def Live.enumOf (L : Live) (k : Key Int) : Option Enum := (L.enums.get k).map (·.enum)

/-- A field as `set` and `value` see it. -/
def Live.fieldE (L : Live) (i : Nat) (n : String) : Option FieldE :=
  L.groups[i]?.bind fun o => (dget (L.group o).1.fields n).map fun f =>
    ⟨(L.group o).2, f.index, f.width, f.enum.bind (fun e => L.enumOf (.id e)), f.commandable⟩

/-- What `set`, `value`, `values` and `apply` see of it (`Env`). -/
def Live.env (L : Live) : Env :=
  { names := L.chans.names.map
    chans := L.chans.items.map (fun p => (p.1, ⟨p.2.2, p.2.1.enum.bind L.enumOf, p.2.1.commandable⟩))
    fields := L.lookup.filterMap (fun p => (L.fieldE p.2 p.1).map (fun f => (p.1, f)))
    prim := L.prim }

/-- The loop of `add`, manager/base.py 100–107: what was registered before an exception stays. -/
def Live.register (rx : Rx) (L : Live) (i : Nat) : List (String × Bits.Field) → Live × Except PyErr Unit
  | [] => (L, .ok ())
  | (n, f) :: rest =>
    match L.chans.names.register rx.chan n none with
    | (nr, .error e) => ({ L with chans := ⟨L.chans.items, nr⟩ }, .error e)
    | (nr, .ok none) => ({ L with chans := ⟨L.chans.items, nr⟩ }, .error .assertion)
    | (nr, .ok (some _)) =>
      let L : Live := { L with chans := ⟨L.chans.items, nr⟩, lookup := dset L.lookup n i }
      match f.enum with
      | none => Live.register rx L i rest
      | some e =>
        match L.enums.getItem (.id e) with
        | .error e => (L, .error e)
        | .ok _ => Live.register rx L i rest

/-- `BitFieldsManagerBase.add`, manager/base.py 88–111. -/
def Live.add (rx : Rx) (L : Live) (o : Nat) : Live × Except PyErr Unit :=
  let g := (L.group o).1
  let L' : Live :=
    { L with group := fun j => if j = o then (g.finalize, (L.group o).2) else L.group j, groups := L.groups ++ [o] }
  L'.register rx L.groups.length g.fields

/-- The groups one after the other. -/
def Live.addAll (rx : Rx) (L : Live) : List Nat → Live × Except PyErr Unit
  | [] => (L, .ok ())
  | o :: rest =>
    match L.add rx o with
    | (L, .error e) => (L, .error e)
    | (L, .ok ()) => Live.addAll rx L rest

/-- `finalize(strict=False)`, base.py 438–444: `to_add` is gone through, and not emptied. -/
def Live.finalize (rx : Rx) (L : Live) : Live × Except PyErr Unit := L.addAll rx L.toAdd

/-- `export_json`, file.py 50–70: the environment afterwards, and the dictionary. -/
def Live.export (rx : Rx) (L : Live) (σ : State) (resolveEnum : Bool) : Live × Except PyErr Doc :=
  match L.finalize rx with
  | (L, .error e) => (L, .error e)
  | (L, .ok ()) =>
    (L, (L.env.values σ resolveEnum).map fun values =>
      { channels := L.chans.items.map (fun p => (p.1, p.2.1))
        enums := L.enums.items.map (fun p => (p.1, p.2.asdict))
        fields := L.groups.map (fun o =>
          Bits.Group.asdict { (L.group o).1 with raw := (σ (L.group o).2).raw })
        chanNames := L.chans.names.map.reverse
        enumNames := L.enums.names.map.reverse
        values := values })

/-- A new primitive holds zero. -/
def SKind.zero : SKind → PV
  | .int _ => .int 0
  | .bool => .bool false
  | .float => .num (some 0)

/-- What a new channel's primitive holds, channel/__init__.py 80–99. -/
def ChanD.initial (c : ChanD) : PV := c.default.getD c.kind.zero

/-- All enumerations, or the first exception. -/
def createAll {α β : Type} (f : α → Except PyErr β) : List (String × α) → Except PyErr (List (String × β))
  | [] => .ok []
  | (n, a) :: rest =>
    match f a with
    | .error e => .error e
    | .ok b => (createAll f rest).map ((n, b) :: ·)

/-- `fields_from_dict`, manager/__init__.py 31–37. -/
def createGroups (rx : Rx) : List Bits.Data → Except PyErr (List Bits.Group)
  | [] => .ok []
  | d :: rest =>
    match Bits.Group.create rx.field d with
    | .error e => .error e
    | .ok g => (createGroups rx rest).map (g :: ·)

/-- `channel_enums`, base.py 83–89: `KeyError` for a channel whose enumeration is not there. -/
def Live.checkEnums (L : Live) : Except PyErr Unit :=
  if L.chans.items.all (fun p =>
    match p.2.1.enum with
    | none => true
    | some k => (L.enums.get k).isSome) then .ok () else .error .key

/-- The new primitives: of the channels, then of the groups. -/
def cells (cs : List (String × ChanD)) (gs : List Bits.Group) : List (SKind × PV) :=
  cs.map (fun p => (p.2.kind, p.2.initial)) ++ gs.map (fun g => (.int g.kind, .int g.raw))

/-- What a primitive that was never made would be. -/
def cellAt (l : List (SKind × PV)) (j : Nat) : SKind × PV := l[j]?.getD (.bool, .bool false)

/-- The environment before the fields are added, file.py 128–143. -/
def Doc.blank (d : Doc) (chans : Reg (ChanD × Nat)) (enums : Reg EnumD) (gs : List Bits.Group) : Live :=
  { chans := chans
    enums := enums
    group := fun o => (gs[o]?.getD (Bits.Group.new .uint8), d.channels.length + o)
    groups := []
    lookup := []
    toAdd := []
    prim := fun j => ⟨(cellAt (cells d.channels gs) j).1, []⟩ }

/-- `load_name_to_key` on the names of a registry, file.py 131–137. -/
def loadNames {α : Type} (valid : String → Bool) (r : Reg α) (l : List (String × Int)) : Except PyErr (Reg α) :=
  match r.names.map.load valid (l.map (fun p => (p.2, p.1))) with
  | (_, .error e) => .error e
  | (m, .ok ()) => .ok ⟨r.items, ⟨m, r.names.current⟩⟩

/-- `load_json`, file.py 122–153, and the constructor, base.py 48–110. -/
def Doc.load (rx : Rx) (sem : Sem) (d : Doc) : Except PyErr (Live × State) :=
  match Reg.new rx.chan (fun c : ChanD × Nat => c.1.id) (d.channels.mapIdx (fun j p => (p.1, (p.2, j)))) with
  | .error e => .error e
  | .ok chans =>
    match createAll (EnumD.create rx) d.enums with
    | .error e => .error e
    | .ok es =>
      match Reg.new rx.name EnumD.id es with
      | .error e => .error e
      | .ok enums =>
        match loadNames rx.chan chans d.chanNames with
        | .error e => .error e
        | .ok chans =>
          match loadNames rx.name enums d.enumNames with
          | .error e => .error e
          | .ok enums =>
            match createGroups rx d.fields with
            | .error e => .error e
            | .ok gs =>
              match (d.blank chans enums gs).addAll rx (List.range gs.length) with
              | (_, .error e) => .error e
              | (L, .ok ()) =>
                match L.checkEnums with
                | .error e => .error e
                | .ok () =>
                  match L.env.apply sem (fun j => (cellAt (cells d.channels gs) j).2) d.values with
                  | (_, .error e) => .error e
                  | (σ, .ok ()) => .ok (L, σ)

/-! ### Building an environment -/

/-- `CreateChannelEnvironment.enum`, create.py 160–180, and `EnumRegistry.enum`, enum/registry.py 32–47. -/
def Live.enum (rx : Rx) (L : Live) (name : String) (items : Members) : Live × Except PyErr EnumD :=
  match L.enums.registerDict rx.name EnumD.id name none (fun i => EnumD.create rx (i, items)) with
  | (r, .error e) => ({ L with enums := r }, .error e)
  | (r, .ok none) => ({ L with enums := r }, .error .assertion)
  | (r, .ok (some e)) => ({ L with enums := r }, .ok e)

/-- `CreateChannelEnvironment.channel`, create.py 36–82, and `ChannelRegistry.channel`, channel/registry.py 88–140:
the channel is registered before its enumeration is looked up. The primitive already exists (`slot`). -/
def Live.channel (rx : Rx) (L : Live) (name : String) (slot : Nat) (commandable : Bool) (enum : Option (Key Int))
    (default : Option PV) : Live × Except PyErr ChanD :=
  match L.chans.registerDict rx.chan (fun c => c.1.id) name none
      (fun i => .ok (⟨i, (L.prim slot).kind, commandable, enum, default⟩, slot)) with
  | (r, .error e) => ({ L with chans := r }, .error e)
  | (r, .ok none) => ({ L with chans := r }, .error .assertion)
  | (r, .ok (some c)) =>
    match enum with
    | none => ({ L with chans := r }, .ok c.1)
    | some k =>
      match L.enums.getItem k with
      | .error e => ({ L with chans := r }, .error e)
      | .ok _ => ({ L with chans := r }, .ok c.1)

/-- `BitFields.claim_field`, fields.py 194–200: no bits are claimed. -/
def claimField (g : Bits.Group) (f : Bits.Field) : Bits.Group × Except PyErr Unit :=
  if g.fields.any (·.1 == f.name) then (g, .error .assertion)
  else ({ g with fields := dset g.fields f.name f, byIndex := dset g.byIndex f.index (.field f) }, .ok ())

/-- `add_field`, base.py 429–436, and manager/base.py 211–227, of a field on the primitive of group `o` (`fresh`: there
was no group of that primitive yet; it is appended to `to_add` if the field could be claimed). -/
def Live.addField (L : Live) (o : Nat) (fresh : Bool) (f : Bits.Field) : Live × Except PyErr Unit :=
  match claimField (L.group o).1 f with
  | (_, .error e) => (L, .error e)
  | (g, .ok ()) =>
    ({ L with
        group := fun j => if j = o then (g, (L.group o).2) else L.group j
        toAdd := if fresh then L.toAdd ++ [o] else L.toAdd }, .ok ())

/-- Calls that build an environment. -/
inductive BOp where
  | enum (name : String) (items : Members)
  | channel (name : String) (slot : Nat) (commandable : Bool) (enum : Option (Key Int)) (default : Option PV)
  | add (o : Nat)
  | field (o : Nat) (fresh : Bool) (f : Bits.Field)

/-- One call. -/
def BOp.run (rx : Rx) (L : Live) : BOp → Live × Except PyErr Unit
  | .enum n l => let (L, r) := L.enum rx n l; (L, r.map (fun _ => ()))
  | .channel n s c e d => let (L, r) := L.channel rx n s c e d; (L, r.map (fun _ => ()))
  | .add o => L.add rx o
  | .field o b f => L.addField o b f

/-- Calls one after the other, up to the first exception. -/
def Live.build (rx : Rx) (L : Live) : List BOp → Live × Except PyErr Unit
  | [] => (L, .ok ())
  | op :: rest =>
    match op.run rx L with
    | (L, .error e) => (L, .error e)
    | (L, .ok ()) => Live.build rx L rest

/-- An environment without channels, with the primitives and groups that exist. -/
def Live.start (prim : Nat → Prim) (group : Nat → Bits.Group × Nat) : Live :=
  { chans := ⟨[], ⟨.empty, 1⟩⟩, enums := ⟨[], ⟨.empty, 1⟩⟩, group := group, groups := [], lookup := [], toAdd := [], prim := prim }

end Verif.Environment
