import Verif.Wire.Model
import Verif.Dict
import Mathlib.Data.Int.Bitwise
/-!
Model of `runtimepy/primitives/field/__init__.py` (bit fields over an integer primitive) and
`runtimepy/primitives/field/fields.py` (groups of bit fields).

Python's `&`, `|`, `~` on unbounded integers are Mathlib's `Int.land`, `Int.lor`, `Int.lnot`
(infinite two's complement); `<<` is multiplication by and `>>` floor division by a power of two.
-/
namespace Verif.Bits

open Verif.Wire

/-- `self.mask`, field/__init__.py 39. -/
def mask (width : Nat) : Int := 2 ^ width - 1

/-- `self.shifted_mask`, field/__init__.py 40. -/
def shiftedMask (index width : Nat) : Int := mask width * 2 ^ index

/-- The getting branch of `BitFieldBase.__call__`, field/__init__.py 73–76. -/
def readField (raw : Int) (index width : Nat) : Int :=
  (Int.land raw (shiftedMask index width)) / 2 ^ index

/-- The setting branch of `BitFieldBase.__call__`, field/__init__.py 66–72: new stored value of
the underlying primitive (assigned through ctypes, hence `wrap`) and the returned value. -/
def writeField (k : IntKind) (raw : Int) (index width : Nat) (val : Int) : Int × Int :=
  let result := Int.land val (mask width)
  (wrap k (Int.lor (Int.land raw (Int.lnot (shiftedMask index width))) (result * 2 ^ index)), result)

/-- `BitFieldBase.invert`, field/__init__.py 80–82. -/
def invertField (k : IntKind) (raw : Int) (index width : Nat) : Int × Int :=
  writeField k raw index width (Int.lnot (readField raw index width))

/-- The test deciding between `^` and `-` in `BitFieldBase.where_str`, field/__init__.py 49–54. -/
def whereBit (index width pos : Nat) : Bool := Int.land (2 ^ pos) (shiftedMask index width) ≠ 0

/-- A `BitField` object, field/__init__.py 85–119 (the description is left out). -/
structure Field where
  name : String
  index : Nat
  width : Nat
  enum : Option Int
  commandable : Bool
  deriving DecidableEq, Repr

/-- A value of the `by_index` dictionary, fields.py 46: a field or padding `(width, value)`. -/
inductive Item where
  | field (f : Field)
  | pad (width : Nat) (val : Int)
  deriving DecidableEq, Repr

/-- A `BitFields` object, fields.py 35–49. `raw` is the stored integer of the underlying
primitive, `avail` the membership test of `bits_available`. -/
structure Group where
  kind : IntKind
  raw : Int
  curr : Nat
  avail : Nat → Bool
  fields : List (String × Field)
  byIndex : List (Nat × Item)
  finalized : Bool

/-- A fresh group, fields.py 38–49 and 227–233. -/
def Group.new (k : IntKind) : Group :=
  { kind := k, raw := 0, curr := 0, avail := fun b => decide (b < k.bits), fields := [],
    byIndex := [], finalized := false }

/-- `BitFields._claim_bits`, fields.py 159–181. A negative index makes every bit of a
non-empty range unavailable (assertion); an empty range at a negative index passes the check
and then fails with `ValueError` on the negative shift in the constructor of the field
(field/__init__.py 40), which is folded in here; neither changes the group. Widths are natural
numbers (negative widths are not modelled). -/
def Group.claim (g : Group) (width : Nat) (index : Option Int) : Except PyErr (Group × Nat) :=
  if g.finalized then .error .assertion
  else
    let idx : Int := index.getD g.curr
    if idx < 0 then (if width = 0 then .error .value else .error .assertion)
    else
      let i := idx.toNat
      if (List.range width).all (fun x => g.avail (x + i)) then
        .ok ({ g with
          avail := fun b => g.avail b && !(decide (i ≤ b) && decide (b < i + width))
          curr := if i ≥ g.curr then i + width else g.curr }, i)
      else .error .assertion

/-- The assertions of `BitField.__init__`, field/__init__.py 107–117. `validName` is
`validate_name` (a regular-expression match). -/
def fieldOk (validName : String → Bool) (k : IntKind) (name : String) (index width : Nat) : Bool :=
  decide (index < k.bits) && decide (width ≤ k.bits) && validName name

/-- `BitFields.flag`, fields.py 139–157. On failure of the constructor the bits stay claimed. -/
def Group.flag (validName : String → Bool) (g : Group) (name : String) (index : Option Int)
    (enum : Option Int) (commandable : Bool) : Group × Except PyErr Nat :=
  match g.claim 1 index with
  | .error e => (g, .error e)
  | .ok (g, i) =>
    if fieldOk validName g.kind name i 1 then
      let f : Field := ⟨name, i, 1, enum, commandable⟩
      ({ g with fields := dset g.fields name f, byIndex := dset g.byIndex i (.field f) }, .ok i)
    else (g, .error .assertion)

/-- `BitFields.field` and `claim_field`, fields.py 194–225. -/
def Group.field (validName : String → Bool) (g : Group) (name : String) (width : Nat)
    (index : Option Int) (enum : Option Int) (commandable : Bool) : Group × Except PyErr Nat :=
  if width = 1 then (g, .error .assertion)
  else match g.claim width index with
  | .error e => (g, .error e)
  | .ok (g, i) =>
    if fieldOk validName g.kind name i width then
      if g.fields.any (·.1 == name) then (g, .error .assertion)
      else
        let f : Field := ⟨name, i, width, enum, commandable⟩
        ({ g with fields := dset g.fields name f, byIndex := dset g.byIndex i (.field f) }, .ok i)
    else (g, .error .assertion)

/-- `BitFields.pad`, fields.py 183–192. -/
def Group.pad (g : Group) (width : Nat) (index : Option Int) (val : Int) : Group × Except PyErr Nat :=
  match g.claim width index with
  | .error e => (g, .error e)
  | .ok (g, i) =>
    ({ g with
        raw := (writeField g.kind g.raw i width val).1
        byIndex := dset g.byIndex i (.pad width val) }, .ok i)

/-- Calling a field of the group with a value, field/__init__.py 58–78. -/
def Group.write (g : Group) (index width : Nat) (val : Int) : Group × Int :=
  let (raw, r) := writeField g.kind g.raw index width val
  ({ g with raw := raw }, r)

/-- `BitFields.finalize`, fields.py 97–99. -/
def Group.finalize (g : Group) : Group := { g with finalized := true }

/-- `BitFields.get_field`, fields.py 121–129, by name and by index. -/
def Group.getByName (g : Group) (name : String) : Option Field := dget g.fields name

/-- `BitFields.get_field` with an integer key, fields.py 127–129. -/
def Group.getByIndex (g : Group) (i : Nat) : Except PyErr (Option Field) :=
  match dget g.byIndex i with
  | none => .ok none
  | some (.field f) => .ok (some f)
  | some (.pad _ _) => .error .assertion

/-- One entry of the exported `fields` list, field/__init__.py 121–134 and fields.py 107–113.
Padding has no name. -/
structure Entry where
  name : Option String
  index : Option Int
  width : Nat
  value : Int
  enum : Option Int
  commandable : Bool
  deriving DecidableEq, Repr

/-- The exported dictionary, fields.py 115–119. -/
structure Data where
  kind : IntKind
  entries : List Entry
  finalized : Bool

/-- `BitFields.asdict`, fields.py 101–119. -/
def Group.asdict (g : Group) : Data :=
  { kind := g.kind
    entries := g.byIndex.map (fun (i, item) =>
      match item with
      | .pad w v => ⟨none, some i, w, v, none, false⟩
      | .field f => ⟨some f.name, some f.index, f.width, readField g.raw f.index f.width, f.enum,
          f.commandable⟩)
    finalized := g.finalized }

/-- One step of the loading loop of `BitFields.init`, fields.py 52–88. -/
def Group.load (validName : String → Bool) (g : Group) (e : Entry) : Except PyErr Group :=
  match e.name with
  | none =>
    if e.value ≠ 0 then .error .assertion
    else if e.enum.isSome then .error .assertion
    else match g.pad e.width e.index 0 with
      | (g, .ok _) => .ok g
      | (_, .error x) => .error x
  | some name =>
    if name = "" then
      (if e.value ≠ 0 then .error .assertion
       else if e.enum.isSome then .error .assertion
       else match g.pad e.width e.index 0 with
        | (g, .ok _) => .ok g
        | (_, .error x) => .error x)
    else if e.width = 1 then
      match g.flag validName name e.index e.enum e.commandable with
      | (g, .ok i) => .ok (g.write i 1 e.value).1
      | (_, .error x) => .error x
    else
      match g.field validName name e.width e.index e.enum e.commandable with
      | (g, .ok i) => .ok (g.write i e.width e.value).1
      | (_, .error x) => .error x

/-- The loop over all entries. -/
def Group.loadAll (validName : String → Bool) (g : Group) : List Entry → Except PyErr Group
  | [] => .ok g
  | e :: rest => match g.load validName e with
    | .ok g => g.loadAll validName rest
    | .error x => .error x

/-- `BitFields.create(data)`, fields.py 35–90. -/
def Group.create (validName : String → Bool) (d : Data) : Except PyErr Group :=
  match (Group.new d.kind).loadAll validName d.entries with
  | .ok g => .ok { g with finalized := d.finalized }
  | .error x => .error x

end Verif.Bits
