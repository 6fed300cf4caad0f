import Verif.Wire.Props
import Verif.Dict
/-!
Model of `runtimepy/primitives/array/__init__.py` and
`runtimepy/primitives/serializable/{base,fixed,prefixed}.py`.

Primitives and serializables are mutable objects shared by reference (an array and its
fragments hold the same primitives), so they live in a heap: `prim` and `node` give the object
behind a reference, `np` and `nn` are the next unused references. Callbacks, scalings and time
stamps of primitives are not part of this model (see `Prim`). A prefixed chunk owns its prefix
primitive, as one made by `PrefixedChunk.create` does.
-/
namespace Verif.Serial

open Verif.Wire

/-- A primitive: kind and value (primitives/base.py 52–69). -/
structure PrimCell where
  kind : Kind
  val : Val
  deriving DecidableEq, Repr

/-- `ArrayFragmentSpec`, array/__init__.py 24–30. -/
structure FragSpec where
  indexStart : Nat
  indexEnd : Nat
  byteStart : Nat
  byteEnd : Nat
  deriving DecidableEq, Repr

/-- The attributes of a `PrimitiveArray`, array/__init__.py 45–64. `fmt` is `_format` as the
list of element kinds; the fragments are references to further arrays. -/
structure Arr where
  order : ByteOrder
  prims : List Nat
  fmt : List Kind
  size : Nat
  toIndex : List (Nat × Nat)
  toByte : List (Nat × Nat)
  specs : List FragSpec
  frags : List Nat
  deriving DecidableEq, Repr

/-- The attributes of a `PrefixedChunk`, serializable/prefixed.py 25–43, with the value of its
prefix primitive and the data of its chunk. -/
structure Pre where
  kind : IntKind
  order : ByteOrder
  pfx : Int
  data : Bytes
  size : Nat
  deriving DecidableEq, Repr

/-- The three kinds of serializable. A `FixedChunk` (serializable/fixed.py) is its data; its
size is always the length of the data (fixed.py 21, 40). -/
inductive Body where
  | array (a : Arr)
  | fixed (data : Bytes)
  | prefixed (p : Pre)
  deriving DecidableEq, Repr

/-- A serializable with its `chain` attribute, serializable/base.py 27–39. -/
structure Node where
  body : Body
  next : Option Nat
  deriving DecidableEq, Repr

/-- All objects. -/
structure Heap where
  prim : Nat → PrimCell
  node : Nat → Node
  np : Nat
  nn : Nat

/-- The state before anything is created. -/
def Heap.empty : Heap := ⟨fun _ => ⟨.bool, .bool false⟩, fun _ => ⟨.fixed [], none⟩, 0, 0⟩

/-! ### Packing -/

/-- Padding inserted by `struct` before an element: only with native alignment, where every
element is aligned to its own size (x86-64, arm64). -/
def padLen (o : ByteOrder) (off size : Nat) : Nat :=
  if o = .native then (size - off % size) % size else 0

/-- `struct.pack(format, *values)`, array/__init__.py 227. -/
def pack (o : ByteOrder) : Nat → List (Kind × Val) → Except PyErr Bytes
  | _, [] => .ok []
  | off, (k, v) :: rest =>
    let p := padLen o off k.size
    match encode k o v with
    | .error e => .error e
    | .ok b =>
      match pack o (off + p + k.size) rest with
      | .error e => .error e
      | .ok bs => .ok (List.replicate p 0 ++ b ++ bs)

/-- `struct.calcsize(format)`. -/
def calcsize (o : ByteOrder) : Nat → List Kind → Nat
  | off, [] => off
  | off, k :: rest => calcsize o (off + padLen o off k.size + k.size) rest

/-- Reading the elements one after the other. -/
def unpackFrom (o : ByteOrder) : Nat → List Kind → Bytes → Except PyErr (List Val)
  | _, [], _ => .ok []
  | off, k :: rest, bs =>
    let p := padLen o off k.size
    match decode k o ((bs.drop p).take k.size) with
    | .error e => .error e
    | .ok v =>
      match unpackFrom o (off + p + k.size) rest (bs.drop (p + k.size)) with
      | .error e => .error e
      | .ok vs => .ok (v :: vs)

/-- `struct.unpack(format, data)`, array/__init__.py 237: the size must match exactly. -/
def unpack (o : ByteOrder) (fmt : List Kind) (data : Bytes) : Except PyErr (List Val) :=
  if data.length = calcsize o 0 fmt then unpackFrom o 0 fmt data else .error .struct

/-! ### Objects -/

/-- What assigning to a primitive keeps: ctypes wraps integers. Conversions between numbers and
floating-point values are not modelled. -/
def storeVal : Kind → Val → Val
  | .int k, .int v => .int (wrap k v)
  | .int k, .bool b => .int (wrap k (if b then 1 else 0))
  | .bool, .int v => .bool (v ≠ 0)
  | _, v => v

/-- `Primitive.set_value`, primitives/base.py 156–166 (value only). -/
def Heap.setPrim (h : Heap) (r : Nat) (v : Val) : Heap :=
  { h with prim := fun q => if q = r then ⟨(h.prim r).kind, storeVal (h.prim r).kind v⟩ else h.prim q }

/-- The loop of `PrimitiveArray.update`, array/__init__.py 236–239. -/
def Heap.setAll (h : Heap) : List Nat → List Val → Heap
  | r :: rs, v :: vs => (h.setPrim r v).setAll rs vs
  | _, _ => h

def Heap.setNode (h : Heap) (i : Nat) (n : Node) : Heap :=
  { h with node := fun q => if q = i then n else h.node q }

def Heap.setBody (h : Heap) (i : Nat) (b : Body) : Heap := h.setNode i ⟨b, (h.node i).next⟩

/-- Creating a primitive (primitives/base.py 52–69). -/
def Heap.newPrim (h : Heap) (k : Kind) (v : Val) : Heap × Nat :=
  ({ h with prim := fun q => if q = h.np then ⟨k, storeVal k v⟩ else h.prim q, np := h.np + 1 }, h.np)

/-- Creating a serializable. -/
def Heap.newNode (h : Heap) (b : Body) : Heap × Nat :=
  ({ h with node := fun q => if q = h.nn then ⟨b, none⟩ else h.node q, nn := h.nn + 1 }, h.nn)

/-! ### Arrays -/

/-- An empty array, array/__init__.py 45–57 and 61–62. -/
def Arr.empty (o : ByteOrder) : Arr := ⟨o, [], [], 0, [(0, 0)], [(0, 0)], [], []⟩

/-- Appending one primitive, array/__init__.py 193–195 and 200–204. -/
def Arr.push (a : Arr) (k : Kind) (r : Nat) : Arr :=
  { a with prims := a.prims ++ [r], fmt := a.fmt ++ [k], size := a.size + k.size }

/-- The look-ups for the current tail, array/__init__.py 207–209. -/
def Arr.mark (a : Arr) : Arr :=
  { a with toIndex := dset a.toIndex a.size a.prims.length,
           toByte := dset a.toByte a.prims.length a.size }

/-- Adding the initial items, array/__init__.py 55–57. -/
def Arr.addAll (h : Heap) (a : Arr) : List Nat → Arr
  | [] => a
  | r :: rest => Arr.addAll h (a.push (h.prim r).kind r).mark rest

/-- `PrimitiveArray.__init__`, array/__init__.py 36–70, without fragments. -/
def Heap.newArray (h : Heap) (o : ByteOrder) (refs : List Nat) : Heap × Nat :=
  h.newNode (.array (Arr.addAll h (Arr.empty o) refs))

/-- `reset`, array/__init__.py 71–80. -/
def Arr.reset (a : Arr) : Arr := Arr.empty a.order

/-- `byte_at_index`, array/__init__.py 156–162. -/
def Arr.byteAtIndex (a : Arr) (i : Nat) : Except PyErr Nat :=
  match dget a.toByte i with
  | some b => .ok b
  | none => .error .key

/-- `index_at_byte`, array/__init__.py 164–166. -/
def Arr.indexAtByte (a : Arr) (b : Nat) : Except PyErr Nat :=
  match dget a.toIndex b with
  | some i => .ok i
  | none => .error .key

/-- `_index_fragment_spec`, array/__init__.py 99–113; `none` is the end `-1`. -/
def Arr.indexSpec (a : Arr) (start : Nat) (e : Option Nat) : Except PyErr FragSpec :=
  let e := e.getD a.prims.length
  if e > start then
    match a.byteAtIndex start with
    | .error x => .error x
    | .ok bs =>
      match a.byteAtIndex e with
      | .error x => .error x
      | .ok be => .ok ⟨start, e, bs, be⟩
  else .error .assertion

/-- `_byte_fragment_spec`, array/__init__.py 115–129. -/
def Arr.byteSpec (a : Arr) (start : Nat) (e : Option Nat) : Except PyErr FragSpec :=
  let e : Except PyErr Nat :=
    match e with
    | some e => .ok e
    | none => a.byteAtIndex a.prims.length
  match e with
  | .error x => .error x
  | .ok e =>
    if e > start then
      match a.indexAtByte start with
      | .error x => .error x
      | .ok is =>
        match a.indexAtByte e with
        | .error x => .error x
        | .ok ie => .ok ⟨is, ie, start, e⟩
    else .error .assertion

/-- `_create_fragment` and `_add_fragment`, array/__init__.py 91–97 and 131–140. Returns the
index of the fragment. -/
def Heap.addFragment (h : Heap) (i : Nat) (a : Arr) (s : FragSpec) : Heap × Nat :=
  let (h, f) := h.newArray a.order ((a.prims.take s.indexEnd).drop s.indexStart)
  (h.setBody i (.array { a with specs := a.specs ++ [s], frags := a.frags ++ [f] }), a.frags.length)

/-- `fragment_from_indices`, array/__init__.py 142–147. -/
def Heap.fragIndices (h : Heap) (i start : Nat) (e : Option Nat) : Heap × Except PyErr Nat :=
  match (h.node i).body with
  | .array a =>
    match a.indexSpec start e with
    | .error x => (h, .error x)
    | .ok s => let (h, n) := h.addFragment i a s; (h, .ok n)
  | _ => (h, .error .attribute)

/-- `fragment_from_byte_indices`, array/__init__.py 149–154. -/
def Heap.fragBytes (h : Heap) (i start : Nat) (e : Option Nat) : Heap × Except PyErr Nat :=
  match (h.node i).body with
  | .array a =>
    match a.byteSpec start e with
    | .error x => (h, .error x)
    | .ok s => let (h, n) := h.addFragment i a s; (h, .ok n)
  | _ => (h, .error .attribute)

/-! ### Bytes of one serializable -/

/-- `__bytes__`: array/__init__.py 224–227, fixed.py 30–32, prefixed.py 66–71. -/
def Heap.bytes (h : Heap) (i : Nat) : Except PyErr Bytes :=
  match (h.node i).body with
  | .array a =>
    if a.fmt.length = a.prims.length then
      pack a.order 0 (a.fmt.zip (a.prims.map (fun r => (h.prim r).val)))
    else .error .struct
  | .fixed d => .ok d
  | .prefixed p =>
    match encodeInt p.kind p.order p.pfx with
    | .error e => .error e
    | .ok b => .ok (b ++ p.data)

/-- `size`. -/
def Body.size : Body → Nat
  | .array a => a.size
  | .fixed d => d.length
  | .prefixed p => p.size

/-- `PrefixedChunk._update_size`, prefixed.py 52–57. -/
def Pre.updateSize (p : Pre) : Pre × Except PyErr Nat :=
  if p.pfx = p.data.length then
    let s := p.kind.size + p.pfx.toNat
    ({ p with size := s }, .ok s)
  else (p, .error .assertion)

/-- `PrefixedChunk.update`, prefixed.py 45–50. -/
def Pre.update (p : Pre) (data : Bytes) : Pre × Except PyErr Nat :=
  Pre.updateSize { p with data := data, pfx := wrap p.kind data.length }

/-- `update`: array/__init__.py 233–241, fixed.py 34–41, prefixed.py 45–50. -/
def Heap.update (h : Heap) (i : Nat) (data : Bytes) : Heap × Except PyErr Nat :=
  match (h.node i).body with
  | .array a =>
    match unpack a.order a.fmt data with
    | .error e => (h, .error e)
    | .ok vs => (h.setAll a.prims vs, .ok a.size)
  | .fixed _ => (h.setBody i (.fixed data), .ok data.length)
  | .prefixed p => (h.setBody i (.prefixed (p.update data).1), (p.update data).2)

/-- `update_fragment` and `fragment_bytes`, array/__init__.py 229–231 and 243–247: the array
`fragment(index)` (86–89). -/
def Heap.fragment (h : Heap) (i index : Nat) : Except PyErr Nat :=
  match (h.node i).body with
  | .array a =>
    match a.frags[index]? with
    | some f => .ok f
    | none => .error .index
  | _ => .error .attribute

/-- `_from_stream`: base.py 118–121, prefixed.py 73–82. Gives the result and the rest of the
stream. -/
def Heap.fromStreamOne (h : Heap) (i : Nat) (s : Bytes) : Heap × Except PyErr (Nat × Bytes) :=
  match (h.node i).body with
  | .prefixed p =>
    match decodeInt p.kind p.order (s.take p.kind.size) with
    | .error e => (h, .error e)
    | .ok v =>
      let s := s.drop p.kind.size
      let p : Pre := { p with pfx := v, data := s.take v.toNat }
      match p.updateSize with
      | (p, .error e) => (h.setBody i (.prefixed p), .error e)
      | (p, .ok n) => (h.setBody i (.prefixed p), .ok (n, s.drop v.toNat))
  | b =>
    match h.update i (s.take b.size) with
    | (h, .error e) => (h, .error e)
    | (h, .ok n) => (h, .ok (n, s.drop b.size))

/-! ### Chains

The methods of `Serializable` recurse along `chain`; here the members of the chain are collected
first. A cyclic chain makes Python raise `RecursionError` (a `RuntimeError`); Python's recursion
limit for long chains is not modelled. -/

/-- Following `chain`. -/
def Heap.walk (h : Heap) : Nat → Nat → Option (List Nat)
  | 0, _ => none
  | fuel + 1, i =>
    match (h.node i).next with
    | none => some [i]
    | some j => (h.walk fuel j).map (i :: ·)

/-- The members of the chain starting at `i`. -/
def Heap.chain (h : Heap) (i : Nat) : Except PyErr (List Nat) :=
  match h.walk h.nn i with
  | some l => .ok l
  | none => .error .runtime

/-- `length`, base.py 41–47. -/
def Heap.length (h : Heap) (i : Nat) : Except PyErr Nat :=
  (h.chain i).map (fun l => (l.map (fun j => (h.node j).body.size)).sum)

/-- `end`, base.py 57–64. -/
def Heap.lastOf (h : Heap) (i : Nat) : Except PyErr Nat :=
  (h.chain i).map (fun l => l.getLastD i)

/-- `to_stream` over the members, base.py 96–105: the bytes written and the result. -/
def Heap.writeAll (h : Heap) : List Nat → Except PyErr (Bytes × Nat)
  | [] => .ok ([], 0)
  | i :: rest =>
    match h.bytes i with
    | .error e => .error e
    | .ok b =>
      match h.writeAll rest with
      | .error e => .error e
      | .ok (bs, n) => .ok (b ++ bs, (h.node i).body.size + n)

/-- `to_stream`, base.py 96–105. -/
def Heap.toStream (h : Heap) (i : Nat) : Except PyErr (Bytes × Nat) :=
  match h.chain i with
  | .error e => .error e
  | .ok l => h.writeAll l

/-- `from_stream` over the members, base.py 123–131. -/
def Heap.readAll (h : Heap) : List Nat → Bytes → Heap × Except PyErr (Nat × Bytes)
  | [], s => (h, .ok (0, s))
  | i :: rest, s =>
    match h.fromStreamOne i s with
    | (h, .error e) => (h, .error e)
    | (h, .ok (n, s)) =>
      match h.readAll rest s with
      | (h, .error e) => (h, .error e)
      | (h, .ok (m, s)) => (h, .ok (n + m, s))

/-- `from_stream`, base.py 123–131. -/
def Heap.fromStream (h : Heap) (i : Nat) (s : Bytes) : Heap × Except PyErr (Nat × Bytes) :=
  match h.chain i with
  | .error e => (h, .error e)
  | .ok l => h.readAll l s

/-- `assign`, base.py 133–142. -/
def Heap.assign (h : Heap) (i j : Nat) : Heap × Except PyErr Nat :=
  match (h.node i).next with
  | some _ => (h, .error .assertion)
  | none => (h.setNode i ⟨(h.node i).body, some j⟩, .ok (h.node j).body.size)

/-! ### Copies -/

/-- Copies of primitives, primitives/base.py 94–100. -/
def Heap.copyPrims (h : Heap) : List Nat → Heap × List Nat
  | [] => (h, [])
  | r :: rest =>
    let (h, q) := h.newPrim (h.prim r).kind (h.prim r).val
    let (h, qs) := h.copyPrims rest
    (h, q :: qs)

/-- The fragments of a new array, array/__init__.py 66–69. -/
def Heap.addFragments (h : Heap) (i : Nat) : List FragSpec → Heap
  | [] => h
  | s :: rest =>
    match (h.node i).body with
    | .array a => Heap.addFragments (h.addFragment i a s).1 i rest
    | _ => h

/-- `_copy_impl` with the byte order set by `copy_without_chain`: array/__init__.py 168–175,
fixed.py 26–28, prefixed.py 59–64, base.py 70–76. -/
def Heap.copyOne (h : Heap) (i : Nat) : Heap × Nat :=
  match (h.node i).body with
  | .array a =>
    let (h, refs) := h.copyPrims a.prims
    let (h, j) := h.newArray a.order refs
    (h.addFragments j a.specs, j)
  | .fixed d => h.newNode (.fixed d)
  | .prefixed p => h.newNode (.prefixed ⟨p.kind, p.order, p.pfx, p.data, p.kind.size + p.pfx.toNat⟩)

/-- `__copy__` over the members, base.py 78–86: copy the first, assign the copy of the rest. -/
def Heap.copyAll (h : Heap) : List Nat → Heap × Option Nat
  | [] => (h, none)
  | i :: rest =>
    let (h, j) := h.copyOne i
    let (h, n) := h.copyAll rest
    (h.setNode j ⟨(h.node j).body, n⟩, some j)

/-- `copy`, base.py 78–90. -/
def Heap.copy (h : Heap) (i : Nat) : Heap × Except PyErr Nat :=
  match h.chain i with
  | .error e => (h, .error e)
  | .ok l =>
    match h.copyAll l with
    | (h, some j) => (h, .ok j)
    | (h, none) => (h, .error .runtime)

/-- The additional array elements of `add_to_end`, base.py 156–159. -/
def Heap.addCopies (h : Heap) (i base : Nat) : Nat → Nat → Heap × Except PyErr Nat
  | 0, size => (h, .ok size)
  | n + 1, size =>
    match h.copy base with
    | (h, .error e) => (h, .error e)
    | (h, .ok c) =>
      match h.lastOf i with
      | .error e => (h, .error e)
      | .ok e =>
        match h.assign e c with
        | (h, .error x) => (h, .error x)
        | (h, .ok s) => h.addCopies i base n (size + s)

/-- `add_to_end`, base.py 144–161. -/
def Heap.addToEnd (h : Heap) (i j : Nat) (len : Option Nat) : Heap × Except PyErr Nat :=
  let base : Heap × Except PyErr Nat :=
    match len with
    | none => (h, .ok j)
    | some _ => h.copy j
  match base with
  | (h, .error e) => (h, .error e)
  | (h, .ok base) =>
    match h.lastOf i with
    | .error e => (h, .error e)
    | .ok e =>
      match h.assign e j with
      | (h, .error x) => (h, .error x)
      | (h, .ok s) =>
        match len with
        | none => (h, .ok s)
        | some n => h.addCopies i base (n - 1) s

/-- Appending a primitive and `array_length - 1` copies of it to an array,
array/__init__.py 193–209. -/
def Heap.pushMany (h : Heap) (i : Nat) (a : Arr) (r : Nat) (len : Option Nat) : Heap × Nat :=
  let k := (h.prim r).kind
  let (h, rs) := h.copyPrims (List.replicate (len.getD 1 - 1) r)
  let a := ((r :: rs).foldl (fun a r => a.push k r) a).mark
  (h.setBody i (.array a), a.size)

/-- `add`, array/__init__.py 187–222. -/
def Heap.add (h : Heap) (i r : Nat) (len : Option Nat) : Heap × Except PyErr Nat :=
  match (h.node i).body with
  | .array self =>
    match h.lastOf i with
    | .error e => (h, .error e)
    | .ok e =>
      match (h.node e).body with
      | .array a => let (h, n) := h.pushMany e a r len; (h, .ok n)
      | _ =>
        let (h, j) := h.newArray self.order []
        match h.assign e j with
        | (h, .error x) => (h, .error x)
        | (h, .ok _) =>
          match (h.node j).body with
          | .array a => let (h, n) := h.pushMany j a r len; (h, .ok n)
          | _ => (h, .error .attribute)
  | _ => (h, .error .attribute)

/-- `PrefixedChunk.__init__`, prefixed.py 25–43, with a new prefix primitive of value `v`
(`create`, 85–95, uses the default 0). -/
def Heap.newPrefixed (h : Heap) (k : IntKind) (o : ByteOrder) (v : Int) : Heap × Except PyErr Nat :=
  if k.signed then (h, .error .assertion)
  else
    let v := wrap k v
    let (h, i) := h.newNode
      (.prefixed ⟨k, o, v, List.replicate v.toNat 0, k.size + v.toNat⟩)
    (h, .ok i)

end Verif.Serial
