import Verif.Base
/-!
Model of `runtimepy/primitives/types/*` and `runtimepy/primitives/byte_order.py`:
primitive types, integer bounds, byte orders and the `struct` encoding of values.
-/
namespace Verif.Wire

/-- `ByteOrder`, byte_order.py 9–15. -/
inductive ByteOrder where
  | native | little | big | network
  deriving DecidableEq, Repr

/-- `DEFAULT_BYTE_ORDER`, byte_order.py 34. -/
def defaultByteOrder : ByteOrder := .network

/-- The integer types of types/int.py 18–151. -/
inductive IntKind where
  | int8 | int16 | int32 | int64 | uint8 | uint16 | uint32 | uint64
  deriving DecidableEq, Repr

/-- `calcsize` of the formats b, h, i, q, B, H, I, Q: types/int.py 27, 44, 61, 78,
95, 112, 129, 146 with types/base.py 83. -/
def IntKind.size : IntKind → Nat
  | .int8 | .uint8 => 1
  | .int16 | .uint16 => 2
  | .int32 | .uint32 => 4
  | .int64 | .uint64 => 8

/-- The `signed` argument of `PrimitiveType.__init__`: default true (types/base.py 73),
false in types/int.py 95, 112, 129, 146. -/
def IntKind.signed : IntKind → Bool
  | .int8 | .int16 | .int32 | .int64 => true
  | .uint8 | .uint16 | .uint32 | .uint64 => false

/-- `PrimitiveType.bits`, types/base.py 84. -/
def IntKind.bits (k : IntKind) : Nat := k.size * 8

/-- `IntegerBounds`, types/bounds.py 10–14. -/
structure IntegerBounds where
  min : Int
  max : Int
  deriving DecidableEq, Repr

namespace IntegerBounds

/-- `IntegerBounds.validate`, types/bounds.py 16–18. -/
def validate (b : IntegerBounds) (v : Int) : Bool := decide (b.min ≤ v) && decide (v ≤ b.max)

/-- `IntegerBounds.clamp`, types/bounds.py 20–26. -/
def clamp (b : IntegerBounds) (v : Int) : Int := Max.max b.min (Min.min v b.max)

/-- `IntegerBounds.create`, types/bounds.py 28–34. For `byte_count = 0` Python would
compute fractional powers; the exponents here use truncated subtraction, so the
model only speaks for positive byte counts (the only ones the code passes). -/
def create (byteCount : Nat) (signed : Bool) : IntegerBounds :=
  let minVal : Int := if !signed then 0 else -1 * (2 ^ (byteCount * 8 - 1))
  let width : Nat := if !signed then 8 * byteCount else 8 * byteCount - 1
  ⟨minVal, 2 ^ width - 1⟩

end IntegerBounds

/-- The `int_bounds` given to each integer type: types/int.py 29, 46, 63, 80, 97, 114,
131, 148. -/
def IntKind.bounds (k : IntKind) : IntegerBounds := IntegerBounds.create k.size k.signed

/-- The primitive types a channel or array element can have: types/int.py, types/bool.py,
types/float.py. Half precision is left out (its wire format rounds the stored value). -/
inductive Kind where
  | int (k : IntKind)
  | bool
  | float
  | double
  deriving DecidableEq, Repr

/-- `PrimitiveType.size`, types/base.py 83 (`?`: 1, `f`: 4, `d`: 8). -/
def Kind.size : Kind → Nat
  | .int k => k.size
  | .bool => 1
  | .float => 4
  | .double => 8

/-- Python values stored in primitives. Floats are carried as the bit pattern of the
stored C value; no arithmetic is done on them in this file. -/
inductive Val where
  | int (v : Int)
  | bool (b : Bool)
  | f32 (bits : UInt32)
  | f64 (bits : UInt64)
  deriving DecidableEq, Repr

/-- The `n` least significant base-256 digits of `v`, least significant first: what
`struct` writes for a little-endian `n`-byte integer. -/
def digitsLE : Nat → Nat → Bytes
  | 0, _ => []
  | n + 1, v => UInt8.ofNat (v % 256) :: digitsLE n (v / 256)

/-- The number whose little-endian base-256 digits are given: what `struct` reads. -/
def ofDigitsLE : Bytes → Nat
  | [] => 0
  | b :: bs => b.toNat + 256 * ofDigitsLE bs

/-- Placing the digits according to the byte order character, byte_order.py 17–27:
`<` least significant first, `>` and `!` most significant first, `@` the host's order
(taken to be little-endian, as on the supported x86-64 and arm64 hosts). -/
def arrange : ByteOrder → Bytes → Bytes
  | .native, bs | .little, bs => bs
  | .big, bs | .network, bs => bs.reverse

/-- Two's complement pattern of an integer in `n` bytes. -/
def toPattern (n : Nat) (v : Int) : Nat := (v % (2 ^ (8 * n) : Int)).toNat

/-- Reading a pattern of `n` bytes as signed or unsigned. -/
def ofPattern (n : Nat) (signed : Bool) (p : Nat) : Int :=
  if signed && decide (2 ^ (8 * n - 1) ≤ p) then (p : Int) - 2 ^ (8 * n) else p

/-- The range `struct` accepts for an `n`-byte integer format. -/
def packable (n : Nat) (signed : Bool) (v : Int) : Bool :=
  if signed then decide (-(2 ^ (8 * n - 1) : Int) ≤ v) && decide (v < 2 ^ (8 * n - 1))
  else decide (0 ≤ v) && decide (v < 2 ^ (8 * n))

/-- `PrimitiveType.encode`, types/base.py 128–134, for integer types: `struct.pack`
raises `struct.error` when the integer is out of range. -/
def encodeInt (k : IntKind) (o : ByteOrder) (v : Int) : Except PyErr Bytes :=
  if packable k.size k.signed v then
    .ok (arrange o (digitsLE k.size (toPattern k.size v)))
  else .error .struct

/-- `PrimitiveType.decode`, types/base.py 136–140, for integer types: `struct.unpack`
raises `struct.error` unless the buffer has exactly the right size. -/
def decodeInt (k : IntKind) (o : ByteOrder) (bs : Bytes) : Except PyErr Int :=
  if bs.length = k.size then
    .ok (ofPattern k.size k.signed (ofDigitsLE (arrange o bs)))
  else .error .struct

/-- `PrimitiveType.encode`, types/base.py 128–134, all types. `?` accepts any value and
writes its truth value; a Python `bool` is an `int`, so integer formats accept it.
Simplification: numeric conversions between `int` and `float` values are not modelled
(a float pattern given to another format, or an integer given to a float format, is
reported as an error). -/
def encode (k : Kind) (o : ByteOrder) (v : Val) : Except PyErr Bytes :=
  match k, v with
  | .int k, .int v => encodeInt k o v
  | .int k, .bool b => encodeInt k o (if b then 1 else 0)
  | .bool, .bool b => .ok [if b then 1 else 0]
  | .bool, .int v => .ok [if v = 0 then 0 else 1]
  | .float, .f32 p => .ok (arrange o (digitsLE 4 p.toNat))
  | .double, .f64 p => .ok (arrange o (digitsLE 8 p.toNat))
  | _, _ => .error .struct

/-- `PrimitiveType.decode`, types/base.py 136–140, all types; `?` reads any non-zero
byte as true. -/
def decode (k : Kind) (o : ByteOrder) (bs : Bytes) : Except PyErr Val :=
  if bs.length = k.size then
    match k with
    | .int k => (decodeInt k o bs).map .int
    | .bool => .ok (.bool (bs ≠ [0]))
    | .float => .ok (.f32 (UInt32.ofNat (ofDigitsLE (arrange o bs))))
    | .double => .ok (.f64 (UInt64.ofNat (ofDigitsLE (arrange o bs))))
  else .error .struct

/-- Assigning to `raw.value` of a ctypes integer (`c_byte` … `c_ulonglong`, types/base.py
25–32): the integer is reduced modulo `2^bits` into the type's range, without error. -/
def wrap (k : IntKind) (v : Int) : Int := ofPattern k.size k.signed (toPattern k.size v)

end Verif.Wire
