import Verif.Wire.Lemmas
/-!
C01, C02, C08: the wire encoding of primitives and integer bounds.
-/
namespace Verif.Wire

namespace Spec

/-- Smallest value of each integer type, as documented by C. -/
def lo : IntKind → Int
  | .int8 => -128
  | .int16 => -32768
  | .int32 => -2147483648
  | .int64 => -9223372036854775808
  | .uint8 | .uint16 | .uint32 | .uint64 => 0

/-- Largest value of each integer type. -/
def hi : IntKind → Int
  | .int8 => 127
  | .int16 => 32767
  | .int32 => 2147483647
  | .int64 => 9223372036854775807
  | .uint8 => 255
  | .uint16 => 65535
  | .uint32 => 4294967295
  | .uint64 => 18446744073709551615

/-- Number of bytes on the wire. -/
def bytes : IntKind → Nat
  | .int8 | .uint8 => 1
  | .int16 | .uint16 => 2
  | .int32 | .uint32 => 4
  | .int64 | .uint64 => 8

/-- Number of distinct values, `2^(8·bytes)`. -/
def card : IntKind → Int
  | .int8 | .uint8 => 256
  | .int16 | .uint16 => 65536
  | .int32 | .uint32 => 4294967296
  | .int64 | .uint64 => 18446744073709551616

/-- Value of a byte string read with the first byte most significant. -/
def beValue (bs : Bytes) : Nat := bs.foldl (fun a b => a * 256 + b.toNat) 0

/-- Value of a byte string read in a given order; only the host order is a choice. -/
def valueIn : ByteOrder → Bytes → Nat
  | .big, bs | .network, bs => beValue bs
  | .little, bs | .native, bs => beValue bs.reverse

end Spec

theorem packable_iff (k : IntKind) (v : Int) :
    packable k.size k.signed v = true ↔ Spec.lo k ≤ v ∧ v ≤ Spec.hi k := by
  have e7 : (2 : Int) ^ 7 = 128 := by decide
  have e8 : (2 : Int) ^ 8 = 256 := by decide
  have e15 : (2 : Int) ^ 15 = 32768 := by decide
  have e16 : (2 : Int) ^ 16 = 65536 := by decide
  have e31 : (2 : Int) ^ 31 = 2147483648 := by decide
  have e32 : (2 : Int) ^ 32 = 4294967296 := by decide
  have e63 : (2 : Int) ^ 63 = 9223372036854775808 := by decide
  have e64 : (2 : Int) ^ 64 = 18446744073709551616 := by decide
  cases k <;> simp only [packable, IntKind.size, IntKind.signed, Spec.lo, Spec.hi, if_true,
    Bool.false_eq_true, if_false, Bool.and_eq_true, decide_eq_true_eq, Nat.reduceMul,
    Nat.reduceSub, e7, e8, e15, e16, e31, e32, e63, e64] <;> omega

theorem spec_bytes (k : IntKind) : k.size = Spec.bytes k := by cases k <;> rfl

theorem spec_card (k : IntKind) : (2 : Int) ^ (8 * k.size) = Spec.card k := by cases k <;> decide

theorem foldl_be (bs : Bytes) (a : Nat) :
    bs.foldl (fun a b => a * 256 + b.toNat) a = a * 256 ^ bs.length + Spec.beValue bs := by
  induction bs generalizing a with
  | nil => simp [Spec.beValue]
  | cons b bs ih =>
    simp only [List.foldl_cons, Spec.beValue, List.length_cons]
    rw [ih, ih (0 * 256 + b.toNat)]
    rw [Nat.pow_succ]
    grind

theorem beValue_reverse (bs : Bytes) : Spec.beValue bs.reverse = ofDigitsLE bs := by
  induction bs with
  | nil => rfl
  | cons b bs ih =>
    simp only [List.reverse_cons, Spec.beValue, List.foldl_append, List.foldl_cons, List.foldl_nil]
    have : List.foldl (fun a b => a * 256 + b.toNat) 0 bs.reverse = ofDigitsLE bs := ih
    rw [this]
    simp only [ofDigitsLE]
    omega

theorem valueIn_eq (o : ByteOrder) (bs : Bytes) :
    Spec.valueIn o bs = ofDigitsLE (arrange o bs) := by
  cases o <;> simp [Spec.valueIn, arrange, ← beValue_reverse]

/-- **C01** In-range integers encode to exactly the type's number of bytes and decode to
themselves; out-of-range integers are refused. -/
theorem C01_encode_decode (k : IntKind) (o : ByteOrder) (v : Int) :
    (Spec.lo k ≤ v ∧ v ≤ Spec.hi k →
      ∃ bs, encodeInt k o v = .ok bs ∧ bs.length = Spec.bytes k ∧ decodeInt k o bs = .ok v) ∧
    (¬ (Spec.lo k ≤ v ∧ v ≤ Spec.hi k) → encodeInt k o v = .error .struct) := by
  rw [← packable_iff]
  constructor
  · intro h
    refine ⟨_, by simp only [encodeInt, h, if_true]; rfl, ?_, ?_⟩
    · rw [arrange_length, digitsLE_length, spec_bytes]
    · simp only [decodeInt, arrange_length, digitsLE_length, if_true, arrange_arrange,
        ofDigitsLE_digitsLE, pow_256, Nat.mod_eq_of_lt (toPattern_lt _ _)]
      rw [ofPattern_toPattern _ _ _ k.size_pos h]
  · intro h
    simp [encodeInt, h]

/-- **C01** The bytes written are the base-256 digits of the integer modulo `2^bits`, in the
requested order. -/
theorem C01_encode_positional (k : IntKind) (o : ByteOrder) (v : Int) (bs : Bytes)
    (h : encodeInt k o v = .ok bs) : (Spec.valueIn o bs : Int) = v % Spec.card k := by
  unfold encodeInt at h
  split at h
  · injection h with h
    subst h
    rw [valueIn_eq, arrange_arrange, ofDigitsLE_digitsLE, pow_256,
      Nat.mod_eq_of_lt (toPattern_lt _ _), toPattern_cast, spec_card]
  · exact absurd h (by simp)

example : encodeInt .int16 .network (-2) = .ok [0xff, 0xfe] ∧
    encodeInt .int16 .little (-2) = .ok [0xfe, 0xff] ∧
    encodeInt .uint32 .big 0x01020304 = .ok [1, 2, 3, 4] ∧
    encodeInt .uint8 .big 256 = .error .struct := by decide

/-- **C02** Every byte string of the right length decodes to an in-range integer, congruent
to its positional value, and re-encodes to itself; any other length is refused. -/
theorem C02_decode_encode (k : IntKind) (o : ByteOrder) (bs : Bytes) :
    (bs.length = Spec.bytes k →
      ∃ v, decodeInt k o bs = .ok v ∧ Spec.lo k ≤ v ∧ v ≤ Spec.hi k ∧
        v % Spec.card k = (Spec.valueIn o bs : Int) % Spec.card k ∧
        encodeInt k o v = .ok bs) ∧
    (bs.length ≠ Spec.bytes k → decodeInt k o bs = .error .struct) := by
  rw [← spec_bytes]
  constructor
  · intro h
    have hlt : ofDigitsLE (arrange o bs) < 2 ^ (8 * k.size) := by
      have := ofDigitsLE_lt (arrange o bs)
      rwa [arrange_length, h, pow_256] at this
    have hp := packable_ofPattern k.size k.signed _ k.size_pos hlt
    have hr := (packable_iff k _).1 hp
    refine ⟨_, by simp only [decodeInt, h, if_true], hr.1, hr.2, ?_, ?_⟩
    · rw [← spec_card, ofPattern_emod, valueIn_eq]
    · have hl : k.size = (arrange o bs).length := by rw [arrange_length, h]
      simp only [encodeInt, hp, if_true]
      rw [toPattern_ofPattern _ _ _ hlt]
      congr 1
      conv => lhs; rw [hl]
      rw [digitsLE_ofDigitsLE, arrange_arrange]
  · intro h
    simp [decodeInt, h]

/-- **C02** Big-endian bytes are the little-endian bytes reversed, network order is big-endian,
and two distinct in-range integers never share an encoding. -/
theorem C02_orders (k : IntKind) (v : Int) :
    encodeInt k .big v = (encodeInt k .little v).map List.reverse ∧
    encodeInt k .network v = encodeInt k .big v ∧
    encodeInt k .native v = encodeInt k .little v := by
  unfold encodeInt
  split <;> simp [arrange, Except.map]

/-- **C02** Encoding is injective. -/
theorem C02_encode_injective (k : IntKind) (o : ByteOrder) (v w : Int) (bs : Bytes)
    (hv : encodeInt k o v = .ok bs) (hw : encodeInt k o w = .ok bs) : v = w := by
  by_cases h1 : Spec.lo k ≤ v ∧ v ≤ Spec.hi k
  · obtain ⟨b1, e1, -, d1⟩ := (C01_encode_decode k o v).1 h1
    by_cases h2 : Spec.lo k ≤ w ∧ w ≤ Spec.hi k
    · obtain ⟨b2, e2, -, d2⟩ := (C01_encode_decode k o w).1 h2
      rw [hv] at e1; rw [hw] at e2
      injection e1 with e1; injection e2 with e2
      subst e1; subst e2
      rw [d1] at d2; injection d2
    · rw [(C01_encode_decode k o w).2 h2] at hw; exact absurd hw (by simp)
  · rw [(C01_encode_decode k o v).2 h1] at hv; exact absurd hv (by simp)

example : decodeInt .int8 .big [0x80] = .ok (-128) ∧
    decodeInt .uint16 .little [0x34, 0x12] = .ok 0x1234 ∧
    decodeInt .uint16 .big [0x34] = .error .struct := by decide

/-- A value of a primitive type: integers in range, booleans, bit patterns. -/
def Spec.HasKind : Kind → Val → Prop
  | .int k, .int v => Spec.lo k ≤ v ∧ v ≤ Spec.hi k
  | .bool, .bool _ => True
  | .float, .f32 _ => True
  | .double, .f64 _ => True
  | _, _ => False

instance (k : Kind) (v : Val) : Decidable (Spec.HasKind k v) := by
  cases k <;> cases v <;> simp only [Spec.HasKind] <;> infer_instance

theorem encode_length (k : Kind) (o : ByteOrder) (v : Val) (bs : Bytes)
    (h : encode k o v = .ok bs) : bs.length = k.size := by
  have hi : ∀ k o v bs, encodeInt k o v = .ok bs → bs.length = k.size := by
    intro k o v bs h
    unfold encodeInt at h
    split at h
    · injection h with h; subst h; simp [arrange_length, digitsLE_length]
    · exact absurd h (by simp)
  cases k <;> cases v <;> simp only [encode] at h <;> first
    | exact hi _ _ _ _ h
    | (injection h with h; subst h; simp [arrange_length, digitsLE_length, Kind.size])
    | exact absurd h (by simp)

/-- **C01** For every primitive type (integers, booleans and float bit patterns) and every
value of that type, encoding succeeds with the type's size and decodes to the same value. -/
theorem C01_all_kinds (k : Kind) (o : ByteOrder) (v : Val) (h : Spec.HasKind k v) :
    ∃ bs, encode k o v = .ok bs ∧ bs.length = k.size ∧ decode k o bs = .ok v := by
  have key : ∀ n p, p < 256 ^ n →
      ofDigitsLE (arrange o (arrange o (digitsLE n p))) = p := by
    intro n p hp
    rw [arrange_arrange, ofDigitsLE_digitsLE, Nat.mod_eq_of_lt hp]
  cases k <;> cases v <;> simp only [Spec.HasKind] at h
  · rename_i k v
    obtain ⟨bs, e, l, d⟩ := (C01_encode_decode k o v).1 h
    exact ⟨bs, e, by rw [l, ← spec_bytes]; rfl, by
      simp [decode, Kind.size, l, spec_bytes, d, Except.map]⟩
  · rename_i b
    exact ⟨_, rfl, rfl, by cases b <;> rfl⟩
  · rename_i p
    refine ⟨_, rfl, by simp [arrange_length, digitsLE_length, Kind.size], ?_⟩
    have := key 4 p.toNat (by have := p.toNat_lt; omega)
    simp [decode, Kind.size, arrange_length, digitsLE_length, this]
  · rename_i p
    refine ⟨_, rfl, by simp [arrange_length, digitsLE_length, Kind.size], ?_⟩
    have := key 8 p.toNat (by have := p.toNat_lt; omega)
    simp [decode, Kind.size, arrange_length, digitsLE_length, this]

example : Spec.HasKind (.int .int8) (.int (-128)) ∧ Spec.HasKind .double (.f64 0x3ff0000000000000) ∧
    encode .double .network (.f64 0x3ff0000000000000) = .ok [0x3f, 0xf0, 0, 0, 0, 0, 0, 0] := by
  refine ⟨by simp [Spec.HasKind, Spec.lo, Spec.hi], trivial, by decide⟩

/-- C01, values of the other type: a boolean written to an integer comes back as 0 or 1, an integer written to a boolean
as whether it is not zero. -/
theorem C01_mixed (o : ByteOrder) :
    (∀ (k : IntKind) (b : Bool), ∃ bs, encode (.int k) o (.bool b) = .ok bs ∧
      decode (.int k) o bs = .ok (.int (if b then 1 else 0))) ∧
    (∀ v : Int, encode .bool o (.int v) = encode .bool o (.bool (decide (v ≠ 0)))) := by
  constructor
  · intro k b
    have h : Spec.HasKind (.int k) (.int (if b then 1 else 0)) := by
      cases b <;> cases k <;> simp [Spec.HasKind, Spec.lo, Spec.hi]
    obtain ⟨bs, h1, -, h2⟩ := C01_all_kinds (.int k) o _ h
    exact ⟨bs, h1, h2⟩
  · intro v
    by_cases hv : v = 0 <;> simp [encode, hv]

/-- **C02** Decoding in any type gives a value of that type; only booleans identify several
byte strings. -/
theorem C02_decode_hasKind (k : Kind) (o : ByteOrder) (bs : Bytes) (hl : bs.length = k.size) :
    ∃ v, decode k o bs = .ok v ∧ Spec.HasKind k v ∧ (k ≠ .bool → encode k o v = .ok bs) := by
  have key : ∀ n, bs.length = n → arrange o (digitsLE n (ofDigitsLE (arrange o bs))) = bs := by
    intro n hn
    have : n = (arrange o bs).length := by rw [arrange_length, hn]
    conv => lhs; rw [this]
    rw [digitsLE_ofDigitsLE, arrange_arrange]
  cases k with
  | int k =>
    have hl' : bs.length = Spec.bytes k := by rw [hl, ← spec_bytes]; rfl
    obtain ⟨v, d, h1, h2, -, e⟩ := (C02_decode_encode k o bs).1 hl'
    exact ⟨.int v, by simp [decode, hl, d, Except.map], ⟨h1, h2⟩, fun _ => e⟩
  | bool => exact ⟨.bool (bs ≠ [0]), by simp [decode, hl], trivial, fun h => absurd rfl h⟩
  | float =>
    refine ⟨.f32 (UInt32.ofNat (ofDigitsLE (arrange o bs))), by simp [decode, hl], trivial, fun _ => ?_⟩
    have hlt := ofDigitsLE_lt (arrange o bs)
    rw [arrange_length, hl] at hlt
    simp only [encode]
    rw [UInt32.toNat_ofNat', Nat.mod_eq_of_lt (by simpa [Kind.size] using hlt), key 4 hl]
  | double =>
    refine ⟨.f64 (UInt64.ofNat (ofDigitsLE (arrange o bs))), by simp [decode, hl], trivial, fun _ => ?_⟩
    have hlt := ofDigitsLE_lt (arrange o bs)
    rw [arrange_length, hl] at hlt
    simp only [encode]
    rw [UInt64.toNat_ofNat', Nat.mod_eq_of_lt (by simpa [Kind.size] using hlt), key 8 hl]

/-! ### C08 integer bounds -/

/-- **C08** The bounds of every integer type are its documented range. -/
theorem C08_bounds (k : IntKind) : k.bounds = ⟨Spec.lo k, Spec.hi k⟩ := by
  cases k <;> decide

/-- **C08** For every positive byte count, the bounds are the two's complement range or the
unsigned range: exactly the integers representable in that many bytes. -/
theorem C08_create (n : Nat) (hn : 0 < n) (s : Bool) (v : Int) :
    (IntegerBounds.create n s).validate v = true ↔
      (if s then -(2 ^ (8 * n) : Int) ≤ 2 * v ∧ 2 * v < 2 ^ (8 * n)
       else 0 ≤ v ∧ v < 2 ^ (8 * n)) := by
  have hs := pow_split n hn
  have hc : n * 8 = 8 * n := Nat.mul_comm _ _
  cases s <;> simp [IntegerBounds.create, IntegerBounds.validate, hc] <;> omega

/-- **C08** Clamping gives an in-range value, fixes in-range values, is at least as close as
any other in-range value, and validation accepts exactly the in-range values. -/
theorem C08_clamp_nearest (b : IntegerBounds) (hb : b.min ≤ b.max) (v : Int) :
    (b.min ≤ b.clamp v ∧ b.clamp v ≤ b.max) ∧
    (b.min ≤ v ∧ v ≤ b.max → b.clamp v = v) ∧
    (∀ w, b.min ≤ w ∧ w ≤ b.max → (b.clamp v - v).natAbs ≤ (w - v).natAbs) ∧
    b.clamp (b.clamp v) = b.clamp v ∧
    (b.validate v = true ↔ b.min ≤ v ∧ v ≤ b.max) := by
  unfold IntegerBounds.clamp IntegerBounds.validate
  refine ⟨by omega, by omega, ?_, by omega, by simp⟩
  intro w hw
  omega

example : IntKind.int8.bounds.min ≤ IntKind.int8.bounds.max ∧
    IntKind.int8.bounds.clamp 300 = 127 ∧ IntKind.int8.bounds.clamp (-300) = -128 ∧
    IntKind.int8.bounds.clamp 5 = 5 := by decide

end Verif.Wire
