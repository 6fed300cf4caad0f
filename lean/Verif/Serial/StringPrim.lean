import Verif.Wire.Props
import Verif.Utf8
/-! C25: string primitives, primitives/string.py. -/
namespace Verif.Serial

open Verif.Wire

/-- `StringPrimitive`: the value and the size primitive of type `kind`. -/
structure Str where
  kind : IntKind
  order : ByteOrder
  value : List Char
  size : Int
  deriving DecidableEq

/-- `__init__`, string.py 20–31: the size is the number of characters, wrapped by ctypes. -/
def Str.new (k : IntKind) (o : ByteOrder) (v : List Char) : Str := ⟨k, o, v, wrap k v.length⟩

/-- `set`, string.py 62–65. -/
def Str.set (s : Str) (v : List Char) : Str := { s with value := v, size := wrap s.kind v.length }

/-- `size`, string.py 67–70. -/
def Str.total (s : Str) : Int := s.size + s.kind.size

/-- `write`, string.py 72–75: the bytes written and the result. -/
def Str.write (s : Str) : Except PyErr (Bytes × Nat) :=
  match encodeInt s.kind s.order s.size with
  | .error e => .error e
  | .ok b => .ok (b ++ utf8 s.value, b.length + (utf8 s.value).length)

/-- `read`, string.py 77–82: a negative count reads to the end. -/
def Str.read (s : Str) (stream : Bytes) : Str × Except PyErr (List Char × Bytes) :=
  match decodeInt s.kind s.order (stream.take s.kind.size) with
  | .error e => (s, .error e)
  | .ok n =>
    let s := { s with size := n }
    let rest := stream.drop s.kind.size
    let data := if n < 0 then rest else rest.take n.toNat
    let rest := if n < 0 then [] else rest.drop n.toNat
    match utf8Dec data with
    | .error e => (s, .error e)
    | .ok v => ({ s with value := v }, .ok (v, rest))

/-- What reading back a written string does when its length fits the size type. -/
theorem read_written (s r : Str) (hfit : Spec.lo s.kind ≤ s.value.length ∧ (s.value.length : Int) ≤ Spec.hi s.kind)
    (hs : s.size = wrap s.kind s.value.length) (hk : r.kind = s.kind) (ho : r.order = s.order) :
    ∃ pre, s.write = .ok (pre ++ utf8 s.value, (pre ++ utf8 s.value).length) ∧ pre.length = Spec.bytes s.kind
      ∧ ∀ rest, r.read (pre ++ utf8 s.value ++ rest)
        = match utf8Dec ((utf8 s.value ++ rest).take s.value.length) with
          | .error e => ({ r with size := s.value.length }, .error e)
          | .ok v => ({ r with size := s.value.length, value := v },
              .ok (v, (utf8 s.value ++ rest).drop s.value.length)) := by
  have hw : s.size = s.value.length := by
    rw [hs]; exact wrap_of_packable _ _ ((packable_iff _ _).mpr hfit)
  obtain ⟨pre, eb, el, ed⟩ := (C01_encode_decode s.kind s.order s.value.length).1 hfit
  refine ⟨pre, by simp [Str.write, hw, eb], el, fun rest => ?_⟩
  rw [← spec_bytes] at el
  have ht : (pre ++ utf8 s.value ++ rest).take r.kind.size = pre := by
    rw [hk, ← el, List.append_assoc]; simp
  have hd : (pre ++ utf8 s.value ++ rest).drop r.kind.size = utf8 s.value ++ rest := by
    rw [hk, ← el, List.append_assoc]; simp
  have hdec : decodeInt r.kind r.order pre = .ok (s.value.length : Int) := by rw [hk, ho]; exact ed
  have hneg : ¬ ((s.value.length : Int) < 0) := by omega
  unfold Str.read
  rw [ht, hdec]
  simp only [hd, hneg, if_false, Int.toNat_natCast]

/-- C25 (partial: ASCII strings whose length fits the size type). Writing and reading back gives
the same string, consumes exactly the bytes written, and the reported size is their number. -/
theorem C25_ascii_partial (k : IntKind) (o : ByteOrder) (v : List Char) (r : Str) (hk : r.kind = k) (ho : r.order = o)
    (hfit : (v.length : Int) ≤ Spec.hi k) (hascii : ∀ c ∈ v, c.val ≤ 127) :
    ∃ bs, (Str.new k o v).write = .ok (bs, bs.length) ∧ (Str.new k o v).total = bs.length
      ∧ ∀ rest, (r.read (bs ++ rest)).2 = .ok (v, rest) ∧ (r.read (bs ++ rest)).1.value = v
        ∧ (r.read (bs ++ rest)).1.total = bs.length := by
  have hlo : Spec.lo k ≤ (v.length : Int) := by
    have : Spec.lo k ≤ 0 := by cases k <;> decide
    omega
  have hlen := (utf8_length_eq_iff v).mpr hascii
  obtain ⟨pre, w1, w2, w3⟩ := read_written (Str.new k o v) r ⟨hlo, hfit⟩ rfl hk ho
  have hw : wrap k v.length = v.length := wrap_of_packable _ _ ((packable_iff _ _).mpr ⟨hlo, hfit⟩)
  have hv : (Str.new k o v).value = v := rfl
  rw [hv] at w1 w3
  have hsz : k.size = Spec.bytes k := spec_bytes k
  have htot : (wrap k v.length + k.size : Int) = ((pre ++ utf8 v).length : Nat) := by
    rw [hw, List.length_append, hlen, w2, hsz]
    simp only [Str.new]
    omega
  refine ⟨pre ++ utf8 v, w1, htot, fun rest => ?_⟩
  have ht : (utf8 v ++ rest).take v.length = utf8 v := by rw [← hlen]; simp
  have hd : (utf8 v ++ rest).drop v.length = rest := by rw [← hlen]; simp
  rw [w3 rest, ht, hd, utf8Dec_utf8]
  refine ⟨rfl, rfl, ?_⟩
  simp only [Str.total, hk]
  rw [hw] at htot
  exact htot

/-- C25 (partial: as above). The same of a primitive whose value was assigned any number of times,
whatever it held before: what is written is the last value. -/
theorem C25_assigned_partial (s : Str) (vs : List (List Char)) (v : List Char) (r : Str) (hk : r.kind = s.kind)
    (ho : r.order = s.order) (hfit : (v.length : Int) ≤ Spec.hi s.kind) (hascii : ∀ c ∈ v, c.val ≤ 127) :
    ∃ bs, ((vs ++ [v]).foldl Str.set s).write = .ok (bs, bs.length)
      ∧ ((vs ++ [v]).foldl Str.set s).total = bs.length
      ∧ ∀ rest, (r.read (bs ++ rest)).2 = .ok (v, rest) ∧ (r.read (bs ++ rest)).1.value = v := by
  have hh : ∀ (ws : List (List Char)) (s' : Str), s'.kind = s.kind → s'.order = s.order →
      (ws.foldl Str.set s').kind = s.kind ∧ (ws.foldl Str.set s').order = s.order := by
    intro ws
    induction ws with
    | nil => intro s' h1 h2; exact ⟨h1, h2⟩
    | cons w ws ih => intro s' h1 h2; exact ih (s'.set w) h1 h2
  have heq : (vs ++ [v]).foldl Str.set s = Str.new s.kind s.order v := by
    obtain ⟨h1, h2⟩ := hh vs s rfl rfl
    rw [List.foldl_append]
    simp only [List.foldl_cons, List.foldl_nil, Str.set, Str.new, h1, h2]
  obtain ⟨bs, w1, w2, w3⟩ := C25_ascii_partial s.kind s.order v r hk ho hfit hascii
  rw [heq]
  exact ⟨bs, w1, w2, fun rest => ⟨(w3 rest).1, (w3 rest).2.1⟩⟩

/-- C25. Exactly which strings round-trip: those of ASCII characters only. -/
theorem C25_round_trip_iff (k : IntKind) (o : ByteOrder) (v : List Char) (r : Str) (hk : r.kind = k) (ho : r.order = o)
    (hfit : (v.length : Int) ≤ Spec.hi k) :
    (∃ bs n, (Str.new k o v).write = .ok (bs, n) ∧ ∀ rest, (r.read (bs ++ rest)).2 = .ok (v, rest))
      ↔ ∀ c ∈ v, c.val ≤ 127 := by
  constructor
  · rintro ⟨bs, n, e1, e2⟩
    have hlo : Spec.lo k ≤ (v.length : Int) := by
      have : Spec.lo k ≤ 0 := by cases k <;> decide
      omega
    obtain ⟨pre, w1, w2, w3⟩ := read_written (Str.new k o v) r ⟨hlo, hfit⟩ rfl hk ho
    have hv : (Str.new k o v).value = v := rfl
    rw [hv] at w1 w3
    rw [w1] at e1
    cases e1
    have h := e2 []
    rw [w3 []] at h
    rw [← utf8_length_eq_iff]
    have hge := utf8_length_ge v
    cases hx : utf8Dec ((utf8 v ++ []).take v.length) with
    | error e => rw [hx] at h; cases h
    | ok v' =>
      rw [hx] at h
      dsimp only at h
      injection h with h
      injection h with h1 h2
      have := congrArg List.length h2
      simp at this
      omega
  · intro h
    obtain ⟨bs, h1, -, h3⟩ := C25_ascii_partial k o v r hk ho hfit h
    exact ⟨bs, _, h1, fun rest => (h3 rest).1⟩

/-- A one-character string outside ASCII is written with two bytes and a size of one: reading it
back raises. -/
theorem C25_non_ascii_fails :
    (Str.new .uint16 .network ['é']).write = .ok ([0, 1, 0xc3, 0xa9], 4)
    ∧ ((Str.new .uint16 .network []).read [0, 1, 0xc3, 0xa9]).2 = .error .unicode := by
  decide +kernel

/-- A string too long for the size type is written with a wrapped size: the reader gets a shorter
string and leaves the rest in the stream. -/
theorem C25_too_long_fails :
    let v := List.replicate 257 'a'
    (Str.new .uint8 .network v).write = .ok (1 :: List.replicate 257 97, 258)
    ∧ ((Str.new .uint8 .network []).read (1 :: List.replicate 257 97)).2
        = .ok (['a'], List.replicate 256 97) := by
  decide +kernel

example : (Str.new .uint16 .network "abc".toList).write = .ok ([0, 3, 97, 98, 99], 5)
    ∧ ((Str.new .uint16 .network []).read [0, 3, 97, 98, 99, 1]).2 = .ok ("abc".toList, [1]) := by decide +kernel

end Verif.Serial
