import Mathlib.Tactic.Ring
/-!
C100: floating-point primitives: `primitives/float.py`, `primitives/types/float.py`, and of `primitives/base.py`
the setter 134–166, `__eq__` 199–211, `__bool__` 213–215, `binary` and `update` 217–247.

Everywhere else a float is the bit pattern that is stored. Here the value given by the caller is a double, what
is stored is a C float (`ctypes.c_float`) or double, and what is sent is what `struct` packs (`e`, `f`, `d`).

A value is a sign and a pattern: exponent field and fraction, as a number. A NaN is a pattern beyond that of
infinity; which one is not kept. Assumed of CPython and C: conversions round to nearest, ties to even, to infinity
beyond the range; packing raises `OverflowError` for a finite value that would become infinite; `bool` of a ctypes
instance looks at its bytes; `math.isclose` is taken without its own rounding.
-/
namespace Verif.Floats

/-- A binary interchange format: `t` fraction bits, `w` exponent bits. -/
structure Fmt where
  t : Nat
  w : Nat
  deriving DecidableEq

/-- The formats `e`, `f` and `d`, types/float.py 12–57. -/
def half : Fmt := ⟨10, 5⟩
def single : Fmt := ⟨23, 8⟩
def double : Fmt := ⟨52, 11⟩

/-- The pattern of infinity. -/
def Fmt.inf (f : Fmt) : Nat := (2 ^ f.w - 1) * 2 ^ f.t

/-- The magnitude of a pattern, in units of the smallest positive value of the format. -/
def Fmt.mag (f : Fmt) (n : Nat) : Nat :=
  if n / 2 ^ f.t = 0 then n % 2 ^ f.t else (2 ^ f.t + n % 2 ^ f.t) * 2 ^ (n / 2 ^ f.t - 1)

/-- Minus the exponent of that unit: bias plus fraction bits minus one. -/
def Fmt.unit (f : Fmt) : Nat := 2 ^ (f.w - 1) - 1 + f.t - 1

structure Fl where
  neg : Bool
  n : Nat
  deriving DecidableEq

def Fl.isNan (f : Fmt) (x : Fl) : Bool := decide (f.inf < x.n)
def Fl.isInf (f : Fmt) (x : Fl) : Bool := decide (x.n = f.inf)
def Fl.finite (f : Fmt) (x : Fl) : Prop := x.n < f.inf

/-- The pattern nearest to `m / 2^k` units, ties to the even one, the exponent unbounded: shift out all but
`t + 1` bits and round by what was shifted out. -/
def roundTo (t k m : Nat) : Nat :=
  let s := if m / 2 ^ k < 2 ^ (t + 1) then 0 else (m / 2 ^ k).log2 - t
  let d := 2 ^ (k + s)
  let q := m / d
  let r := m % d
  s * 2 ^ t + (if d < 2 * r ∨ (2 * r = d ∧ q % 2 = 1) then q + 1 else q)

/-- Conversion between formats, from one with more range and precision to one with less: a C cast. -/
def narrow (a b : Fmt) (x : Fl) : Fl :=
  if a.inf < x.n then ⟨x.neg, b.inf + 1⟩
  else if x.n = a.inf then ⟨x.neg, b.inf⟩
  else ⟨x.neg, min (roundTo b.t (a.unit - b.unit) (a.mag x.n)) b.inf⟩

/-- Conversion from a format with less range and precision to one with more: exact. -/
def widen (b a : Fmt) (x : Fl) : Fl :=
  if b.inf < x.n then ⟨x.neg, a.inf + 1⟩
  else if x.n = b.inf then ⟨x.neg, a.inf⟩
  else ⟨x.neg, roundTo a.t 0 (b.mag x.n * 2 ^ (a.unit - b.unit))⟩

/-- `struct.pack` of a double in format `b`: overflow raises (`none`). -/
def pack (b : Fmt) (v : Fl) : Option Fl :=
  let y := narrow double b v
  if y.n = b.inf ∧ v.n ≠ double.inf then none else some y

/-- IEEE comparison of doubles: NaN is different from all, the zeros are equal. -/
def feq (x y : Fl) : Bool :=
  !x.isNan double && !y.isNan double && (x == y || (x.n == 0 && y.n == 0))

/-! ### The primitives -/

/-- The kinds; the stored C value of a half is a float, types/float.py 17–18. -/
inductive Kind where
  | half
  | float
  | double
  deriving DecidableEq

def Kind.wire : Kind → Fmt
  | .half => Floats.half
  | .float => single
  | .double => Floats.double

/-- `raw.value = v` and `raw.value` again: the value as the caller sees it, types/float.py 18, 33, 48. -/
def Kind.store : Kind → Fl → Fl
  | .double, v => if Floats.double.inf < v.n then ⟨v.neg, Floats.double.inf + 1⟩ else v
  | _, v => widen single Floats.double (narrow Floats.double single v)

/-- `set_value`, base.py 156–166, with float.py 32–37: the new value, and what the callbacks get. -/
def Kind.set (k : Kind) (raw v : Fl) : Fl × Option (Fl × Fl) :=
  (k.store v, if v.isNan Floats.double then none else if feq raw v then none else some (raw, v))

/-- `binary`, base.py 217–221: what is sent. -/
def Kind.send (k : Kind) (raw : Fl) : Option Fl :=
  match k with
  | .double => some raw
  | _ => pack k.wire raw

/-- `update`, base.py 234–243: the value received. -/
def Kind.receive (k : Kind) (y : Fl) : Fl :=
  match k with
  | .double => k.store y
  | _ => k.store (widen k.wire Floats.double y)

/-- `bool(raw)`, base.py 213–215: some byte of the C value is not zero. -/
def truthy (raw : Fl) : Bool := raw.neg || raw.n != 0

/-- `math.isclose`, base.py 208: relative tolerance 1e-9. -/
def isClose (x y : Fl) : Bool :=
  if x.isNan double || y.isNan double then false
  else if x.isInf double || y.isInf double then x == y
  else
    let a := double.mag x.n
    let b := double.mag y.n
    let d := if x.neg = y.neg then max a b - min a b else a + b
    decide (d * 10 ^ 9 ≤ max a b)

/-! ### Patterns and magnitudes -/

/-- A pattern is a shift and a significand; the magnitude is the significand, shifted. -/
theorem mag_eq (f : Fmt) (s q : Nat) (hq : q ≤ 2 ^ (f.t + 1)) (h : s = 0 ∨ 2 ^ f.t ≤ q) :
    f.mag (s * 2 ^ f.t + q) = q * 2 ^ s := by
  have hp : 0 < 2 ^ f.t := Nat.two_pow_pos _
  have h2 : 2 ^ (f.t + 1) = 2 ^ f.t + 2 ^ f.t := by rw [Nat.pow_succ]; omega
  have case2 : ∀ e c : Nat, c < 2 ^ f.t → f.mag ((e + 1) * 2 ^ f.t + c) = (2 ^ f.t + c) * 2 ^ e := by
    intro e c hc
    unfold Fmt.mag
    have hd : ((e + 1) * 2 ^ f.t + c) / 2 ^ f.t = e + 1 := by
      rw [Nat.add_comm, Nat.add_mul_div_right _ _ hp, Nat.div_eq_of_lt hc, Nat.zero_add]
    have hm : ((e + 1) * 2 ^ f.t + c) % 2 ^ f.t = c := by
      rw [Nat.add_comm, Nat.add_mul_mod_self_right, Nat.mod_eq_of_lt hc]
    rw [hd, hm, if_neg (by omega), Nat.add_sub_cancel]
  rcases Nat.lt_or_ge q (2 ^ f.t) with hlt | hge
  · have hs : s = 0 := by rcases h with h | h <;> omega
    subst hs
    unfold Fmt.mag
    rw [Nat.zero_mul, Nat.zero_add, Nat.div_eq_of_lt hlt, if_pos rfl, Nat.mod_eq_of_lt hlt, Nat.pow_zero, Nat.mul_one]
  · rcases Nat.lt_or_ge q (2 ^ (f.t + 1)) with hlt | hge2
    · obtain ⟨c, rfl⟩ := Nat.exists_eq_add_of_le hge
      have := case2 s c (by omega)
      rw [← this]
      congr 1
      rw [Nat.succ_mul]; omega
    · have hq' : q = 2 ^ f.t + 2 ^ f.t := by omega
      subst hq'
      have := case2 (s + 1) 0 hp
      rw [show s * 2 ^ f.t + (2 ^ f.t + 2 ^ f.t) = (s + 1 + 1) * 2 ^ f.t + 0 by ring, this]
      rw [Nat.pow_succ]; ring

/-- Shift and significand of a pattern. -/
theorem split (f : Fmt) (n : Nat) : ∃ s q, n = s * 2 ^ f.t + q ∧ q < 2 ^ (f.t + 1) ∧ (s = 0 ∨ 2 ^ f.t ≤ q) := by
  have hp : 0 < 2 ^ f.t := Nat.two_pow_pos _
  have h2 : 2 ^ (f.t + 1) = 2 ^ f.t + 2 ^ f.t := by rw [Nat.pow_succ]; omega
  have hm := Nat.mod_lt n hp
  have hd := Nat.div_add_mod n (2 ^ f.t)
  by_cases h : n / 2 ^ f.t = 0
  · refine ⟨0, n % 2 ^ f.t, ?_, by omega, .inl rfl⟩
    rw [h] at hd; omega
  · refine ⟨n / 2 ^ f.t - 1, 2 ^ f.t + n % 2 ^ f.t, ?_, by omega, .inr (by omega)⟩
    obtain ⟨e, he⟩ := Nat.exists_eq_succ_of_ne_zero h
    rw [he] at hd ⊢
    rw [Nat.succ_sub_one, ← Nat.add_assoc, ← Nat.succ_mul, Nat.mul_comm]
    exact hd.symm

theorem mag_succ (f : Fmt) (n : Nat) : ∃ s q, n = s * 2 ^ f.t + q ∧ q < 2 ^ (f.t + 1) ∧ (s = 0 ∨ 2 ^ f.t ≤ q) ∧
    f.mag n = q * 2 ^ s ∧ f.mag (n + 1) = (q + 1) * 2 ^ s := by
  obtain ⟨s, q, hn, hq, hs⟩ := split f n
  refine ⟨s, q, hn, hq, hs, ?_, ?_⟩
  · rw [hn]; exact mag_eq f s q (by omega) hs
  · rw [hn, Nat.add_assoc]
    exact mag_eq f s (q + 1) hq (hs.imp id (by omega))

theorem mag_lt_succ (f : Fmt) (n : Nat) : f.mag n < f.mag (n + 1) := by
  obtain ⟨s, q, _, _, _, h1, h2⟩ := mag_succ f n
  rw [h1, h2, Nat.succ_mul]
  have := Nat.two_pow_pos s
  omega

theorem mag_lt (f : Fmt) {a b : Nat} (h : a < b) : f.mag a < f.mag b := by
  obtain ⟨d, rfl⟩ := Nat.exists_eq_add_of_lt h
  induction d with
  | zero => exact mag_lt_succ f a
  | succ d ih => exact Nat.lt_trans (ih (by omega)) (mag_lt_succ f _)

theorem mag_le (f : Fmt) {a b : Nat} (h : a ≤ b) : f.mag a ≤ f.mag b := by
  rcases Nat.lt_or_ge a b with h' | h'
  · exact Nat.le_of_lt (mag_lt f h')
  · rw [Nat.le_antisymm h h']

theorem mag_inj (f : Fmt) {a b : Nat} (h : f.mag a = f.mag b) : a = b := by
  rcases Nat.lt_trichotomy a b with h' | h' | h'
  · have := mag_lt f h'; omega
  · exact h'
  · have := mag_lt f h'; omega

/-! ### Rounding -/

/-- The shift that `roundTo` takes keeps at most `t + 1` bits, and exactly so many unless it is zero. -/
theorem shift (t k m : Nat) :
    m / 2 ^ (k + (if m / 2 ^ k < 2 ^ (t + 1) then 0 else (m / 2 ^ k).log2 - t)) < 2 ^ (t + 1) ∧
    ((if m / 2 ^ k < 2 ^ (t + 1) then 0 else (m / 2 ^ k).log2 - t) = 0 ∨
      2 ^ t ≤ m / 2 ^ (k + (if m / 2 ^ k < 2 ^ (t + 1) then 0 else (m / 2 ^ k).log2 - t))) := by
  by_cases h : m / 2 ^ k < 2 ^ (t + 1)
  · rw [if_pos h]; exact ⟨h, .inl rfl⟩
  · rw [if_neg h]
    generalize hx : m / 2 ^ k = x at h
    have hx0 : x ≠ 0 := by
      have := Nat.two_pow_pos (t + 1); omega
    have hl1 : 2 ^ x.log2 ≤ x := Nat.log2_self_le hx0
    have hl2 : x < 2 ^ (x.log2 + 1) := Nat.lt_log2_self
    have ht : t + 1 ≤ x.log2 := (Nat.le_log2 hx0).mpr (by omega)
    rw [Nat.pow_add, ← Nat.div_div_eq_div_mul, hx]
    constructor
    · rw [Nat.div_lt_iff_lt_mul (Nat.two_pow_pos _), ← Nat.pow_add]
      rwa [show t + 1 + (x.log2 - t) = x.log2 + 1 by omega]
    · right
      rw [Nat.le_div_iff_mul_le (Nat.two_pow_pos _), ← Nat.pow_add]
      rwa [show t + (x.log2 - t) = x.log2 by omega]

/-- The two candidates: the pattern below (or at) and the next one; the choice. -/
theorem round_cases (f : Fmt) (ht : 1 ≤ f.t) (k m : Nat) : ∃ n0,
    f.mag n0 * 2 ^ k ≤ m ∧ m < f.mag (n0 + 1) * 2 ^ k ∧
    ((roundTo f.t k m = n0 ∧ 2 * m ≤ f.mag n0 * 2 ^ k + f.mag (n0 + 1) * 2 ^ k ∧
        (2 * m = f.mag n0 * 2 ^ k + f.mag (n0 + 1) * 2 ^ k → n0 % 2 = 0)) ∨
     (roundTo f.t k m = n0 + 1 ∧ f.mag n0 * 2 ^ k + f.mag (n0 + 1) * 2 ^ k ≤ 2 * m ∧
        (2 * m = f.mag n0 * 2 ^ k + f.mag (n0 + 1) * 2 ^ k → n0 % 2 = 1))) := by
  obtain ⟨h1, h2⟩ := shift f.t k m
  unfold roundTo
  dsimp only
  generalize (if m / 2 ^ k < 2 ^ (f.t + 1) then 0 else (m / 2 ^ k).log2 - f.t) = s at *
  have hd : 0 < 2 ^ (k + s) := Nat.two_pow_pos _
  have hm := Nat.div_add_mod m (2 ^ (k + s))
  have hr := Nat.mod_lt m hd
  generalize hq : m / 2 ^ (k + s) = q at *
  generalize m % 2 ^ (k + s) = r at *
  have e1 : f.mag (s * 2 ^ f.t + q) * 2 ^ k = 2 ^ (k + s) * q := by
    rw [mag_eq f s q (by omega) h2, Nat.pow_add]; ring
  have e2 : f.mag (s * 2 ^ f.t + q + 1) * 2 ^ k = 2 ^ (k + s) * q + 2 ^ (k + s) := by
    rw [Nat.add_assoc, mag_eq f s (q + 1) h1 (h2.imp id (by omega)), Nat.pow_add]; ring
  have par : (s * 2 ^ f.t + q) % 2 = q % 2 := by
    obtain ⟨t', ht'⟩ := Nat.exists_eq_add_of_le ht
    rw [ht', Nat.pow_add, show s * (2 ^ 1 * 2 ^ t') + q = q + 2 * (s * 2 ^ t') by ring, Nat.add_mul_mod_self_left]
  refine ⟨s * 2 ^ f.t + q, ?_, ?_, ?_⟩
  · rw [e1]; omega
  · rw [e2]; omega
  · rw [e1, e2, par]
    generalize 2 ^ (k + s) * q = Q at *
    generalize 2 ^ (k + s) = d at *
    by_cases hc : d < 2 * r ∨ (2 * r = d ∧ q % 2 = 1)
    · right
      rw [if_pos hc]
      refine ⟨by omega, by omega, by omega⟩
    · left
      rw [if_neg hc]
      refine ⟨rfl, by omega, by omega⟩

/-- A value of the format is rounded to itself. -/
theorem round_grid (f : Fmt) (ht : 1 ≤ f.t) (k n : Nat) : roundTo f.t k (f.mag n * 2 ^ k) = n := by
  have hp : 0 < 2 ^ k := Nat.two_pow_pos _
  obtain ⟨n0, h1, h2, h3⟩ := round_cases f ht k (f.mag n * 2 ^ k)
  have hle : n0 ≤ n := by
    rcases Nat.lt_or_ge n n0 with h | h
    · have := Nat.mul_lt_mul_of_pos_right (mag_lt f h) hp; omega
    · exact h
  have hge : n ≤ n0 := by
    rcases Nat.lt_or_ge n0 n with h | h
    · have := Nat.mul_le_mul_right (2 ^ k) (mag_le f (show n0 + 1 ≤ n from h)); omega
    · exact h
  have hn : n0 = n := Nat.le_antisymm hle hge
  subst hn
  rcases h3 with h | h
  · exact h.1
  · omega

/-- Significands of at most `t + 1` bits, shifted, are values of the format. -/
theorem on_grid (f : Fmt) (j : Nat) : ∀ q, q < 2 ^ (f.t + 1) → ∃ n, f.mag n = q * 2 ^ j := by
  induction j with
  | zero =>
    intro q hq
    refine ⟨q, ?_⟩
    have := mag_eq f 0 q (by omega) (.inl rfl)
    rw [Nat.zero_mul, Nat.zero_add] at this
    exact this
  | succ j ih =>
    intro q hq
    rcases Nat.lt_or_ge q (2 ^ f.t) with h | h
    · obtain ⟨n, hn⟩ := ih (2 * q) (by rw [Nat.pow_succ]; omega)
      exact ⟨n, by rw [hn, Nat.pow_succ]; ring⟩
    · exact ⟨(j + 1) * 2 ^ f.t + q, mag_eq f (j + 1) q (by omega) (.inr h)⟩

theorem round_mono (f : Fmt) (ht : 1 ≤ f.t) (k : Nat) {m m' : Nat} (h : m ≤ m') :
    roundTo f.t k m ≤ roundTo f.t k m' := by
  have hp : 0 < 2 ^ k := Nat.two_pow_pos _
  obtain ⟨n0, h1, h2, h3⟩ := round_cases f ht k m
  obtain ⟨n1, g1, g2, g3⟩ := round_cases f ht k m'
  rcases Nat.lt_trichotomy n0 n1 with hn | hn | hn
  · rcases h3 with h3 | h3 <;> rcases g3 with g3 | g3 <;> omega
  · subst hn
    rcases h3 with h3 | h3 <;> rcases g3 with g3 | g3 <;> omega
  · have := Nat.mul_le_mul_right (2 ^ k) (mag_le f (show n1 + 1 ≤ n0 from hn))
    omega

/-- Distance of naturals. -/
def dist (a b : Nat) : Nat := (a - b) + (b - a)

theorem round_nearest (f : Fmt) (ht : 1 ≤ f.t) (k m n : Nat) :
    dist (f.mag (roundTo f.t k m) * 2 ^ k) m ≤ dist (f.mag n * 2 ^ k) m ∧
    (dist (f.mag (roundTo f.t k m) * 2 ^ k) m = dist (f.mag n * 2 ^ k) m → n = roundTo f.t k m ∨ roundTo f.t k m % 2 = 0) := by
  have hp : 0 < 2 ^ k := Nat.two_pow_pos _
  obtain ⟨n0, h1, h2, h3⟩ := round_cases f ht k m
  unfold dist
  have lo : n < n0 → f.mag n * 2 ^ k < f.mag n0 * 2 ^ k := fun h => Nat.mul_lt_mul_of_pos_right (mag_lt f h) hp
  have hi : n0 + 1 < n → f.mag (n0 + 1) * 2 ^ k < f.mag n * 2 ^ k := fun h => Nat.mul_lt_mul_of_pos_right (mag_lt f h) hp
  rcases h3 with ⟨e, h4, h5⟩ | ⟨e, h4, h5⟩
  all_goals
    rw [e]
    rcases Nat.lt_trichotomy n n0 with hn | hn | hn
    · have := lo hn
      constructor <;> intros <;> omega
    · subst hn
      constructor <;> intros <;> omega
    · rcases Nat.lt_or_ge (n0 + 1) n with hn' | hn'
      · have := hi hn'
        constructor <;> intros <;> omega
      · have : n = n0 + 1 := by omega
        subst this
        constructor <;> intros <;> omega

/-! ### Conversions -/

/-- The formats a double is converted to. -/
def Narrow (b : Fmt) : Prop := b = half ∨ b = single

theorem Narrow.t {b : Fmt} (h : Narrow b) : 1 ≤ b.t ∧ b.t ≤ 52 := by
  rcases h with h | h <;> subst h <;> decide

theorem Narrow.inf {b : Fmt} (h : Narrow b) : b.inf % 2 = 0 ∧ 0 < b.inf := by
  rcases h with h | h <;> subst h <;> decide +kernel

theorem Narrow.range {b : Fmt} (h : Narrow b) : b.mag b.inf * 2 ^ (double.unit - b.unit) < double.mag double.inf := by
  rcases h with h | h <;> subst h <;> decide +kernel

/-- C100: what is stored, or packed, is the value of the format nearest to the value given, the even one of two;
infinity if that is beyond the range. -/
theorem C100_nearest (b : Fmt) (hb : Narrow b) (v : Fl) (hv : v.n < double.inf) :
    (narrow double b v).neg = v.neg ∧
    ((narrow double b v).n < b.inf → ∀ n,
      dist (b.mag (narrow double b v).n * 2 ^ (double.unit - b.unit)) (double.mag v.n)
        ≤ dist (b.mag n * 2 ^ (double.unit - b.unit)) (double.mag v.n) ∧
      (dist (b.mag (narrow double b v).n * 2 ^ (double.unit - b.unit)) (double.mag v.n)
        = dist (b.mag n * 2 ^ (double.unit - b.unit)) (double.mag v.n) →
        n = (narrow double b v).n ∨ (narrow double b v).n % 2 = 0)) ∧
    ((narrow double b v).n = b.inf ↔
      b.mag (b.inf - 1) * 2 ^ (double.unit - b.unit) + b.mag b.inf * 2 ^ (double.unit - b.unit) ≤ 2 * double.mag v.n) := by
  have ht := hb.t.1
  unfold narrow
  rw [if_neg (by omega), if_neg (by omega)]
  generalize double.unit - b.unit = k
  generalize double.mag v.n = m
  refine ⟨rfl, ?_, ?_⟩
  · intro hlt n
    dsimp only at hlt ⊢
    rw [Nat.min_eq_left (by omega)]
    exact round_nearest b ht k m n
  · dsimp only
    have hp : 0 < 2 ^ k := Nat.two_pow_pos _
    obtain ⟨hi2, hi0⟩ := hb.inf
    obtain ⟨i, hi⟩ := Nat.exists_eq_add_of_lt hi0
    rw [Nat.zero_add] at hi
    rw [hi, Nat.add_sub_cancel]
    have key : i + 1 ≤ roundTo b.t k m ↔ b.mag i * 2 ^ k + b.mag (i + 1) * 2 ^ k ≤ 2 * m := by
      obtain ⟨n0, h1, h2, h3⟩ := round_cases b ht k m
      have a1 : b.mag i * 2 ^ k < b.mag (i + 1) * 2 ^ k := Nat.mul_lt_mul_of_pos_right (mag_lt_succ b i) hp
      rcases Nat.lt_trichotomy n0 i with hn | hn | hn
      · have := Nat.mul_le_mul_right (2 ^ k) (mag_le b (show n0 + 1 ≤ i from hn))
        rcases h3 with h3 | h3 <;> constructor <;> intros <;> omega
      · subst hn
        rcases h3 with h3 | h3 <;> constructor <;> intros <;> omega
      · have := Nat.mul_le_mul_right (2 ^ k) (mag_le b (show i + 1 ≤ n0 from hn))
        rcases h3 with h3 | h3 <;> constructor <;> intros <;> omega
    rw [← key]
    omega

theorem widen_exact (b : Fmt) (hb : Narrow b) (x : Fl) (hx : x.n < b.inf) :
    (widen b double x).neg = x.neg ∧ (widen b double x).n < double.inf ∧
    double.mag (widen b double x).n = b.mag x.n * 2 ^ (double.unit - b.unit) := by
  unfold widen
  rw [if_neg (by omega), if_neg (by omega)]
  dsimp only
  have hgrid : ∃ n, double.mag n = b.mag x.n * 2 ^ (double.unit - b.unit) := by
    obtain ⟨s, q, _, hq, _, hm, _⟩ := mag_succ b x.n
    obtain ⟨n, hn⟩ := on_grid double (s + (double.unit - b.unit)) q (by
      have := Nat.pow_le_pow_right (show 0 < 2 by decide) (show b.t + 1 ≤ 52 + 1 by have := hb.t.2; omega)
      exact Nat.lt_of_lt_of_le hq this)
    exact ⟨n, by rw [hn, hm, Nat.pow_add, Nat.mul_assoc]⟩
  obtain ⟨n, hn⟩ := hgrid
  have hr : roundTo double.t 0 (b.mag x.n * 2 ^ (double.unit - b.unit)) = n := by
    rw [← hn]
    have := round_grid double (by decide) 0 n
    rwa [Nat.pow_zero, Nat.mul_one] at this
  rw [hr]
  refine ⟨rfl, ?_, hn⟩
  rcases Nat.lt_or_ge n double.inf with h | h
  · exact h
  · exfalso
    have h1 := mag_le double h
    have h2 := hb.range
    have h3 := Nat.mul_le_mul_right (2 ^ (double.unit - b.unit)) (mag_le b (Nat.le_of_lt hx))
    omega

theorem narrow_widen (b : Fmt) (hb : Narrow b) (x : Fl) (hx : x.n ≤ b.inf) : narrow double b (widen b double x) = x := by
  rcases Nat.lt_or_ge x.n b.inf with h | h
  · obtain ⟨h1, h2, h3⟩ := widen_exact b hb x h
    unfold narrow
    rw [if_neg (by omega), if_neg (by omega), h3, round_grid b hb.t.1, h1, Nat.min_eq_left hx]
  · have hx' : x.n = b.inf := by omega
    unfold narrow widen
    rw [if_neg (show ¬ b.inf < x.n by omega), if_pos hx']
    dsimp only
    rw [if_neg (Nat.lt_irrefl _), if_pos rfl, ← hx']

theorem widen_inf (b : Fmt) (x : Fl) (hx : x.n = b.inf) : (widen b double x).n = double.inf := by
  unfold widen
  rw [if_neg (by omega), if_pos hx]

theorem widen_nan (b : Fmt) (x : Fl) (hx : b.inf < x.n) : widen b double x = ⟨x.neg, double.inf + 1⟩ := by
  unfold widen
  rw [if_pos hx]

theorem narrow_nan (b : Fmt) (x : Fl) (hx : double.inf < x.n) : narrow double b x = ⟨x.neg, b.inf + 1⟩ := by
  unfold narrow
  rw [if_pos hx]

theorem narrow_le (b : Fmt) (x : Fl) (hx : x.n ≤ double.inf) : (narrow double b x).n ≤ b.inf := by
  unfold narrow
  rw [if_neg (by omega)]
  split
  · exact Nat.le_refl _
  · exact Nat.min_le_right ..

/-- C100: a value received in a format is the value sent: packing the double it is read as gives it back. -/
theorem C100_roundtrip (b : Fmt) (hb : Narrow b) (x : Fl) (hx : x.n ≤ b.inf) : pack b (widen b double x) = some x := by
  unfold pack
  dsimp only
  rw [narrow_widen b hb x hx, if_neg]
  rintro ⟨h, h'⟩
  exact h' (widen_inf b x h)

/-- C100: what a float or double primitive sends, whatever was assigned to it, is received as the value it has. -/
theorem C100_wire (k : Kind) (hk : k ≠ .half) (v : Fl) :
    ∃ y, k.send (k.store v) = some y ∧ k.receive y = k.store v := by
  have hs : Narrow single := .inr rfl
  cases k with
  | half => exact absurd rfl hk
  | double =>
    refine ⟨_, rfl, ?_⟩
    unfold Kind.receive Kind.store
    dsimp only
    by_cases h : double.inf < v.n
    · rw [if_pos h, if_pos (by show double.inf < double.inf + 1; omega)]
    · rw [if_neg h, if_neg h]
  | float =>
    show ∃ y, pack single (widen single double (narrow double single v)) = some y ∧
      widen single double (narrow double single (widen single double y)) = widen single double (narrow double single v)
    by_cases h : double.inf < v.n
    · rw [narrow_nan single v h]
      refine ⟨⟨v.neg, single.inf + 1⟩, ?_, ?_⟩
      · cases v.neg <;> decide +kernel
      · cases v.neg <;> decide +kernel
    · have hle := narrow_le single v (by omega)
      refine ⟨narrow double single v, C100_roundtrip single hs _ hle, ?_⟩
      rw [narrow_widen single hs _ hle]

/-! ### Half precision -/

/-- A half is stored as it is. -/
theorem half_single (x : Fl) (hx : x.n ≤ half.inf) :
    widen single double (narrow double single (widen half double x)) = widen half double x := by
  have hh : Narrow half := .inl rfl
  have hs : Narrow single := .inr rfl
  rcases Nat.lt_or_ge x.n half.inf with h | h
  · obtain ⟨h1, h2, h3⟩ := widen_exact half hh x h
    -- a half is a float
    obtain ⟨s, q, _, hq, _, hm, _⟩ := mag_succ half x.n
    obtain ⟨n, hn⟩ := on_grid single (s + 125) q (Nat.lt_trans hq (by decide))
    have e : half.mag x.n * 2 ^ (double.unit - half.unit) = single.mag n * 2 ^ (double.unit - single.unit) := by
      rw [hn, hm, show double.unit - half.unit = 125 + (double.unit - single.unit) by decide, Nat.pow_add, Nat.pow_add]
      ring
    have hnlt : n < single.inf := by
      rcases Nat.lt_or_ge n single.inf with h' | h'
      · exact h'
      · exfalso
        have a1 := mag_le single h'
        have a2 := mag_le half (Nat.le_of_lt h)
        have a3 : half.mag half.inf * 2 ^ 125 < single.mag single.inf := by decide +kernel
        have a4 : single.mag n = half.mag x.n * 2 ^ 125 := by rw [hn, hm, Nat.pow_add]; ring
        have a5 := Nat.mul_le_mul_right (2 ^ 125) a2
        omega
    have hnar : narrow double single (widen half double x) = ⟨x.neg, n⟩ := by
      unfold narrow
      rw [if_neg (by omega), if_neg (by omega), h3, e, round_grid single (by decide), h1, Nat.min_eq_left (by omega)]
    rw [hnar]
    obtain ⟨g1, g2, g3⟩ := widen_exact single hs ⟨x.neg, n⟩ hnlt
    dsimp only at g1 g3
    have hmag : double.mag (widen single double ⟨x.neg, n⟩).n = double.mag (widen half double x).n := by
      rw [g3, h3, e]
    have hn' := mag_inj double hmag
    have : ∀ a b : Fl, a.neg = b.neg → a.n = b.n → a = b := by
      intro a b ha hb; cases a; cases b; simp_all
    exact this _ _ (by rw [g1, h1]) hn'
  · have hx' : x.n = half.inf := by omega
    obtain ⟨neg, n⟩ := x
    dsimp only at hx'
    subst hx'
    cases neg <;> decide +kernel

/-- C100 for halves, of values that are halves: stored and sent as they are. -/
theorem C100_half_partial (x : Fl) (hx : x.n ≤ half.inf) :
    Kind.half.store (widen half double x) = widen half double x ∧
    Kind.half.send (widen half double x) = some x ∧ Kind.half.receive x = widen half double x := by
  refine ⟨half_single x hx, C100_roundtrip half (.inl rfl) x hx, ?_⟩
  exact half_single x hx

/-- C100 fails for halves: a primitive whose value is no half has another value at the peer. -/
theorem C100_half_fails (r : Fl) (hr : r.n ≤ double.inf) (hno : ∀ x : Fl, x.n ≤ half.inf → r ≠ widen half double x)
    (y : Fl) (hy : Kind.half.send r = some y) : Kind.half.receive y ≠ r := by
  have hle : y.n ≤ half.inf := by
    have : pack half r = some y := hy
    unfold pack at this
    dsimp only at this
    split at this
    · cases this
    · rw [← Option.some.inj this]; exact narrow_le half r hr
  intro h
  rw [(C100_half_partial y hle).2.2] at h
  exact hno y hle h.symm

/-- 65520, half way from the largest half to 2^16, in units of doubles; and 2^128 - 2^103, the same for floats. -/
def halfLimit : Nat := 65520 * 2 ^ 1074
def singleLimit : Nat := (2 ^ 128 - 2 ^ 103) * 2 ^ 1074

theorem single_limit : single.mag (single.inf - 1) * 2 ^ (double.unit - single.unit) + single.mag single.inf * 2 ^ (double.unit - single.unit) = 2 * singleLimit := by
  decide +kernel

theorem half_limit : half.mag (half.inf - 1) * 2 ^ (double.unit - half.unit) + half.mag half.inf * 2 ^ (double.unit - half.unit) = 2 * halfLimit := by
  decide +kernel

theorem half_limit_single : halfLimit = single.mag 1199566848 * 2 ^ (double.unit - single.unit) := by decide +kernel

theorem half_store (v : Fl) : Kind.half.store v = widen single double (narrow double single v) := rfl

theorem half_send (r : Fl) : Kind.half.send r = pack half r := rfl

theorem half_pack_inf (b : Bool) : pack half (widen single double ⟨b, single.inf⟩) = some ⟨b, half.inf⟩ := by
  cases b <;> decide +kernel

theorem pack_none (b : Fmt) (v : Fl) (h : (narrow double b v).n = b.inf) (h' : v.n < double.inf) : pack b v = none := by
  unfold pack
  dsimp only
  rw [if_pos ⟨h, Nat.ne_of_lt h'⟩]

theorem narrow_fin (b : Fmt) (v : Fl) (h : v.n < double.inf) :
    (narrow double b v).n = min (roundTo b.t (double.unit - b.unit) (double.mag v.n)) b.inf := by
  unfold narrow
  rw [if_neg (by omega), if_neg (by omega)]

theorem range_aux (L S g : Nat)
    (e1 : single.mag (single.inf - 1) * 2 ^ (double.unit - single.unit) + single.mag single.inf * 2 ^ (double.unit - single.unit) = 2 * S)
    (e2 : half.mag (half.inf - 1) * 2 ^ (double.unit - half.unit) + half.mag half.inf * 2 ^ (double.unit - half.unit) = 2 * L)
    (hg : L = single.mag g * 2 ^ (double.unit - single.unit))
    (v : Fl) (hv : v.n < double.inf) (hl : L ≤ double.mag v.n) :
    (double.mag v.n < S → Kind.half.send (Kind.half.store v) = none) ∧
    (S ≤ double.mag v.n → Kind.half.send (Kind.half.store v) = some ⟨v.neg, half.inf⟩) := by
  have hs : Narrow single := .inr rfl
  have hover := (C100_nearest single hs v hv).2.2
  rw [e1] at hover
  have hneg := (C100_nearest single hs v hv).1
  rw [half_store, half_send]
  constructor
  · intro hlt
    have hfin : (narrow double single v).n < single.inf :=
      Nat.lt_of_le_of_ne (narrow_le single v (Nat.le_of_lt hv)) (fun h => by have := hover.mp h; omega)
    obtain ⟨h1, h2, h3⟩ := widen_exact single hs _ hfin
    -- rounding to a float stays above 65520, a float
    have hr := narrow_fin single v hv
    have hm := round_mono single (by decide) (double.unit - single.unit) hl
    rw [hg, round_grid single (by decide)] at hm
    generalize hw : widen single double (narrow double single v) = w at *
    generalize hx : narrow double single v = x at *
    generalize hR : roundTo single.t (double.unit - single.unit) (double.mag v.n) = R at *
    have hxR : x.n = R := by omega
    rw [← hxR] at hm
    have hge : L ≤ double.mag w.n := by
      rw [h3, hg]
      exact Nat.mul_le_mul_right _ (mag_le single hm)
    have hov := (C100_nearest half (.inl rfl) w h2).2.2
    rw [e2] at hov
    exact pack_none half w (hov.mpr (by omega)) h2
  · intro hge
    have hinf : narrow double single v = ⟨v.neg, single.inf⟩ := by
      have h' := hover.mpr (by omega)
      generalize narrow double single v = x at *
      cases x
      dsimp only at h' hneg
      rw [h', hneg]
    rw [hinf]
    exact half_pack_inf v.neg

/-- C100 fails for halves: values from 65520 up are stored, and then cannot be sent; those beyond the range of
floats can, as infinity. -/
theorem C100_half_range_fails (v : Fl) (hv : v.n < double.inf) (hl : halfLimit ≤ double.mag v.n) :
    (double.mag v.n < singleLimit → Kind.half.send (Kind.half.store v) = none) ∧
    (singleLimit ≤ double.mag v.n → Kind.half.send (Kind.half.store v) = some ⟨v.neg, half.inf⟩) :=
  range_aux halfLimit singleLimit 1199566848 single_limit half_limit half_limit_single v hv hl

/-- 1 + 2^-11 + 2^-40, a double. -/
def exTwice : Fl := ⟨false, 4607182418800017408 + 2 ^ 41 + 2 ^ 12⟩

/-- C100 fails for halves: rounding twice, to a float and to a half, does not give the nearest half. -/
theorem C100_twice_fails : Kind.half.send (Kind.half.store exTwice) = some ⟨false, 15360⟩ ∧
    dist (half.mag 15361 * 2 ^ (double.unit - half.unit)) (double.mag exTwice.n)
      < dist (half.mag 15360 * 2 ^ (double.unit - half.unit)) (double.mag exTwice.n) := by
  decide +kernel

/-! ### Callbacks, truth and equality -/

/-- C100: assigning a value that the primitive can hold: callbacks are told if it is another value, and told the
value it then has. -/
theorem C100_callbacks_partial (k : Kind) (raw v : Fl) (hn : v.n ≤ double.inf) (hv : k.store v = v) :
    (k.set raw v).1 = v ∧
    ((k.set raw v).2 = none ↔ raw.n ≤ double.inf ∧ (raw = v ∨ (raw.n = 0 ∧ v.n = 0))) ∧
    (∀ p, (k.set raw v).2 = some p → p = (raw, (k.set raw v).1)) := by
  have hnan : v.isNan double = false := by unfold Fl.isNan; simp only [decide_eq_false_iff_not]; omega
  unfold Kind.set
  dsimp only
  rw [hnan, hv]
  refine ⟨rfl, ?_, ?_⟩
  · have hf : feq raw v = true ↔ raw.n ≤ double.inf ∧ (raw = v ∨ (raw.n = 0 ∧ v.n = 0)) := by
      unfold feq
      rw [hnan]
      unfold Fl.isNan
      simp only [Bool.and_eq_true, Bool.not_eq_true', decide_eq_false_iff_not, Nat.not_lt, Bool.or_eq_true, beq_iff_eq, Bool.not_false, and_true]
    rw [← hf]
    cases feq raw v <;> simp
  · intro p hp
    cases hf : feq raw v <;> rw [hf] at hp <;> simp at hp
    exact hp.symm

/-- C100 fails for other values: assigned again, callbacks are called again, the value being the same before and
after, and they are told a value that the primitive does not have. -/
theorem C100_callbacks_fails (k : Kind) (raw v : Fl) (hn : v.n ≤ double.inf) (hv : k.store v ≠ v)
    (hz : (k.store v).n ≠ 0 ∨ v.n ≠ 0) :
    k.set (k.set raw v).1 v = (k.store v, some (k.store v, v)) := by
  have hnan : v.isNan double = false := by unfold Fl.isNan; simp only [decide_eq_false_iff_not]; omega
  have hf : feq (k.store v) v = false := by
    unfold feq
    have h1 : (k.store v == v) = false := by simpa using hv
    have h2 : ((k.store v).n == 0 && v.n == 0) = false := by
      rcases hz with h | h <;> simp [h]
    rw [h1, h2]
    simp
  unfold Kind.set
  dsimp only
  rw [hnan, hf]
  rfl

/-- C100 fails for NaN: callbacks are not told that the value became NaN, and the next value, were it the one
before, is told as a change from NaN. -/
theorem C100_nan_fails (k : Kind) (raw v w : Fl) (hv : double.inf < v.n) (hw : w.n ≤ double.inf) :
    double.inf < (k.set raw v).1.n ∧ (k.set raw v).2 = none ∧
    (k.set (k.set raw v).1 w).2 = some ((k.set raw v).1, w) := by
  have hst : k.store v = ⟨v.neg, double.inf + 1⟩ := by
    cases k with
    | double => unfold Kind.store; dsimp only; rw [if_pos hv]
    | half =>
      show widen single double (narrow double single v) = _
      rw [narrow_nan single v hv, widen_nan single _ (by show single.inf < single.inf + 1; omega)]
    | float =>
      show widen single double (narrow double single v) = _
      rw [narrow_nan single v hv, widen_nan single _ (by show single.inf < single.inf + 1; omega)]
  have h1 : v.isNan double = true := by unfold Fl.isNan; exact decide_eq_true hv
  have h2 : w.isNan double = false := by unfold Fl.isNan; simp only [decide_eq_false_iff_not]; omega
  have h3 : feq ⟨v.neg, double.inf + 1⟩ w = false := by
    unfold feq
    have : (⟨v.neg, double.inf + 1⟩ : Fl).isNan double = true := by unfold Fl.isNan; simp
    rw [this]; simp
  unfold Kind.set
  dsimp only
  rw [hst, h1, h2, h3]
  exact ⟨Nat.lt_succ_self _, rfl, rfl⟩

/-- C100 fails for minus zero: it counts as true, and callbacks are not told. -/
theorem C100_zero_fails (k : Kind) : k.set ⟨false, 0⟩ ⟨true, 0⟩ = (⟨true, 0⟩, none) ∧
    truthy ⟨false, 0⟩ = false ∧ truthy (k.set ⟨false, 0⟩ ⟨true, 0⟩).1 = true := by
  cases k <;> decide +kernel

/-- A float below another is so by more than the tolerance. -/
theorem apart (a b : Nat) (h : a < b) : single.mag b < (single.mag b - single.mag a) * 10 ^ 9 := by
  obtain ⟨b', rfl⟩ := Nat.exists_eq_add_of_lt h
  obtain ⟨s, q, _, hq, _, h1, h2⟩ := mag_succ single (a + b')
  have h3 := mag_le single (show a ≤ a + b' by omega)
  rw [h2]
  rw [h1] at h3
  have h4 : 2 ^ s ≤ (q + 1) * 2 ^ s - single.mag a := by rw [Nat.succ_mul]; omega
  have h5 : (q + 1) * 2 ^ s ≤ 2 ^ 24 * 2 ^ s := Nat.mul_le_mul_right _ hq
  have hp := Nat.two_pow_pos s
  omega

theorem scaled (d m P : Nat) (hP : 0 < P) (h : d * P * 10 ^ 9 ≤ m * P) : d * 10 ^ 9 ≤ m := by
  apply Nat.le_of_mul_le_mul_right _ hP
  calc d * 10 ^ 9 * P = d * P * 10 ^ 9 := by ring
    _ ≤ m * P := h

/-- C100: float primitives, finite, compare equal exactly if their values are equal. -/
theorem C100_equal (x y : Fl) (hx : x.n < single.inf) (hy : y.n < single.inf) :
    isClose (widen single double x) (widen single double y) = true ↔ x = y ∨ (x.n = 0 ∧ y.n = 0) := by
  have hs : Narrow single := .inr rfl
  obtain ⟨x1, x2, x3⟩ := widen_exact single hs x hx
  obtain ⟨y1, y2, y3⟩ := widen_exact single hs y hy
  have z : ∀ n, single.mag n = 0 ↔ n = 0 := by
    intro n
    constructor
    · intro h
      rcases Nat.eq_zero_or_pos n with h' | h'
      · exact h'
      · have := mag_lt single h'; omega
    · intro h; subst h; decide
  unfold isClose
  have nx : (widen single double x).isNan double = false := by unfold Fl.isNan; simp only [decide_eq_false_iff_not]; omega
  have ny : (widen single double y).isNan double = false := by unfold Fl.isNan; simp only [decide_eq_false_iff_not]; omega
  have ix : (widen single double x).isInf double = false := by unfold Fl.isInf; simp only [decide_eq_false_iff_not]; omega
  have iy : (widen single double y).isInf double = false := by unfold Fl.isInf; simp only [decide_eq_false_iff_not]; omega
  rw [nx, ny, ix, iy]
  dsimp only
  simp only [Bool.or_self, Bool.false_eq_true, if_false, decide_eq_true_eq]
  rw [x1, y1, x3, y3]
  generalize hP : 2 ^ (double.unit - single.unit) = P
  have hp : 0 < P := by rw [← hP]; exact Nat.two_pow_pos _
  have zx := z x.n
  have zy := z y.n
  have ext : x.neg = y.neg → x.n = y.n → x = y := by
    intro h1 h2; cases x; cases y; simp_all
  by_cases hneg : x.neg = y.neg
  · rw [if_pos hneg]
    rcases Nat.lt_trichotomy x.n y.n with h | h | h
    · have hl := Nat.mul_lt_mul_of_pos_right (mag_lt single h) hp
      rw [Nat.max_eq_right (by omega), Nat.min_eq_left (by omega), ← Nat.sub_mul]
      constructor
      · intro hc
        have := scaled _ _ P hp hc
        have := apart _ _ h
        omega
      · rintro (e | e)
        · rw [e] at h; omega
        · omega
    · rw [h]
      simp [ext hneg h]
    · have hl := Nat.mul_lt_mul_of_pos_right (mag_lt single h) hp
      rw [Nat.max_eq_left (by omega), Nat.min_eq_right (by omega), ← Nat.sub_mul]
      constructor
      · intro hc
        have := scaled _ _ P hp hc
        have := apart _ _ h
        omega
      · rintro (e | e)
        · rw [e] at h; omega
        · omega
  · rw [if_neg hneg]
    constructor
    · intro hc
      right
      have ha : single.mag x.n * P = 0 ∧ single.mag y.n * P = 0 := by
        generalize single.mag x.n * P = a at *
        generalize single.mag y.n * P = b at *
        omega
      rcases Nat.mul_eq_zero.mp ha.1 with h | h
      · rcases Nat.mul_eq_zero.mp ha.2 with h' | h'
        · exact ⟨zx.mp h, zy.mp h'⟩
        · omega
      · omega
    · rintro (e | ⟨e1, e2⟩)
      · rw [e] at hneg; exact absurd rfl hneg
      · rw [zx.mpr e1, zy.mpr e2]; simp

/-- C100 fails for doubles: a primitive compares equal to one with another value, the next or previous double. -/
theorem C100_equal_fails (neg : Bool) (n : Nat) (h : 2 ^ 52 ≤ n) (hn : n + 1 < double.inf) :
    isClose ⟨neg, n⟩ ⟨neg, n + 1⟩ = true ∧ isClose ⟨neg, n + 1⟩ ⟨neg, n⟩ = true := by
  obtain ⟨s, q, hd, hq, hs, h1, h2⟩ := mag_succ double n
  have hq' : 2 ^ 52 ≤ q := by
    rcases hs with hs | hs
    · subst hs; rw [Nat.zero_mul, Nat.zero_add] at hd; omega
    · exact hs
  have hc : ((q + 1) * 2 ^ s - q * 2 ^ s) * 10 ^ 9 ≤ (q + 1) * 2 ^ s := by
    have : (q + 1) * 2 ^ s - q * 2 ^ s = 2 ^ s := by rw [Nat.succ_mul]; exact Nat.add_sub_cancel_left ..
    rw [this, Nat.mul_comm]
    exact Nat.mul_le_mul_right _ (Nat.le_trans (by decide : 10 ^ 9 ≤ 2 ^ 52) (by omega))
  have hlt := mag_lt_succ double n
  have a : ∀ m, m < double.inf → (⟨neg, m⟩ : Fl).isNan double = false := by
    intro m hm; unfold Fl.isNan; simp only [decide_eq_false_iff_not]; omega
  have b : ∀ m, m < double.inf → (⟨neg, m⟩ : Fl).isInf double = false := by
    intro m hm; unfold Fl.isInf; simp only [decide_eq_false_iff_not]; omega
  unfold isClose
  rw [a n (by omega), a (n + 1) hn, b n (by omega), b (n + 1) hn]
  dsimp only
  simp only [Bool.or_self, Bool.false_eq_true, if_false, if_true, decide_eq_true_eq]
  rw [Nat.max_eq_right (by omega), Nat.min_eq_left (by omega), Nat.max_eq_left (by omega), Nat.min_eq_right (by omega), h1, h2]
  exact ⟨hc, hc⟩

/-- C100 fails for doubles: equality is not transitive. -/
theorem C100_equal_transitive_fails : ∃ x y z : Fl, isClose x y = true ∧ isClose y z = true ∧ isClose x z = false :=
  ⟨⟨false, 4607182418800017408⟩, ⟨false, 4607182418800017408 + 4000000⟩, ⟨false, 4607182418800017408 + 8000000⟩, by decide +kernel⟩

/-! ### Concrete values -/

/-- 0.1 as a double. -/
def tenth : Fl := ⟨false, 4591870180066957722⟩

theorem C100_cases :
    narrow double single tenth = ⟨false, 1036831949⟩
    ∧ Kind.float.store tenth ≠ tenth ∧ (Kind.float.store tenth).n ≠ 0
    ∧ narrow double half tenth = ⟨false, 11878⟩
    ∧ Kind.half.store tenth ≠ widen half double ⟨false, 11878⟩
    ∧ Kind.half.send (Kind.half.store tenth) = some ⟨false, 11878⟩
    ∧ narrow double single ⟨true, double.inf - 1⟩ = ⟨true, single.inf⟩
    ∧ pack single ⟨true, double.inf - 1⟩ = none
    ∧ Kind.half.send (Kind.half.store ⟨false, 4679240012837945344⟩) = none
    ∧ double.mag 4679240012837945344 = 65536 * 2 ^ 1074
    ∧ isClose tenth ⟨false, tenth.n + 1⟩ = true := by
  decide +kernel

end Verif.Floats
