import Verif.Bits.Model
import Verif.Wire.Lemmas
import Mathlib.Tactic.Ring
import Mathlib.Tactic.Positivity
import Mathlib.Tactic.Linarith
namespace Verif.Bits

open Verif.Wire

/-- `val & (2^w - 1)` is reduction modulo `2^w`, also for negative integers. -/
theorem land_mask (v : Int) (w : Nat) : Int.land v (mask w) = v % 2 ^ w := by
  have hm : mask w = ((2 ^ w - 1 : Nat) : Int) := by
    unfold mask
    have : 1 ≤ 2 ^ w := Nat.one_le_two_pow
    push_cast [Nat.cast_sub this]
    rfl
  rw [hm]
  cases v with
  | ofNat n =>
    show ((n &&& (2 ^ w - 1) : Nat) : Int) = ((n : Nat) : Int) % 2 ^ w
    rw [Nat.and_two_pow_sub_one_eq_mod]
    push_cast
    rfl
  | negSucc m =>
    show ((Nat.ldiff (2 ^ w - 1) m : Nat) : Int) = Int.negSucc m % 2 ^ w
    have hlt : m % 2 ^ w < 2 ^ w := Nat.mod_lt _ (Nat.two_pow_pos w)
    have h1 : Nat.ldiff (2 ^ w - 1) m = 2 ^ w - (m % 2 ^ w + 1) := by
      apply Nat.eq_of_testBit_eq
      intro i
      rw [Nat.testBit_two_pow_sub_succ hlt, Nat.testBit_ldiff, Nat.testBit_two_pow_sub_one,
        Nat.testBit_mod_two_pow]
      by_cases h : i < w <;> simp [h]
    rw [h1]
    have hp : (0 : Int) < 2 ^ w := by positivity
    have e : (Int.negSucc m : Int) = (2 ^ w - (m % 2 ^ w + 1 : Int)) + 2 ^ w * (-(m / 2 ^ w : Int) - 1) := by
      rw [Int.negSucc_eq]
      have := Int.emod_add_mul_ediv (m : Int) (2 ^ w)
      linarith
    rw [e, Int.add_mul_emod_self_left]
    have h2 : ((m % 2 ^ w : Nat) : Int) = (m : Int) % 2 ^ w := by push_cast; rfl
    rw [Int.emod_eq_of_lt]
    · rw [Nat.cast_sub (by omega)]
      push_cast
      rfl
    · rw [← h2]; have : ((m % 2 ^ w : Nat) : Int) < ((2 ^ w : Nat) : Int) := by exact_mod_cast hlt
      push_cast at this ⊢
      linarith
    · have : (0 : Int) ≤ (m : Int) % 2 ^ w := Int.emod_nonneg _ (ne_of_gt hp)
      linarith

theorem mask_cast (w : Nat) : mask w = ((2 ^ w - 1 : Nat) : Int) := by
  unfold mask
  have : 1 ≤ 2 ^ w := Nat.one_le_two_pow
  push_cast [Nat.cast_sub this]
  rfl

theorem shiftedMask_cast (i w : Nat) :
    shiftedMask i w = (((2 ^ w - 1) * 2 ^ i : Nat) : Int) := by
  unfold shiftedMask
  rw [mask_cast]
  push_cast
  rfl

theorem testBit_shifted (i w j : Nat) :
    ((2 ^ w - 1) * 2 ^ i).testBit j = (decide (i ≤ j) && decide (j < i + w)) := by
  rw [Nat.testBit_mul_two_pow, Nat.testBit_two_pow_sub_one]
  by_cases h : i ≤ j
  · have : (j - i < w) ↔ (j < i + w) := by omega
    simp [h, this]
  · simp [h]

/-- Reading a field of a non-negative integer is the usual arithmetic. -/
theorem readField_nat (n i w : Nat) : readField (n : Int) i w = ((n / 2 ^ i % 2 ^ w : Nat) : Int) := by
  unfold readField
  rw [shiftedMask_cast]
  show (((n &&& ((2 ^ w - 1) * 2 ^ i) : Nat) : Int)) / 2 ^ i = _
  have : ((n &&& ((2 ^ w - 1) * 2 ^ i)) / 2 ^ i : Nat) = n / 2 ^ i % 2 ^ w := by
    apply Nat.eq_of_testBit_eq
    intro j
    rw [Nat.testBit_div_two_pow, Nat.testBit_and, testBit_shifted, Nat.testBit_mod_two_pow,
      Nat.testBit_div_two_pow]
    have h1 : i ≤ j + i := by omega
    have h2 : (j + i < i + w) ↔ j < w := by omega
    simp [h1, h2, Bool.and_comm]
  rw [← this]
  push_cast
  rfl

/-- The new underlying value, as a natural number. -/
def setBits (n i w : Nat) (v : Int) : Nat :=
  (Nat.ldiff n ((2 ^ w - 1) * 2 ^ i)) ||| ((v % 2 ^ w).toNat * 2 ^ i)

theorem emod_toNat_lt (v : Int) (w : Nat) : (v % 2 ^ w).toNat < 2 ^ w := by
  have hp : (0 : Int) < 2 ^ w := by positivity
  have h1 := Int.emod_nonneg v (ne_of_gt hp)
  have h2 := Int.emod_lt_of_pos v hp
  have : (((v % 2 ^ w).toNat : Nat) : Int) < ((2 ^ w : Nat) : Int) := by
    rw [Int.toNat_of_nonneg h1]; push_cast; exact h2
  exact_mod_cast this

theorem emod_toNat_cast (v : Int) (w : Nat) : (((v % 2 ^ w).toNat : Nat) : Int) = v % 2 ^ w := by
  have hp : (0 : Int) < 2 ^ w := by positivity
  exact Int.toNat_of_nonneg (Int.emod_nonneg v (ne_of_gt hp))

theorem testBit_setBits (n i w : Nat) (v : Int) (j : Nat) :
    (setBits n i w v).testBit j =
      if i ≤ j ∧ j < i + w then (v % 2 ^ w).toNat.testBit (j - i) else n.testBit j := by
  unfold setBits
  rw [Nat.testBit_or, Nat.testBit_ldiff, testBit_shifted, Nat.testBit_mul_two_pow]
  by_cases h1 : i ≤ j
  · by_cases h2 : j < i + w
    · simp [h1, h2]
    · have : ((v % 2 ^ w).toNat).testBit (j - i) = false := by
        apply Nat.testBit_lt_two_pow
        exact Nat.lt_of_lt_of_le (emod_toNat_lt v w) (Nat.pow_le_pow_right (by decide) (by omega))
      simp [h1, h2, this]
  · simp [h1]

theorem setBits_lt (n i w b : Nat) (v : Int) (hn : n < 2 ^ b) (hb : i + w ≤ b) :
    setBits n i w v < 2 ^ b := by
  apply Nat.lt_pow_two_of_testBit
  intro j hj
  rw [testBit_setBits]
  rw [if_neg (by omega)]
  exact Nat.testBit_lt_two_pow (Nat.lt_of_lt_of_le hn (Nat.pow_le_pow_right (by decide) hj))

theorem writeField_nat (k : IntKind) (n i w : Nat) (v : Int) :
    writeField k (n : Int) i w v = (wrap k (setBits n i w v : Nat), v % 2 ^ w) := by
  unfold writeField
  rw [shiftedMask_cast, land_mask]
  have e : v % 2 ^ w * 2 ^ i = (((v % 2 ^ w).toNat * 2 ^ i : Nat) : Int) := by
    push_cast
    rw [emod_toNat_cast]
  simp only [e]
  have h1 : Int.lnot (((2 ^ w - 1) * 2 ^ i : Nat) : Int) = Int.negSucc ((2 ^ w - 1) * 2 ^ i) := rfl
  rw [h1]
  rfl

theorem read_setBits_same (n i w : Nat) (v : Int) :
    setBits n i w v / 2 ^ i % 2 ^ w = (v % 2 ^ w).toNat := by
  apply Nat.eq_of_testBit_eq
  intro j
  rw [Nat.testBit_mod_two_pow, Nat.testBit_div_two_pow, testBit_setBits]
  by_cases h : j < w
  · have h1 : i ≤ j + i ∧ j + i < i + w := by omega
    simp [h, h1]
  · have : ((v % 2 ^ w).toNat).testBit j = false := by
      apply Nat.testBit_lt_two_pow
      exact Nat.lt_of_lt_of_le (emod_toNat_lt v w) (Nat.pow_le_pow_right (by decide) (by omega))
    simp [h, this]

theorem read_setBits_other (n i w i' w' : Nat) (v : Int)
    (hd : ∀ b, i' ≤ b → b < i' + w' → ¬ (i ≤ b ∧ b < i + w)) :
    setBits n i w v / 2 ^ i' % 2 ^ w' = n / 2 ^ i' % 2 ^ w' := by
  apply Nat.eq_of_testBit_eq
  intro j
  rw [Nat.testBit_mod_two_pow, Nat.testBit_div_two_pow, testBit_setBits, Nat.testBit_mod_two_pow,
    Nat.testBit_div_two_pow]
  by_cases h : j < w'
  · rw [if_neg (hd _ (by omega) (by omega))]
  · simp [h]

theorem testBit_eq (x : Int) (j : Nat) : Int.testBit x j = decide (x / 2 ^ j % 2 = 1) := by
  cases x with
  | ofNat n =>
    show n.testBit j = _
    rw [Nat.testBit_eq_decide_div_mod_eq]
    have : (Int.ofNat n / 2 ^ j % 2 : Int) = ((n / 2 ^ j % 2 : Nat) : Int) := by push_cast; rfl
    rw [this]
    congr 1
    apply propext
    constructor
    · intro h; rw [h]; rfl
    · intro h; exact_mod_cast h
  | negSucc m =>
    show (!m.testBit j) = _
    rw [Nat.testBit_eq_decide_div_mod_eq, Int.negSucc_ediv _ (by positivity)]
    have : ((m : Int) / 2 ^ j) = ((m / 2 ^ j : Nat) : Int) := by push_cast; rfl
    show _ = decide (-((m : Int) / 2 ^ j + 1) % 2 = 1)
    rw [this]
    generalize m / 2 ^ j = q
    by_cases h : q % 2 = 1
    · have h2 : ¬ (-((q : Int) + 1) % 2 = 1) := by omega
      rw [decide_eq_true h, decide_eq_false h2]; rfl
    · have h2 : (-((q : Int) + 1) % 2 = 1) := by omega
      rw [decide_eq_false h, decide_eq_true h2]; rfl

/-- The `b`-bit pattern of an integer. -/
def patt (b : Nat) (x : Int) : Nat := (x % 2 ^ b).toNat

theorem patt_cast (b : Nat) (x : Int) : ((patt b x : Nat) : Int) = x % 2 ^ b := emod_toNat_cast x b

theorem patt_lt (b : Nat) (x : Int) : patt b x < 2 ^ b := emod_toNat_lt x b

theorem testBit_patt (b : Nat) (x : Int) (j : Nat) :
    (patt b x).testBit j = (decide (j < b) && Int.testBit x j) := by
  have h : ((patt b x : Nat) : Int) = Int.land x (mask b) := by rw [patt_cast, land_mask]
  have h2 : (patt b x).testBit j = Int.testBit ((patt b x : Nat) : Int) j := rfl
  rw [h2, h, Int.testBit_land, mask_cast]
  have h3 : Int.testBit ((2 ^ b - 1 : Nat) : Int) j = (2 ^ b - 1).testBit j := rfl
  rw [h3, Nat.testBit_two_pow_sub_one, Bool.and_comm]

theorem land_natCast (x : Int) (s b : Nat) (hs : s < 2 ^ b) :
    Int.land x (s : Int) = ((patt b x &&& s : Nat) : Int) := by
  have hnn : 0 ≤ Int.land x (s : Int) := by
    cases x <;> exact Int.natCast_nonneg _
  obtain ⟨t, ht⟩ := Int.eq_ofNat_of_zero_le hnn
  rw [ht]
  congr 1
  apply Nat.eq_of_testBit_eq
  intro j
  have h1 : t.testBit j = Int.testBit ((t : Nat) : Int) j := rfl
  rw [h1, ← ht, Int.testBit_land, Nat.testBit_and, testBit_patt]
  have h3 : Int.testBit (s : Int) j = s.testBit j := rfl
  rw [h3]
  by_cases h : j < b
  · simp [h]
  · have : s.testBit j = false :=
      Nat.testBit_lt_two_pow (Nat.lt_of_lt_of_le hs (Nat.pow_le_pow_right (by decide) (by omega)))
    simp [this]

theorem shifted_lt (i w b : Nat) (h : i + w ≤ b) : (2 ^ w - 1) * 2 ^ i < 2 ^ b := by
  apply Nat.lt_pow_two_of_testBit
  intro j hj
  rw [testBit_shifted]
  have : ¬ (j < i + w) := by omega
  simp [this]

theorem readField_patt (x : Int) (i w b : Nat) (h : i + w ≤ b) :
    readField x i w = ((patt b x / 2 ^ i % 2 ^ w : Nat) : Int) := by
  rw [← readField_nat]
  unfold readField
  rw [shiftedMask_cast, land_natCast x _ b (shifted_lt i w b h)]
  rfl

theorem readField_arith (x : Int) (i w : Nat) : readField x i w = x / 2 ^ i % 2 ^ w := by
  rw [readField_patt x i w (i + w) (Nat.le_refl _)]
  push_cast
  rw [patt_cast, Int.pow_add]
  have hp : (2 : Int) ^ i ≠ 0 := by positivity
  have e : x % (2 ^ i * 2 ^ w) = x + 2 ^ i * (2 ^ w * -(x / (2 ^ i * 2 ^ w))) := by
    rw [Int.emod_def]; ring
  rw [e, Int.add_mul_ediv_left _ _ hp, Int.add_mul_emod_self_left]

theorem wrap_patt (k : IntKind) (x : Int) : patt k.bits (wrap k x) = patt k.bits x := by
  unfold patt
  rw [show (2 : Int) ^ k.bits = 2 ^ k.bits from rfl, wrap_emod]

theorem writeField_patt (k : IntKind) (x : Int) (i w : Nat) (v : Int) (h : w = 0 ∨ i + w ≤ k.bits) :
    patt k.bits (writeField k x i w v).1 = setBits (patt k.bits x) i w v := by
  unfold writeField
  simp only
  rw [wrap_patt, land_mask]
  apply Nat.eq_of_testBit_eq
  intro j
  rw [testBit_patt, Int.testBit_lor, Int.testBit_land, Int.testBit_lnot, shiftedMask_cast,
    testBit_setBits, testBit_patt]
  have e : v % 2 ^ w * 2 ^ i = (((v % 2 ^ w).toNat * 2 ^ i : Nat) : Int) := by
    push_cast
    rw [emod_toNat_cast]
  rw [e]
  have h1 : Int.testBit (((2 ^ w - 1) * 2 ^ i : Nat) : Int) j = ((2 ^ w - 1) * 2 ^ i).testBit j := rfl
  have h2 : Int.testBit (((v % 2 ^ w).toNat * 2 ^ i : Nat) : Int) j
      = ((v % 2 ^ w).toNat * 2 ^ i).testBit j := rfl
  rw [h1, h2, testBit_shifted, Nat.testBit_mul_two_pow]
  by_cases a : i ≤ j
  · by_cases c : j < i + w
    · have : j < k.bits := by omega
      simp [a, c, this]
    · have : ((v % 2 ^ w).toNat).testBit (j - i) = false := by
        apply Nat.testBit_lt_two_pow
        exact Nat.lt_of_lt_of_le (emod_toNat_lt v w) (Nat.pow_le_pow_right (by decide) (by omega))
      simp [a, c, this]
  · simp [a]

theorem writeField_snd (k : IntKind) (x : Int) (i w : Nat) (v : Int) :
    (writeField k x i w v).2 = v % 2 ^ w := by
  unfold writeField
  exact land_mask v w

theorem writeField_packable (k : IntKind) (x : Int) (i w : Nat) (v : Int) :
    packable k.size k.signed (writeField k x i w v).1 = true := wrap_packable _ _

/-- A stored value is determined by its pattern. -/
theorem patt_inj (k : IntKind) (x y : Int) (hx : packable k.size k.signed x = true) (hy : packable k.size k.signed y = true)
    (h : patt k.bits x = patt k.bits y) : x = y := by
  have h' : x % 2 ^ k.bits = y % 2 ^ k.bits := by rw [← patt_cast, ← patt_cast, h]
  rw [← wrap_of_packable k x hx, ← wrap_of_packable k y hy]
  have e : k.bits = 8 * k.size := Nat.mul_comm _ _
  unfold wrap toPattern
  rw [← e, h']

end Verif.Bits
