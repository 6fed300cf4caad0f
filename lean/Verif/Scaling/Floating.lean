import Verif.Scaling.Props
import Mathlib.Data.Int.Log
/-!
C07 in floating point: `runtimepy/primitives/scaling.py` and `Primitive.scale`/`Primitive.invert` (base.py
168–192) again, every operation rounded to a double: 53 significant bits, to nearest, ties to even. The exponent
is unbounded (simplification: no overflow, no subnormal numbers).
-/
namespace Verif.Scaling

open Verif.Wire

/-- Rounding to a double. -/
def rnd (q : Rat) : Rat :=
  if q = 0 then 0 else (pyRound (q / 2 ^ (Int.log 2 |q| - 52)) : Rat) * 2 ^ (Int.log 2 |q| - 52)

/-- The accumulation loop of `apply`, scaling.py 43–47. -/
def applyLoopF (value : Rat) : List Rat → Rat → Rat → Rat
  | [], result, _ => result
  | scalar :: rest, result, poly => applyLoopF value rest (rnd (result + rnd (scalar * poly))) (rnd (poly * value))

/-- `apply`, scaling.py 37–51. -/
def applyF (value : Rat) (scaling : List Rat) : Rat :=
  if scaling = [] then value else applyLoopF (rnd value) scaling 0 1

/-- `invert` without the final rounding, scaling.py 17–29. -/
def unscaleF (value : Rat) (scaling : List Rat) : Except PyErr Rat :=
  match scaling with
  | [] => .ok value
  | [offset] => .ok (rnd (rnd (rnd value - offset) / 1))
  | [offset, scale] => if scale = 0 then .error .zeroDivision else .ok (rnd (rnd (rnd value - offset) / scale))
  | _ => .error .assertion

/-- `Primitive.invert`, base.py 182–192, for an integer primitive. -/
def invertIntF (k : IntKind) (value : Rat) (scaling : List Rat) : Except PyErr Int :=
  (unscaleF value scaling).map (fun v => k.bounds.clamp (pyRound v))

/-! ### Rounding -/

theorem rnd_zero : rnd 0 = 0 := by simp [rnd]

theorem two_zpow_pos (z : Int) : (0 : Rat) < 2 ^ z := zpow_pos (by norm_num) z

theorem log_bounds (q : Rat) (hq : q ≠ 0) : (2 : Rat) ^ Int.log 2 |q| ≤ |q| ∧ |q| < 2 ^ (Int.log 2 |q| + 1) := by
  have h0 : 0 < |q| := abs_pos.mpr hq
  have h1 := Int.zpow_log_le_self (R := Rat) (b := 2) (by norm_num) h0
  have h2 := Int.lt_zpow_succ_log_self (R := Rat) (b := 2) (by norm_num) |q|
  exact ⟨by exact_mod_cast h1, by exact_mod_cast h2⟩

/-- The error of rounding is at most `2^-53` of the number. -/
theorem rnd_err (q : Rat) : |rnd q - q| ≤ |q| / 2 ^ 53 := by
  by_cases hq : q = 0
  · subst hq; simp [rnd]
  · unfold rnd
    rw [if_neg hq]
    obtain ⟨hlo, _⟩ := log_bounds q hq
    generalize Int.log 2 |q| = e at *
    have hp := two_zpow_pos (e - 52)
    have hn := pyRound_near (q / 2 ^ (e - 52))
    have e1 : (pyRound (q / 2 ^ (e - 52)) : Rat) * 2 ^ (e - 52) - q = ((pyRound (q / 2 ^ (e - 52)) : Rat) - q / 2 ^ (e - 52)) * 2 ^ (e - 52) := by
      rw [sub_mul, div_mul_cancel₀ _ (ne_of_gt hp)]
    rw [e1, abs_mul, abs_of_pos hp]
    have e2 : (2 : Rat) ^ e = 2 ^ (e - 52) * 2 ^ 52 := by
      rw [← zpow_natCast, ← zpow_add₀ (by norm_num)]; congr 1; push_cast; ring
    rw [e2] at hlo
    have h3 : |(pyRound (q / 2 ^ (e - 52)) : Rat) - q / 2 ^ (e - 52)| * 2 ^ (e - 52) ≤ 1 / 2 * 2 ^ (e - 52) :=
      mul_le_mul_of_nonneg_right hn (le_of_lt hp)
    rw [le_div_iff₀ (by norm_num)]
    nlinarith

/-- Numbers of at most 53 bits, shifted, are not changed. -/
theorem rnd_rep' (n : Int) (z : Int) (hn : |n| < 2 ^ 53) : rnd ((n : Rat) * 2 ^ z) = (n : Rat) * 2 ^ z := by
  by_cases hq : (n : Rat) * 2 ^ z = 0
  · rw [hq, rnd_zero]
  · unfold rnd
    rw [if_neg hq]
    obtain ⟨hlo, _⟩ := log_bounds _ hq
    have hz := two_zpow_pos z
    have hlt : |(n : Rat) * 2 ^ z| < 2 ^ (53 + z) := by
      rw [abs_mul, abs_of_pos hz, zpow_add₀ (by norm_num)]
      apply mul_lt_mul_of_pos_right _ hz
      have : ((|n| : Int) : Rat) < ((2 ^ 53 : Int) : Rat) := by exact_mod_cast hn
      rw [Int.cast_abs] at this
      calc |(n : Rat)| < ((2 ^ 53 : Int) : Rat) := this
        _ = 2 ^ (53 : Int) := by norm_num
    have hle : Int.log 2 |(n : Rat) * 2 ^ z| - 52 ≤ z := by
      have := lt_of_le_of_lt hlo hlt
      rw [zpow_lt_zpow_iff_right₀ (by norm_num)] at this
      omega
    generalize Int.log 2 |(n : Rat) * 2 ^ z| = e at *
    obtain ⟨d, hd⟩ := Int.le.dest hle
    have hp := two_zpow_pos (e - 52)
    have e1 : (n : Rat) * 2 ^ z / 2 ^ (e - 52) = ((n * 2 ^ d : Int) : Rat) := by
      rw [← hd, zpow_add₀ (by norm_num), div_eq_iff (ne_of_gt hp)]
      push_cast
      rw [zpow_natCast]
      ring
    have e2 := e1
    rw [div_eq_iff (ne_of_gt hp)] at e2
    rw [e1, pyRound_int, ← e2]

theorem rnd_rep (n : Int) (z : Int) (hn : |n| ≤ 2 ^ 53) : rnd ((n : Rat) * 2 ^ z) = (n : Rat) * 2 ^ z := by
  rcases lt_or_eq_of_le hn with h | h
  · exact rnd_rep' n z h
  · have hs : (2 : Rat) ^ (z + 1) = 2 * 2 ^ z := by rw [zpow_add₀ (by norm_num)]; ring
    rcases abs_eq (by norm_num) |>.mp h with h | h
    · subst h
      have := rnd_rep' (2 ^ 52) (z + 1) (by norm_num)
      rw [hs] at this
      have e : ((2 ^ 52 : Int) : Rat) * (2 * 2 ^ z) = ((2 ^ 53 : Int) : Rat) * 2 ^ z := by push_cast; ring
      rwa [e] at this
    · subst h
      have := rnd_rep' (-2 ^ 52) (z + 1) (by norm_num)
      rw [hs] at this
      have e : ((-2 ^ 52 : Int) : Rat) * (2 * 2 ^ z) = ((-2 ^ 53 : Int) : Rat) * 2 ^ z := by push_cast; ring
      rwa [e] at this

theorem rnd_int (n : Int) (hn : |n| ≤ 2 ^ 53) : rnd (n : Rat) = n := by
  have := rnd_rep n 0 hn
  simpa using this

/-- A rounded number is a double. -/
theorem rnd_form (q : Rat) (hq : q ≠ 0) : ∃ n : Int, |n| ≤ 2 ^ 53 ∧ rnd q = (n : Rat) * 2 ^ (Int.log 2 |q| - 52) := by
  obtain ⟨_, hhi⟩ := log_bounds q hq
  refine ⟨pyRound (q / 2 ^ (Int.log 2 |q| - 52)), ?_, by unfold rnd; rw [if_neg hq]⟩
  generalize Int.log 2 |q| = e at *
  have hp := two_zpow_pos (e - 52)
  have hn := pyRound_near (q / 2 ^ (e - 52))
  have hq' : |q / 2 ^ (e - 52)| < 2 ^ 53 := by
    rw [abs_div, abs_of_pos hp, div_lt_iff₀ hp]
    have : (2 : Rat) ^ (e + 1) = 2 ^ 53 * 2 ^ (e - 52) := by
      rw [← zpow_natCast, ← zpow_add₀ (by norm_num)]; congr 1; push_cast; ring
    rwa [this] at hhi
  have h1 := abs_lt.mp hq'
  have h2 := abs_le.mp hn
  rw [abs_le]
  constructor
  · have : (((-2 ^ 53 - 1 : Int)) : Rat) < (pyRound (q / 2 ^ (e - 52)) : Rat) := by push_cast; linarith
    have := Int.cast_lt.mp this
    omega
  · have : (pyRound (q / 2 ^ (e - 52)) : Rat) < ((2 ^ 53 + 1 : Int) : Rat) := by push_cast; linarith
    have := Int.cast_lt.mp this
    omega

theorem rnd_rnd (q : Rat) : rnd (rnd q) = rnd q := by
  by_cases hq : q = 0
  · subst hq; rw [rnd_zero, rnd_zero]
  · obtain ⟨n, hn, h⟩ := rnd_form q hq
    rw [h, rnd_rep n _ hn]

theorem pyRound_unique (z : Rat) (r : Int) (h : |z - r| < 1 / 2) : pyRound z = r := by
  have h1 := abs_le.mp (pyRound_near z)
  have h2 := abs_lt.mp h
  have a : (pyRound z : Rat) < ((r + 1 : Int) : Rat) := by push_cast; linarith
  have b : ((r - 1 : Int) : Rat) < (pyRound z : Rat) := by push_cast; linarith
  have a := Int.cast_lt.mp a
  have b := Int.cast_lt.mp b
  omega

/-! ### Scaling -/

theorem applyF_two (v a b : Rat) (ha : rnd a = a) : applyF v [a, b] = rnd (a + rnd (b * rnd v)) := by
  simp only [applyF, applyLoopF]
  simp [rnd_rnd, ha]

/-- **C07** In floating point: scaling a raw value and un-scaling it gives the raw value back, for raw values
and quotients of offset and slope up to `2^49`: all integer types up to 32 bits. -/
theorem C07_float_get_set (k : IntKind) (a b : Rat) (ha : rnd a = a) (hb : b ≠ 0) (hab : |a| ≤ 2 ^ 49 * |b|) (r : Int)
    (hr : Spec.lo k ≤ r ∧ r ≤ Spec.hi k) (hr' : |r| ≤ 2 ^ 49) :
    invertIntF k (applyF r [a, b]) [a, b] = .ok r := by
  have hlh : Spec.lo k ≤ Spec.hi k := by cases k <;> decide
  have hrq : |(r : Rat)| ≤ 2 ^ 49 := by
    have : ((|r| : Int) : Rat) ≤ ((2 ^ 49 : Int) : Rat) := by exact_mod_cast hr'
    rw [Int.cast_abs] at this
    exact le_trans this (by norm_num)
  have hrr : rnd (r : Rat) = r := rnd_int r (le_trans hr' (by norm_num))
  rw [applyF_two _ _ _ ha, hrr]
  have hz : |rnd (rnd (rnd (rnd (a + rnd (b * r))) - a) / b) - r| < 1 / 2 := by
    rw [rnd_rnd]
    have d1 := rnd_err (b * r)
    generalize rnd (b * r) = p at *
    have d2 := rnd_err (a + p)
    generalize rnd (a + p) = x at *
    have d3 := rnd_err (x - a)
    generalize rnd (x - a) = y at *
    have d4 := rnd_err (y / b)
    generalize rnd (y / b) = z at *
    have hb0 : 0 < |b| := abs_pos.mpr hb
    -- everything divided by the slope
    have q : ∀ c : Rat, |c / b| = |c| / |b| := fun c => abs_div c b
    have A : |a / b| ≤ 2 ^ 49 := by rw [q, div_le_iff₀ hb0]; exact hab
    have D1 : |p / b - r| ≤ |(r : Rat)| / 2 ^ 53 := by
      have : p / b - r = (p - b * r) / b := by field_simp
      rw [this, q, div_le_iff₀ hb0]
      refine le_trans d1 (le_of_eq ?_)
      rw [abs_mul]; ring
    have D2 : |x / b - (a / b + p / b)| ≤ |a / b + p / b| / 2 ^ 53 := by
      have e : x / b - (a / b + p / b) = (x - (a + p)) / b := by ring
      have e' : a / b + p / b = (a + p) / b := by ring
      rw [e, e', q, q, div_le_iff₀ hb0]
      refine le_trans d2 (le_of_eq ?_)
      field_simp
    have D3 : |y / b - (x / b - a / b)| ≤ |x / b - a / b| / 2 ^ 53 := by
      have e : y / b - (x / b - a / b) = (y - (x - a)) / b := by ring
      have e' : x / b - a / b = (x - a) / b := by ring
      rw [e, e', q, q, div_le_iff₀ hb0]
      refine le_trans d3 (le_of_eq ?_)
      field_simp
    generalize p / b = P at *
    generalize x / b = X at *
    generalize a / b = A' at *
    generalize y / b = Y at *
    generalize (r : Rat) = R at *
    have hD1 : |R| / 2 ^ 53 ≤ 1 / 16 := by rw [div_le_iff₀ (by norm_num)]; linarith
    have b1 := abs_le.mp (le_trans D1 hD1)
    have bR := abs_le.mp hrq
    have bA := abs_le.mp A
    have hP : |A' + P| ≤ 2 ^ 50 + 1 := by rw [abs_le]; constructor <;> linarith
    have hD2 : |A' + P| / 2 ^ 53 ≤ 1 / 7 := by rw [div_le_iff₀ (by norm_num)]; linarith
    have b2 := abs_le.mp (le_trans D2 hD2)
    have hX : |X - A'| ≤ 2 ^ 49 + 1 := by rw [abs_le]; constructor <;> linarith
    have hD3 : |X - A'| / 2 ^ 53 ≤ 1 / 15 := by rw [div_le_iff₀ (by norm_num)]; linarith
    have b3 := abs_le.mp (le_trans D3 hD3)
    have hY : |Y| ≤ 2 ^ 49 + 2 := by rw [abs_le]; constructor <;> linarith
    have hD4 : |Y| / 2 ^ 53 ≤ 1 / 15 := by rw [div_le_iff₀ (by norm_num)]; linarith
    have b4 := abs_le.mp (le_trans d4 hD4)
    rw [abs_lt]
    constructor <;> linarith
  simp only [invertIntF, unscaleF, hb, if_false, Except.map, C08_bounds, pyRound_unique _ r hz]
  rw [(C08_clamp_nearest ⟨Spec.lo k, Spec.hi k⟩ hlh r).2.1 hr]

/-- C07, of a polynomial of one term: it is a constant when read, and yet a number written is taken as if the missing
slope were 1, so the difference to the constant is stored and the number read back is the constant whatever was written. -/
theorem C07_float_single_fails (k : IntKind) (a v : Int) (ha : |a| ≤ 2 ^ 52) (hv : |v| ≤ 2 ^ 52) :
    invertIntF k v [(a : Rat)] = .ok (k.bounds.clamp (v - a)) ∧ ∀ w : Rat, applyF w [(a : Rat)] = a := by
  have h1 : rnd (v : Rat) = v := rnd_int v (by omega)
  have h2 : rnd (a : Rat) = a := rnd_int a (by omega)
  have hd : |v - a| ≤ 2 ^ 53 := by
    have := abs_sub v a
    omega
  have h3 : rnd ((v : Rat) - a) = ((v - a : Int) : Rat) := by
    rw [← Int.cast_sub]
    exact rnd_int _ hd
  constructor
  · simp only [invertIntF, unscaleF, h1, h3, div_one, Except.map]
    rw [rnd_int _ hd, pyRound_int]
  · intro w
    simp [applyF, applyLoopF, h2]

/-- Case: written 7, read 3. -/
example : invertIntF .uint8 ((7 : Int) : Rat) [((3 : Int) : Rat)] = .ok 4 ∧ applyF 4 [((3 : Int) : Rat)] = ((3 : Int) : Rat) :=
  ⟨(C07_float_single_fails .uint8 3 7 (by norm_num) (by norm_num)).1, (C07_float_single_fails .uint8 3 7 (by norm_num) (by norm_num)).2 4⟩

theorem IntKind32 (k : IntKind) (h : Spec.hi k < 2 ^ 32) (r : Int) (hr : Spec.lo k ≤ r ∧ r ≤ Spec.hi k) : |r| ≤ 2 ^ 32 := by
  have : -(2 ^ 32) ≤ Spec.lo k := by revert h; cases k <;> decide
  rw [abs_le]
  constructor <;> omega

/-- **C07** The same for the types up to 32 bits, without condition on the raw value. -/
theorem C07_float_narrow (k : IntKind) (hk : Spec.hi k < 2 ^ 32) (a b : Rat) (ha : rnd a = a) (hb : b ≠ 0)
    (hab : |a| ≤ 2 ^ 49 * |b|) (r : Int) (hr : Spec.lo k ≤ r ∧ r ≤ Spec.hi k) :
    invertIntF k (applyF r [a, b]) [a, b] = .ok r :=
  C07_float_get_set k a b ha hb hab r hr (le_trans (IntKind32 k hk r hr) (by norm_num))

/-- Odd numbers beyond `2^53` are no doubles, and what they are rounded to is even. -/
theorem rnd_odd (r : Int) (h : 2 ^ 53 < |r|) : ∃ m : Int, rnd (r : Rat) = ((2 * m : Int) : Rat) := by
  have hr0 : (r : Rat) ≠ 0 := by
    intro h0
    have : r = 0 := by exact_mod_cast h0
    subst this
    norm_num at h
  obtain ⟨n, _, hn⟩ := rnd_form r hr0
  obtain ⟨_, hhi⟩ := log_bounds (r : Rat) hr0
  have hl : 53 ≤ Int.log 2 |(r : Rat)| := by
    have h1 : (2 : Rat) ^ (53 : Int) < |(r : Rat)| := by
      have : ((2 ^ 53 : Int) : Rat) < ((|r| : Int) : Rat) := by exact_mod_cast h
      rw [Int.cast_abs] at this
      calc (2 : Rat) ^ (53 : Int) = ((2 ^ 53 : Int) : Rat) := by norm_num
        _ < _ := this
    have := lt_trans h1 hhi
    rw [zpow_lt_zpow_iff_right₀ (by norm_num)] at this
    omega
  generalize Int.log 2 |(r : Rat)| = e at *
  obtain ⟨d, hd⟩ := Int.le.dest hl
  refine ⟨n * 2 ^ d, ?_⟩
  rw [hn, ← hd, show (53 : Int) + d - 52 = 1 + d by ring, zpow_add₀ (by norm_num), zpow_natCast]
  push_cast
  ring

/-- **C07** fails for 64-bit types: no odd raw value beyond `2^53` survives the scaling that changes nothing,
but for the bounds of the type. -/
theorem C07_wide_fails (k : IntKind) (r : Int) (hr : Spec.lo k < r ∧ r < Spec.hi k) (h : 2 ^ 53 < |r|) (hodd : r % 2 = 1) :
    invertIntF k (applyF r [0, 1]) [0, 1] ≠ .ok r := by
  obtain ⟨m, hm⟩ := rnd_odd r h
  have e : rnd (rnd (rnd (rnd (0 + rnd (1 * rnd (r : Rat)))) - 0) / 1) = rnd r := by
    simp [rnd_rnd]
  rw [applyF_two _ _ _ rnd_zero]
  intro hc
  simp only [invertIntF, unscaleF, Except.map, C08_bounds, e, one_ne_zero, if_false] at hc
  rw [hm, pyRound_int] at hc
  injection hc with hc
  unfold IntegerBounds.clamp at hc
  dsimp only at hc
  omega

/-- **C07** fails for large offsets: `2^54` and one, in every integer type. -/
theorem C07_offset_fails (k : IntKind) : invertIntF k (applyF (1 : Int) [2 ^ 54, 1]) [2 ^ 54, 1] = .ok 0 := by
  have h1 : rnd ((1 : Int) : Rat) = 1 := by
    have := rnd_int 1 (by norm_num)
    simpa using this
  have ha : rnd ((2 : Rat) ^ 54) = 2 ^ 54 := by
    have := rnd_rep (2 ^ 53) 1 (by norm_num)
    have e : (((2 ^ 53 : Int)) : Rat) * 2 ^ (1 : Int) = 2 ^ 54 := by norm_num
    rwa [e] at this
  have h2 : rnd ((2 : Rat) ^ 54 + 1) = 2 ^ 54 := by
    have hne : (2 : Rat) ^ 54 + 1 ≠ 0 := by positivity
    have hl : Int.log 2 |(2 : Rat) ^ 54 + 1| = 54 := by
      obtain ⟨h1, h2⟩ := log_bounds ((2 : Rat) ^ 54 + 1) hne
      rw [abs_of_pos (by positivity)] at h1 h2 ⊢
      have a : (2 : Rat) ^ Int.log 2 ((2 : Rat) ^ 54 + 1) < 2 ^ (55 : Int) := lt_of_le_of_lt h1 (by norm_num)
      have b : (2 : Rat) ^ (54 : Int) < 2 ^ (Int.log 2 ((2 : Rat) ^ 54 + 1) + 1) := lt_of_lt_of_le (by norm_num) (le_of_lt h2)
      rw [zpow_lt_zpow_iff_right₀ (by norm_num)] at a b
      omega
    unfold rnd
    rw [if_neg hne, hl, pyRound_unique _ (2 ^ 52) (by norm_num [abs_lt])]
    norm_num
  have e : rnd (rnd (rnd (rnd ((2 : Rat) ^ 54 + rnd (1 * rnd ((1 : Int) : Rat)))) - 2 ^ 54) / 1) = ((0 : Int) : Rat) := by
    have h1' : rnd 1 = 1 := by have := h1; push_cast at this; exact this
    rw [h1, one_mul, h1', h2, ha, sub_self, rnd_zero, zero_div, rnd_zero]; norm_num
  rw [applyF_two _ _ _ ha]
  simp only [invertIntF, unscaleF, Except.map, C08_bounds, e, one_ne_zero, if_false, pyRound_int]
  congr 1
  cases k <;> decide

/-- Hypotheses met: a temperature sensor with offset -40 and slope 1/8. -/
example (r : Int) (hr : Spec.lo .uint16 ≤ r ∧ r ≤ Spec.hi .uint16) :
    invertIntF .uint16 (applyF r [-40, 1 / 8]) [-40, 1 / 8] = .ok r := by
  apply C07_float_narrow .uint16 (by decide) _ _ _ (by norm_num) (by norm_num [abs_of_neg, abs_of_pos]) r hr
  have := rnd_int (-40) (by norm_num)
  push_cast at this
  exact this

end Verif.Scaling
