import Verif.Scaling.Model
import Verif.Wire.Props
import Mathlib.Data.Rat.Floor
import Mathlib.Algebra.Order.Field.Basic
import Mathlib.Tactic.FieldSimp
import Mathlib.Tactic.Linarith
import Mathlib.Tactic.Ring
import Mathlib.Tactic.NormNum
/-!
C07: scaling and its inversion.
-/
namespace Verif.Scaling

open Verif.Wire

theorem applyLoop_eq (value : Rat) (l : List Rat) (r p : Rat) :
    applyLoop value l r p = r + p * applyLoop value l 0 1 := by
  induction l generalizing r p with
  | nil => simp [applyLoop]
  | cons a l ih =>
    simp only [applyLoop]
    rw [ih, ih (0 + a * 1) (1 * value)]
    ring

/-- **C07** Applying a scaling evaluates its polynomial (Horner's recurrence): the constant term
plus the value times the rest. -/
theorem C07_apply_polynomial (value a : Rat) (rest : List Rat) :
    apply value (a :: rest) =
      a + (if rest = [] then 0 else value * apply value rest) := by
  simp only [apply, applyLoop]
  cases rest with
  | nil => simp [applyLoop]
  | cons b rest =>
    rw [applyLoop_eq]
    simp

theorem apply_two (v a b : Rat) : apply v [a, b] = a + v * b := by
  simp [apply, applyLoop]
  ring

/-- **C07** For a linear scaling with non-zero slope, un-scaling and scaling cancel both ways. -/
theorem C07_invert_apply (a b v : Rat) (hb : b ≠ 0) :
    ∃ r, invert v [a, b] false = .ok r ∧ apply r [a, b] = v ∧
      invert (apply v [a, b]) [a, b] false = .ok v := by
  refine ⟨(v - a) / b, by simp [invert, unscale, hb, Except.map], ?_, ?_⟩
  · rw [apply_two]; field_simp; ring
  · rw [apply_two]; simp [invert, unscale, hb, Except.map]

theorem pyRound_near (q : Rat) : |(pyRound q : Rat) - q| ≤ 1 / 2 := by
  have h1 : (q.floor : Rat) ≤ q := Rat.floor_le q
  have h2 : q < (q.floor : Rat) + 1 := by
    have := Rat.lt_floor_add_one (a := q)
    exact_mod_cast this
  unfold pyRound
  dsimp only
  rw [abs_le]
  split
  · constructor <;> linarith
  · split
    · push_cast; constructor <;> linarith
    · split
      · constructor <;> linarith
      · push_cast; constructor <;> linarith

/-- Ties go to the even neighbour. -/
theorem pyRound_tie (n : Int) : pyRound ((n : Rat) + 1 / 2) = if n % 2 = 0 then n else n + 1 := by
  have hf : ((n : Rat) + 1 / 2).floor = n := by
    show ⌊(n : Rat) + 1 / 2⌋ = n
    rw [Int.floor_eq_iff]
    constructor
    · linarith
    · linarith
  unfold pyRound
  dsimp only
  rw [hf]
  simp

theorem pyRound_int (n : Int) : pyRound (n : Rat) = n := by
  unfold pyRound
  simp

/-- A rounded, clamped number is the best approximation in the range. -/
theorem clamp_round_best (lo hi : Int) (hlh : lo ≤ hi) (q : Rat) (w : Int)
    (hw : lo ≤ w ∧ w ≤ hi) :
    |((IntegerBounds.clamp ⟨lo, hi⟩ (pyRound q) : Int) : Rat) - q| ≤ |(w : Rat) - q| := by
  have hn := abs_le.1 (pyRound_near q)
  have hmain : |(pyRound q : Rat) - q| ≤ |(w : Rat) - q| := by
    by_cases hwr : w = pyRound q
    · rw [hwr]
    · rw [abs_le]
      rcases lt_or_gt_of_ne hwr with h | h
      · have h' : (w : Rat) + 1 ≤ pyRound q := by exact_mod_cast h
        have := neg_abs_le ((w : Rat) - q)
        constructor <;> linarith
      · have h' : (pyRound q : Rat) + 1 ≤ w := by exact_mod_cast h
        have := le_abs_self ((w : Rat) - q)
        constructor <;> linarith
  unfold IntegerBounds.clamp
  dsimp only
  by_cases h1 : pyRound q < lo
  · have e : Max.max lo (Min.min (pyRound q) hi) = lo := by omega
    rw [e]
    have h' : (pyRound q : Rat) + 1 ≤ lo := by exact_mod_cast h1
    have hw' : (lo : Rat) ≤ w := by exact_mod_cast hw.1
    have := le_abs_self ((w : Rat) - q)
    rw [abs_le]
    constructor <;> linarith
  · by_cases h2 : hi < pyRound q
    · have e : Max.max lo (Min.min (pyRound q) hi) = hi := by omega
      rw [e]
      have h' : (hi : Rat) + 1 ≤ pyRound q := by exact_mod_cast h2
      have hw' : (w : Rat) ≤ hi := by exact_mod_cast hw.2
      have := neg_abs_le ((w : Rat) - q)
      rw [abs_le]
      constructor <;> linarith
    · have e : Max.max lo (Min.min (pyRound q) hi) = pyRound q := by omega
      rw [e]
      exact hmain

/-- **C07** Setting a scaled value on an integer primitive: the raw value chosen is in the range
of the type and no raw value in range scales closer to the requested one; when the rounded raw
value is in range the error is at most half the slope. -/
theorem C07_scaled_set_best (k : IntKind) (a b v : Rat) (hb : b ≠ 0) :
    ∃ r : Int, invertInt k v [a, b] = .ok r ∧ Spec.lo k ≤ r ∧ r ≤ Spec.hi k ∧
      (∀ w : Int, Spec.lo k ≤ w → w ≤ Spec.hi k →
        |apply r [a, b] - v| ≤ |apply w [a, b] - v|) ∧
      (Spec.lo k ≤ pyRound ((v - a) / b) ∧ pyRound ((v - a) / b) ≤ Spec.hi k →
        |apply r [a, b] - v| ≤ |b| / 2) := by
  have hlh : Spec.lo k ≤ Spec.hi k := by cases k <;> decide
  have hcl := (C08_clamp_nearest ⟨Spec.lo k, Spec.hi k⟩ hlh (pyRound ((v - a) / b)))
  have hsc : ∀ w : Int, |apply (w : Rat) [a, b] - v| = |b| * |(w : Rat) - (v - a) / b| := by
    intro w
    rw [← abs_mul, apply_two]
    congr 1
    field_simp
    ring
  refine ⟨IntegerBounds.clamp ⟨Spec.lo k, Spec.hi k⟩ (pyRound ((v - a) / b)), ?_, hcl.1.1, hcl.1.2,
    ?_, ?_⟩
  · simp [invertInt, unscale, hb, Except.map, C08_bounds]
  · intro w h1 h2
    rw [hsc, hsc]
    exact mul_le_mul_of_nonneg_left (clamp_round_best _ _ hlh _ _ ⟨h1, h2⟩) (abs_nonneg b)
  · intro h
    rw [hsc, hcl.2.1 h]
    have := mul_le_mul_of_nonneg_left (pyRound_near ((v - a) / b)) (abs_nonneg b)
    linarith

/-- **C07** Reading the scaled value of a raw value in range and setting it again restores the
raw value. -/
theorem C07_scaled_get_set (k : IntKind) (a b : Rat) (hb : b ≠ 0) (r : Int)
    (hr : Spec.lo k ≤ r ∧ r ≤ Spec.hi k) : invertInt k (apply r [a, b]) [a, b] = .ok r := by
  have hlh : Spec.lo k ≤ Spec.hi k := by cases k <;> decide
  have e : (apply (r : Rat) [a, b] - a) / b = r := by rw [apply_two]; field_simp; ring
  simp only [invertInt, unscale, hb, if_false, Except.map, C08_bounds, e, pyRound_int]
  rw [(C08_clamp_nearest ⟨Spec.lo k, Spec.hi k⟩ hlh r).2.1 hr]

/-- **C07** Scalings that cannot be inverted raise: more than two terms, or slope zero. No
scaling means no change. -/
theorem C07_errors (v a b c : Rat) (rest : List Rat) (r : Bool) :
    invert v (a :: b :: c :: rest) r = .error .assertion ∧
    invert v [a, 0] r = .error .zeroDivision ∧
    invert v [] false = .ok v ∧ apply v [] = v := by
  refine ⟨rfl, ?_, rfl, rfl⟩
  simp [invert, unscale, Except.map]

/-- **C07** A scaling with a single term is not inverted by the code: un-scaling subtracts the
offset, but scaling returns the constant. -/
theorem C07_single_term_fails : ∃ v : Rat, ∃ r, invert v [3] false = .ok r ∧ apply r [3] ≠ v := by
  refine ⟨5, 2, ?_, ?_⟩
  · simp [invert, unscale, Except.map]; norm_num
  · simp [apply, applyLoop]

example : invertInt .uint8 20 [1, 1 / 2] = .ok 38 ∧ apply 38 [1, 1 / 2] = 20 ∧
    invertInt .uint8 1000 [1, 1 / 2] = .ok 255 ∧ invertInt .int8 (5 / 2) [] = .ok 2 ∧
    invertInt .int8 (7 / 2) [] = .ok 4 := by
  have h1 : ((20 : Rat) - 1) / (1 / 2) = ((38 : Int) : Rat) := by norm_num
  have h2 : ((1000 : Rat) - 1) / (1 / 2) = ((1998 : Int) : Rat) := by norm_num
  have h3 : (5 / 2 : Rat) = ((2 : Int) : Rat) + 1 / 2 := by norm_num
  have h4 : (7 / 2 : Rat) = ((3 : Int) : Rat) + 1 / 2 := by norm_num
  have hz : (1 / 2 : Rat) ≠ 0 := by norm_num
  refine ⟨?_, by rw [apply_two]; norm_num, ?_, ?_, ?_⟩
  · simp only [invertInt, unscale, hz, if_false, Except.map, h1, pyRound_int]; decide
  · simp only [invertInt, unscale, hz, if_false, Except.map, h2, pyRound_int]; decide
  · simp only [invertInt, unscale, Except.map, h3, pyRound_tie]; decide
  · simp only [invertInt, unscale, Except.map, h4, pyRound_tie]; decide

end Verif.Scaling
