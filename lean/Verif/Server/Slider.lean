import Verif.Base
import Mathlib.Data.Rat.Floor
import Mathlib.Tactic.Linarith
import Mathlib.Tactic.FieldSimp
import Mathlib.Tactic.Ring
import Mathlib.Tactic.NormNum
import Mathlib.Tactic.Positivity
/-!
C108: sliders. `net/html/bootstrap/elements.py` 131–165 (`slider`), `ui/controls.py` (canonical controls),
`net/server/app/env/tab/controls.py` 118–134, `data/js/classes/TabInterface.js` 146–153 and 179–188,
`data/js/init.js` 23–45, `data/js/classes/ChannelTable.js` 54–80 (what a slider shows), and the settings slider of
`data/js/classes/App.js` 68–96.

Numbers are rationals: rounding of floats is left out. The browser's range input is that of the HTML standard
(4.10.5.1.13): its value is always one of the numbers `min + k·step` up to `max`, a step that is not positive counts
as 1, and a value assigned is replaced by the nearest of them, the larger one of two.
-/
namespace Verif.Slider

/-- A Python number of a control. -/
inductive Num where
  | int (n : Int)
  | float (q : Rat)

def Num.val : Num → Rat
  | .int n => n
  | .float q => q

def Num.isInt : Num → Bool
  | .int _ => true
  | .float _ => false

/-- `int` of a number: towards zero. -/
def trunc (q : Rat) : Int := if 0 ≤ q then ⌊q⌋ else ⌈q⌉

/-- The attributes of the element. -/
structure Attrs where
  lo : Rat
  hi : Rat
  step : Rat

/-- `slider`, elements.py 131–152. -/
def slider (lo hi : Num) (steps : Int) : Except PyErr Attrs :=
  if lo.val < hi.val then
    if steps = 0 then .error .zeroDivision
    else
      let step := (hi.val - lo.val) / steps
      .ok ⟨lo.val, hi.val, if lo.isInt && hi.isInt then (trunc step : Rat) else step⟩
  else .error .assertion

/-- The call in controls.py 126–134: `int(elem["step"])` is the number of steps. -/
def control (lo hi step : Num) : Except PyErr Attrs := slider lo hi (trunc step.val)

/-! ### The range input of the browser -/

/-- The step in effect. -/
def Attrs.eff (a : Attrs) : Rat := if 0 < a.step then a.step else 1

/-- The number of the last position. -/
def Attrs.last (a : Attrs) : Int := ⌊(a.hi - a.lo) / a.eff⌋

/-- The number `k` of a position as a value. -/
def Attrs.pos (a : Attrs) (k : Int) : Rat := a.lo + k * a.eff

/-- The value that the input takes when it is given `v`. -/
def Attrs.fit (a : Attrs) (v : Rat) : Rat :=
  a.pos (max 0 (min a.last ⌊(v - a.lo) / a.eff + 1 / 2⌋))

/-- The values an input can have, from the attributes alone. -/
def Possible (lo hi step : Rat) (v : Rat) : Prop :=
  lo ≤ v ∧ v ≤ hi ∧ ∃ k : Nat, v = lo + k * step

theorem eff_pos (a : Attrs) : 0 < a.eff := by
  unfold Attrs.eff
  split
  · assumption
  · norm_num

theorem last_nonneg {a : Attrs} (h : a.lo ≤ a.hi) : 0 ≤ a.last := by
  unfold Attrs.last
  exact Int.floor_nonneg.mpr (div_nonneg (by linarith) (le_of_lt (eff_pos a)))

theorem pos_le {a : Attrs} {k : Int} : a.pos k ≤ a.hi ↔ k ≤ a.last := by
  unfold Attrs.pos Attrs.last
  rw [Int.le_floor, le_div_iff₀ (eff_pos a)]
  constructor <;> intro h <;> linarith

theorem fit_index {a : Attrs} (h : a.lo ≤ a.hi) (v : Rat) : ∃ k : Int, a.fit v = a.pos k ∧ 0 ≤ k ∧ k ≤ a.last := by
  refine ⟨_, rfl, le_max_left _ _, max_le (last_nonneg h) (min_le_left _ _)⟩

/-- Positions are the possible values. -/
theorem possible_iff (a : Attrs) (v : Rat) : Possible a.lo a.hi a.eff v ↔ ∃ k : Int, v = a.pos k ∧ 0 ≤ k ∧ k ≤ a.last := by
  constructor
  · rintro ⟨-, h2, k, hk⟩
    refine ⟨k, by rw [hk]; simp [Attrs.pos], by omega, ?_⟩
    rw [← pos_le]
    simp only [Attrs.pos, Int.cast_natCast]
    linarith
  · rintro ⟨k, rfl, h0, h1⟩
    refine ⟨?_, pos_le.mpr h1, k.toNat, ?_⟩
    · unfold Attrs.pos
      have : (0 : Rat) ≤ k * a.eff := mul_nonneg (by exact_mod_cast h0) (le_of_lt (eff_pos a))
      linarith
    · unfold Attrs.pos
      have : ((k.toNat : Int) : Rat) = (k : Rat) := by rw [Int.toNat_of_nonneg h0]
      rw [← this, Int.cast_natCast]

/-- The nearest integer, within bounds. -/
theorem clamp_near (K : Int) (hK : 0 ≤ K) (x : Rat) (j : Int) (h0 : 0 ≤ j) (h1 : j ≤ K) :
    |((max 0 (min K ⌊x + 1 / 2⌋) : Int) : Rat) - x| ≤ |(j : Rat) - x| := by
  have f1 : (⌊x + 1 / 2⌋ : Rat) ≤ x + 1 / 2 := Int.floor_le _
  have f2 : x + 1 / 2 < (⌊x + 1 / 2⌋ : Rat) + 1 := Int.lt_floor_add_one _
  generalize hm : ⌊x + 1 / 2⌋ = m at *
  have hj0 : (0 : Rat) ≤ j := by exact_mod_cast h0
  have hjK : (j : Rat) ≤ K := by exact_mod_cast h1
  by_cases c1 : m < 0
  · have e : max 0 (min K m) = 0 := by omega
    rw [e]
    have hm1 : (m : Rat) ≤ -1 := by exact_mod_cast (by omega : m ≤ -1)
    push_cast
    rw [abs_of_nonneg (by linarith), abs_of_nonneg (by linarith)]
    linarith
  · by_cases c2 : K < m
    · have e : max 0 (min K m) = K := by omega
      rw [e]
      have hm1 : (K : Rat) + 1 ≤ m := by exact_mod_cast (by omega : K + 1 ≤ m)
      rw [abs_of_nonpos (by linarith), abs_of_nonpos (by linarith)]
      linarith
    · have e : max 0 (min K m) = m := by omega
      rw [e]
      by_cases hjm : j = m
      · rw [hjm]
      · have a1 : |(m : Rat) - x| ≤ 1 / 2 := by rw [abs_le]; constructor <;> linarith
        have a2 : 1 / 2 ≤ |(j : Rat) - x| := by
          rcases lt_or_gt_of_ne hjm with h | h
          · have : (j : Rat) + 1 ≤ m := by exact_mod_cast h
            rw [abs_of_nonpos (by linarith)]; linarith
          · have : (m : Rat) + 1 ≤ j := by exact_mod_cast h
            rw [abs_of_nonneg (by linarith)]; linarith
        linarith

/-- C108: whatever a slider is given, it takes one of the values between its bounds in whole steps from the lower one, and
none of them is nearer. -/
theorem C108_nearest (a : Attrs) (h : a.lo ≤ a.hi) (v : Rat) :
    Possible a.lo a.hi a.eff (a.fit v) ∧ ∀ p, Possible a.lo a.hi a.eff p → |a.fit v - v| ≤ |p - v| := by
  constructor
  · exact (possible_iff a _).mpr (fit_index h v)
  · intro p hp
    obtain ⟨j, rfl, j0, j1⟩ := (possible_iff a p).mp hp
    have he := eff_pos a
    have key := clamp_near a.last (last_nonneg h) ((v - a.lo) / a.eff) j j0 j1
    have scale : ∀ k : Int, |a.pos k - v| = |(k : Rat) - (v - a.lo) / a.eff| * a.eff := by
      intro k
      rw [← abs_of_pos he, ← abs_mul, abs_of_pos he, sub_mul, div_mul_cancel₀ _ (ne_of_gt he)]
      congr 1
      unfold Attrs.pos
      ring
    unfold Attrs.fit
    rw [scale, scale]
    exact mul_le_mul_of_nonneg_right key (le_of_lt he)

/-- C108: a possible value is kept, and so is what is nearer to it than half a step. -/
theorem C108_keeps (a : Attrs) (p v : Rat) (hp : Possible a.lo a.hi a.eff p) (hv : |v - p| < a.eff / 2) : a.fit v = p := by
  obtain ⟨k, rfl, k0, k1⟩ := (possible_iff a p).mp hp
  have he := eff_pos a
  unfold Attrs.fit
  have hf : ⌊(v - a.lo) / a.eff + 1 / 2⌋ = k := by
    rw [Int.floor_eq_iff]
    obtain ⟨h1, h2⟩ := abs_lt.mp hv
    unfold Attrs.pos at h1 h2
    have e : (v - a.lo) / a.eff = k + (v - (a.lo + k * a.eff)) / a.eff := by field_simp; ring
    rw [e]
    have b1 : -(1 / 2) < (v - (a.lo + k * a.eff)) / a.eff := by rw [lt_div_iff₀ he]; linarith
    have b2 : (v - (a.lo + k * a.eff)) / a.eff < 1 / 2 := by rw [div_lt_iff₀ he]; linarith
    constructor <;> linarith
  rw [hf]
  congr 1
  omega

/-! ### How many steps -/

theorem trunc_int_div (r n : Int) (hr : 0 ≤ r) (hn : 0 < n) : trunc ((r : Rat) / n) = r / n := by
  have h0 : (0 : Rat) ≤ (r : Rat) / n := div_nonneg (by exact_mod_cast hr) (by exact_mod_cast le_of_lt hn)
  rw [trunc, if_pos h0]
  obtain ⟨m, rfl⟩ := Int.eq_ofNat_of_zero_le (le_of_lt hn)
  have := Rat.floor_intCast_div_natCast r m
  push_cast at this ⊢
  rw [this]

theorem slider_ints (lo hi : Int) (n : Int) (hl : lo < hi) (hn : 0 < n) :
    slider (.int lo) (.int hi) n = .ok ⟨lo, hi, ((hi - lo) / n : Int)⟩ := by
  have hl' : (lo : Rat) < hi := by exact_mod_cast hl
  have ht := trunc_int_div (hi - lo) n (by omega) hn
  push_cast at ht
  simp only [slider, Num.val, Num.isInt, hl', if_true, Bool.and_self, if_neg (show n ≠ 0 by omega), ht]

/-- C108, both bounds whole numbers: fewer numbers than steps asked for and the slider has every whole number; otherwise
it has at least as many steps as asked for and less than twice as many. -/
theorem C108_integer_steps (lo hi n : Int) (hl : lo < hi) (hn : 0 < n) :
    ∃ a, slider (.int lo) (.int hi) n = .ok a ∧
      (hi - lo < n → a.last = hi - lo ∧ ∀ v : Int, lo ≤ v → v ≤ hi → Possible a.lo a.hi a.eff v) ∧
      (n ≤ hi - lo → n ≤ a.last ∧ a.last < 2 * n) := by
  refine ⟨_, slider_ints lo hi n hl hn, ?_, ?_⟩
  · intro h
    have hd : (hi - lo) / n = 0 := Int.ediv_eq_zero_of_lt (by omega) h
    rw [hd]
    have he : Attrs.eff ⟨(lo : Rat), hi, ((0 : Int) : Rat)⟩ = 1 := by simp [Attrs.eff]
    refine ⟨?_, ?_⟩
    · unfold Attrs.last
      rw [he, div_one]
      show ⌊((hi : Rat) - lo)⌋ = _
      rw [← Int.cast_sub, Int.floor_intCast]
    · intro v h1 h2
      rw [he]
      refine ⟨(by exact_mod_cast h1 : (lo : Rat) ≤ v), (by exact_mod_cast h2 : (v : Rat) ≤ hi), (v - lo).toNat, ?_⟩
      have : (((v - lo).toNat : Int) : Rat) = ((v - lo : Int) : Rat) := by rw [Int.toNat_of_nonneg (by omega)]
      rw [Int.cast_natCast] at this
      rw [this]; push_cast; ring
  · intro h
    have hd : 1 ≤ (hi - lo) / n := (Int.le_ediv_iff_mul_le hn).mpr (by omega)
    have hlow : (hi - lo) / n * n ≤ hi - lo := Int.ediv_mul_le _ (by omega)
    have hup : hi - lo < ((hi - lo) / n + 1) * n := Int.lt_ediv_add_one_mul_self _ hn
    generalize hs : (hi - lo) / n = s at *
    have hs0 : (0 : Rat) < (s : Rat) := by exact_mod_cast (by omega : 0 < s)
    have he : Attrs.eff ⟨(lo : Rat), hi, (s : Rat)⟩ = s := by simp [Attrs.eff, hs0]
    unfold Attrs.last
    rw [he]
    constructor
    · rw [Int.le_floor, le_div_iff₀ hs0]
      have : ((n * s : Int) : Rat) ≤ ((hi - lo : Int) : Rat) := by exact_mod_cast (by nlinarith)
      push_cast at this
      exact this
    · rw [Int.floor_lt, div_lt_iff₀ hs0]
      have h3 : hi - lo < 2 * n * s := by nlinarith
      have : ((hi - lo : Int) : Rat) < ((2 * n * s : Int) : Rat) := by exact_mod_cast h3
      push_cast at this ⊢
      exact this

/-- C108, both bounds whole numbers: what the slider sends is a whole number between them, so that integer channels take
it. -/
theorem C108_integer_values (lo hi n : Int) (a : Attrs) (ha : slider (.int lo) (.int hi) n = .ok a) (v : Rat)
    (hv : Possible a.lo a.hi a.eff v) : ∃ z : Int, v = z ∧ lo ≤ z ∧ z ≤ hi := by
  unfold slider at ha
  split at ha
  · split at ha
    · cases ha
    · cases ha
      obtain ⟨h1, h2, k, hk⟩ := hv
      simp only [Num.val, Num.isInt, Bool.and_self, if_true] at h1 h2 hk
      have : ∃ s : Int, Attrs.eff ⟨(lo : Rat), hi, (trunc (((hi : Rat) - lo) / n) : Rat)⟩ = s := by
        unfold Attrs.eff
        split
        · exact ⟨_, rfl⟩
        · exact ⟨1, by norm_num⟩
      obtain ⟨s, hs⟩ := this
      rw [hs] at hk
      refine ⟨lo + k * s, by rw [hk]; push_cast; ring, ?_, ?_⟩
      · have : (lo : Rat) ≤ ((lo + k * s : Int) : Rat) := by push_cast; rw [hk] at h1; exact h1
        exact_mod_cast this
      · have : ((lo + k * s : Int) : Rat) ≤ (hi : Rat) := by push_cast; rw [hk] at h2; exact h2
        exact_mod_cast this
  · cases ha

/-- C108 fails for whole numbers at the upper end: the upper bound can be set exactly if the step, rounded down, divides
the range. -/
theorem C108_top_fails (lo hi n : Int) (hl : lo < hi) (hn : 0 < n) (h : n ≤ hi - lo) :
    ∃ a, slider (.int lo) (.int hi) n = .ok a ∧ (Possible a.lo a.hi a.eff hi ↔ (hi - lo) / n ∣ hi - lo) := by
  refine ⟨_, slider_ints lo hi n hl hn, ?_⟩
  have hd : 1 ≤ (hi - lo) / n := (Int.le_ediv_iff_mul_le hn).mpr (by omega)
  generalize (hi - lo) / n = s at *
  have hs0 : (0 : Rat) < (s : Rat) := by exact_mod_cast (by omega : 0 < s)
  have he : Attrs.eff ⟨(lo : Rat), hi, (s : Rat)⟩ = s := by simp [Attrs.eff, hs0]
  rw [he]
  constructor
  · rintro ⟨-, -, k, hk⟩
    refine ⟨k, ?_⟩
    have : ((hi : Int) : Rat) = ((lo + k * s : Int) : Rat) := by rw [hk]; push_cast; ring
    have := Int.cast_injective this
    rw [this]; ring
  · rintro ⟨k, hk⟩
    have hk0 : 0 ≤ k := by
      by_contra hc
      have : s * k < 0 := by nlinarith
      omega
    refine ⟨(by exact_mod_cast le_of_lt hl : (lo : Rat) ≤ hi), le_refl _, k.toNat, ?_⟩
    have e : (((k.toNat : Int)) : Rat) = (k : Rat) := by rw [Int.toNat_of_nonneg hk0]
    rw [Int.cast_natCast] at e
    rw [e]
    have : ((hi - lo : Int) : Rat) = ((s * k : Int) : Rat) := by rw [hk]
    push_cast at this
    linarith

/-- C108, otherwise (a bound is a float): exactly the steps asked for, both bounds included. -/
theorem C108_float_steps (lo hi : Num) (n : Int) (hl : lo.val < hi.val) (hn : 0 < n) (hf : (lo.isInt && hi.isInt) = false) :
    ∃ a, slider lo hi n = .ok a ∧ a.last = n ∧ Possible a.lo a.hi a.eff lo.val ∧ Possible a.lo a.hi a.eff hi.val := by
  refine ⟨⟨lo.val, hi.val, (hi.val - lo.val) / n⟩, ?_, ?_⟩
  · simp [slider, hl, hf, show n ≠ 0 by omega]
  · have hn' : (0 : Rat) < n := by exact_mod_cast hn
    have hs : 0 < (hi.val - lo.val) / n := div_pos (by linarith) hn'
    have he : Attrs.eff ⟨lo.val, hi.val, (hi.val - lo.val) / n⟩ = (hi.val - lo.val) / n := by simp [Attrs.eff, hs]
    have hne : hi.val - lo.val ≠ 0 := by linarith
    refine ⟨?_, ?_, ?_⟩
    · unfold Attrs.last
      rw [he]
      have : (hi.val - lo.val) / ((hi.val - lo.val) / n) = ((n : Int) : Rat) := by field_simp
      rw [this, Int.floor_intCast]
    · exact ⟨le_refl _, le_of_lt hl, 0, by simp⟩
    · refine ⟨le_of_lt hl, le_refl _, n.toNat, ?_⟩
      rw [he]
      have e : (((n.toNat : Int)) : Rat) = (n : Rat) := by rw [Int.toNat_of_nonneg (by omega)]
      rw [Int.cast_natCast] at e
      rw [e]
      field_simp
      ring

/-- C108, errors: the page is made unless the bounds are out of order or the number of steps rounds down to zero. -/
theorem C108_errors (lo hi step : Num) :
    (control lo hi step = .error .assertion ↔ hi.val ≤ lo.val) ∧
    (control lo hi step = .error .zeroDivision ↔ lo.val < hi.val ∧ |step.val| < 1) := by
  have ht : trunc step.val = 0 ↔ |step.val| < 1 := by
    unfold trunc
    split
    · next h =>
      rw [Int.floor_eq_zero_iff, Set.mem_Ico, abs_of_nonneg h]
      exact ⟨fun h => h.2, fun h' => ⟨h, h'⟩⟩
    · next h =>
      have h : step.val < 0 := not_le.mp h
      rw [Int.ceil_eq_zero_iff, Set.mem_Ioc, abs_of_neg h]
      constructor
      · intro h'; linarith [h'.1]
      · intro h'; exact ⟨by linarith, le_of_lt h⟩
  unfold control slider
  by_cases hl : lo.val < hi.val
  · by_cases h0 : trunc step.val = 0
    · simp only [if_pos hl, ← ht, h0]
      simp [hl]
    · simp only [if_pos hl, ← ht, h0]
      simp [hl]
  · simp only [if_neg hl]
    simp [not_lt.mp hl, hl]

/-! ### The canonical controls, ui/controls.py 31–44 -/

structure Canonical where
  lo : Num
  hi : Num
  step : Num
  default : Num

/-- `CANONICAL`; `pi` stands for `math.pi`. -/
def canonical (pi : Rat) : List (String × Canonical) :=
  [("phase", ⟨.float (-pi), .float pi, .int 90, .float 0⟩),
   ("amplitude", ⟨.float 0, .float 2, .float 100, .float 1⟩),
   ("period", ⟨.float 0, .float (5 / 100), .float 100, .float (1 / 100)⟩),
   ("steps", ⟨.float (64 / 4), .float (64 * 4), .float (64 * 2), .float 64⟩),
   ("steps_1_1000", ⟨.int 1, .int 1000, .int 100, .int 1⟩)]

theorem trunc_natCast (n : Nat) : trunc (n : Rat) = n := by
  have : (0 : Rat) ≤ n := by positivity
  rw [trunc, if_pos this]
  exact Int.floor_natCast n

/-- C108: every canonical control makes a slider, and the default of each but `steps` can be set with it. -/
theorem C108_canonical (pi : Rat) (hpi : 0 < pi) (c : String × Canonical) (hc : c ∈ canonical pi) :
    ∃ a, control c.2.lo c.2.hi c.2.step = .ok a ∧ (c.1 ≠ "steps" → a.fit c.2.default.val = c.2.default.val) := by
  have t90 : trunc ((90 : Int) : Rat) = 90 := by have := trunc_natCast 90; exact_mod_cast this
  have t100 : trunc (100 : Rat) = 100 := by have := trunc_natCast 100; exact_mod_cast this
  have t100' : trunc ((100 : Int) : Rat) = 100 := by have := trunc_natCast 100; exact_mod_cast this
  have t128 : trunc (64 * 2 : Rat) = 128 := by have := trunc_natCast 128; norm_num; exact_mod_cast this
  have keep : ∀ (a : Attrs) (p : Rat), Possible a.lo a.hi a.eff p → a.fit p = p := by
    intro a p hp
    exact C108_keeps a p p hp (by rw [sub_self, abs_zero]; linarith [eff_pos a])
  simp only [canonical, List.mem_cons, List.not_mem_nil, or_false] at hc
  rcases hc with rfl | rfl | rfl | rfl | rfl
  · refine ⟨⟨-pi, pi, (pi - -pi) / 90⟩, ?_, fun _ => ?_⟩
    · simp only [control, slider, Num.val, t90, Num.isInt, Bool.and_self, Bool.false_eq_true, if_false]
      rw [if_pos (by linarith)]
      simp
    · apply keep
      have hs : 0 < (pi - -pi) / 90 := by linarith
      have he : Attrs.eff ⟨-pi, pi, (pi - -pi) / 90⟩ = (pi - -pi) / 90 := by simp only [Attrs.eff, hs, if_true]
      rw [he]
      refine ⟨?_, ?_, 45, ?_⟩ <;> simp only [Num.val] <;> push_cast <;> linarith
  · refine ⟨⟨0, 2, (2 - 0) / 100⟩, ?_, fun _ => ?_⟩
    · simp [control, slider, Num.val, t100, Num.isInt]
    · apply keep
      have he : Attrs.eff ⟨0, 2, (2 - 0) / 100⟩ = 1 / 50 := by norm_num [Attrs.eff]
      rw [he]
      exact ⟨by norm_num [Num.val], by norm_num [Num.val], 50, by norm_num [Num.val]⟩
  · refine ⟨⟨0, 5 / 100, (5 / 100 - 0) / 100⟩, ?_, fun _ => ?_⟩
    · simp only [control, slider, Num.val, t100, Num.isInt]
      norm_num
    · apply keep
      have he : Attrs.eff ⟨0, 5 / 100, (5 / 100 - 0) / 100⟩ = 1 / 2000 := by norm_num [Attrs.eff]
      rw [he]
      exact ⟨by norm_num [Num.val], by norm_num [Num.val], 20, by norm_num [Num.val]⟩
  · refine ⟨⟨64 / 4, 64 * 4, (64 * 4 - 64 / 4) / 128⟩, ?_, fun h => absurd rfl h⟩
    simp only [control, slider, Num.val, t128, Num.isInt]
    norm_num
  · refine ⟨⟨1, 1000, 9⟩, ?_, fun _ => ?_⟩
    · have := slider_ints 1 1000 100 (by norm_num) (by norm_num)
      simp only [control, Num.val, t100']
      rw [this]
      norm_num
    · apply keep
      have he : Attrs.eff ⟨1, 1000, 9⟩ = 9 := by norm_num [Attrs.eff]
      rw [he]
      exact ⟨by norm_num [Num.val], by norm_num [Num.val], 0, by norm_num [Num.val]⟩

/-- C108 fails for `steps`: its default 64 is no position, the slider shows 64.75, and of its 129 positions only every
eighth is a whole number, the only ones an integer channel takes. -/
theorem C108_steps_fails :
    ∃ a, control (.float (64 / 4)) (.float (64 * 4)) (.float (64 * 2)) = .ok a ∧ a.fit 64 = 64 + 3 / 4 ∧ a.last = 128 ∧
      ∀ k : Int, (∃ z : Int, a.pos k = z) ↔ 8 ∣ k := by
  have t128 : trunc (64 * 2 : Rat) = 128 := by have := trunc_natCast 128; norm_num; exact_mod_cast this
  have he : Attrs.eff ⟨64 / 4, 64 * 4, (64 * 4 - 64 / 4) / 128⟩ = 15 / 8 := by norm_num [Attrs.eff]
  have hl : Attrs.last ⟨64 / 4, 64 * 4, (64 * 4 - 64 / 4) / 128⟩ = 128 := by
    unfold Attrs.last; rw [he]; norm_num
  refine ⟨⟨64 / 4, 64 * 4, (64 * 4 - 64 / 4) / 128⟩, ?_, ?_, hl, ?_⟩
  · simp only [control, slider, Num.val, t128, Num.isInt]
    norm_num
  · unfold Attrs.fit
    rw [hl, he]
    have : ⌊((64 : Rat) - 64 / 4) / (15 / 8) + 1 / 2⌋ = 26 := by rw [Int.floor_eq_iff]; norm_num
    simp only at this ⊢
    rw [this]
    unfold Attrs.pos
    rw [he]
    norm_num
  · intro k
    unfold Attrs.pos
    rw [he]
    constructor
    · rintro ⟨z, hz⟩
      have h8 : ((15 * k : Int) : Rat) = ((8 * (z - 16) : Int) : Rat) := by push_cast; linarith
      have h8' : 15 * k = 8 * (z - 16) := by exact_mod_cast h8
      omega
    · rintro ⟨m, rfl⟩
      exact ⟨16 + 15 * m, by push_cast; ring⟩

/-! ### What a slider shows of its channel -/

/-- `toFixed(5)`: the nearest multiple of 10⁻⁵, the one farther from zero of two. -/
def fixed5 (q : Rat) : Rat :=
  if 0 ≤ q then (⌊q * 100000 + 1 / 2⌋ : Rat) / 100000 else -((⌊-q * 100000 + 1 / 2⌋ : Rat) / 100000)

/-- The text of a number value in the channel table, ChannelTable.js 57–68, as a number. -/
def shown (q : Rat) : Rat := if q.den = 1 then q else fixed5 q

theorem fixed5_near (q : Rat) : |fixed5 q - q| ≤ 1 / 200000 := by
  unfold fixed5
  split
  · have f1 := Int.floor_le (q * 100000 + 1 / 2)
    have f2 := Int.lt_floor_add_one (q * 100000 + 1 / 2)
    rw [abs_le]
    constructor <;> linarith
  · have f1 := Int.floor_le (-q * 100000 + 1 / 2)
    have f2 := Int.lt_floor_add_one (-q * 100000 + 1 / 2)
    rw [abs_le]
    constructor <;> linarith

theorem shown_near (q : Rat) : |shown q - q| ≤ 1 / 200000 := by
  unfold shown
  split
  · simp
  · exact fixed5_near q

/-- C108: a position that was sent, stored by the channel and reported back is shown again, when the error of storing
and half a unit of the fifth decimal place are together less than half a step. -/
theorem C108_returns (a : Attrs) (p stored : Rat) (hp : Possible a.lo a.hi a.eff p)
    (h : |stored - p| + 1 / 200000 < a.eff / 2) : a.fit (shown stored) = p := by
  apply C108_keeps a p _ hp
  have h1 := shown_near stored
  have h2 := abs_sub_le (shown stored) stored p
  linarith

/-- C108 fails for fine steps: every position between 0 and 5·10⁻⁶ is shown as 0, even when stored exactly. -/
theorem C108_fine_fails (a : Attrs) (h0 : a.lo = 0) (h1 : 0 ≤ a.hi) (p : Rat) (hp0 : 0 < p) (hp : p < 1 / 200000) :
    a.fit (shown p) = 0 := by
  have hd : p.den ≠ 1 := by
    intro hd
    have hnum : p = p.num := by
      have := Rat.num_div_den p
      rw [hd] at this
      simpa using this.symm
    have hn0 : (0 : Rat) < p.num := by rw [← hnum]; exact hp0
    have : 0 < p.num := by exact_mod_cast hn0
    have : (1 : Rat) ≤ p.num := by exact_mod_cast this
    rw [← hnum] at this
    linarith
  have hs : shown p = 0 := by
    unfold shown fixed5
    rw [if_neg hd, if_pos (le_of_lt hp0)]
    have : ⌊p * 100000 + 1 / 2⌋ = 0 := by rw [Int.floor_eq_iff]; constructor <;> push_cast <;> linarith
    rw [this]; simp
  rw [hs]
  exact C108_keeps a 0 0 ⟨by linarith, h1, 0, by simp [h0]⟩ (by simp; linarith [eff_pos a])

/-! ### Moving a slider -/

/-- `value`; whether the class `moving` is set and the handler of moves listens; commands sent. -/
structure St where
  value : Rat
  moving : Bool
  sent : List Rat

inductive Ev where
  /-- `mousedown` or `touchstart` on the slider, init.js 35–38 -/
  | down
  /-- the browser gives the slider another value (pointer, keys) -/
  | change (v : Rat)
  /-- `mousemove` or `touchmove` anywhere -/
  | move
  /-- `mouseup` or `touchend` anywhere, init.js 39–42 -/
  | up
  /-- a value of the channel arrives, ChannelTable.js 74–80 -/
  | update (q : Rat)

/-- One event: init.js 34–45 with `setHandler`, TabInterface.js 179–188. -/
def St.step (a : Attrs) (s : St) : Ev → St
  | .down => { s with moving := true }
  | .change v => { s with value := a.fit v }
  | .move => if s.moving then { s with sent := s.sent ++ [s.value] } else s
  | .up => { s with moving := false }
  | .update q => if s.moving then s else { s with value := a.fit (shown q) }

def St.run (a : Attrs) (s : St) (es : List Ev) : St := es.foldl (St.step a) s

theorem run_cons (a : Attrs) (s : St) (e : Ev) (es : List Ev) : s.run a (e :: es) = (s.step a e).run a es := rfl
theorem run_nil (a : Attrs) (s : St) : s.run a [] = s := rfl
theorem run_append (a : Attrs) (s : St) (es fs : List Ev) : s.run a (es ++ fs) = (s.run a es).run a fs := by
  simp [St.run, List.foldl_append]

/-- C108: only values the slider can have are sent. -/
theorem C108_sent (a : Attrs) (h : a.lo ≤ a.hi) (s : St) (hs : Possible a.lo a.hi a.eff s.value) (hn : s.sent = []) (es : List Ev) :
    ∀ v ∈ (s.run a es).sent, Possible a.lo a.hi a.eff v := by
  have key : ∀ (es : List Ev) (s : St), Possible a.lo a.hi a.eff s.value → (∀ v ∈ s.sent, Possible a.lo a.hi a.eff v) →
      ∀ v ∈ (s.run a es).sent, Possible a.lo a.hi a.eff v := by
    intro es
    induction es with
    | nil => intro s _ h; exact h
    | cons e es ih =>
      intro s h1 h2
      rw [run_cons]
      cases e with
      | down => exact ih _ h1 h2
      | up => exact ih _ h1 h2
      | change v => exact ih _ (C108_nearest a h v).1 h2
      | update q =>
        simp only [St.step]
        split
        · exact ih _ h1 h2
        · exact ih _ (C108_nearest a h _).1 h2
      | move =>
        simp only [St.step]
        split
        · refine ih _ h1 ?_
          intro v hv
          rcases List.mem_append.mp hv with hv | hv
          · exact h2 v hv
          · simp only [List.mem_singleton] at hv; subst hv; exact h1
        · exact ih _ h1 h2
  exact key es s hs (by rw [hn]; simp)

/-- C108: nothing is sent by a slider that is not pressed. -/
theorem C108_unpressed (a : Attrs) (s : St) (hm : s.moving = false) (es : List Ev) (hd : .down ∉ es) :
    (s.run a es).sent = s.sent := by
  induction es generalizing s with
  | nil => rfl
  | cons e es ih =>
    have hd' : .down ∉ es := fun h => hd (List.mem_cons_of_mem _ h)
    rw [run_cons]
    cases e with
    | down => exact absurd List.mem_cons_self hd
    | up => exact ih (s.step a .up) rfl hd'
    | change v => exact ih (s.step a (.change v)) hm hd'
    | move =>
      have : s.step a .move = s := by simp [St.step, hm]
      rw [this]; exact ih s hm hd'
    | update q =>
      have h1 : (s.step a (.update q)).moving = false := by simp [St.step, hm]
      have h2 : (s.step a (.update q)).sent = s.sent := by simp [St.step, hm]
      rw [ih _ h1 hd', h2]

/-- Moves and changes, as while a pointer is held down. -/
def Held : Ev → Prop
  | .change _ | .move | .update _ => True
  | _ => False

theorem held_moving (a : Attrs) (es : List Ev) (hh : ∀ e ∈ es, Held e) (s : St) (hm : s.moving = true) : (s.run a es).moving = true := by
  induction es generalizing s with
  | nil => exact hm
  | cons e es ih =>
    rw [run_cons]
    refine ih (fun x hx => hh x (List.mem_cons_of_mem _ hx)) _ ?_
    have := hh e List.mem_cons_self
    cases e with
    | down => rfl
    | up => cases this
    | change v => exact hm
    | move => simp only [St.step, hm, if_true]
    | update q => simp only [St.step, hm, if_true]

/-- C108: a drag whose last change is followed by a move sends the value the slider is left with. -/
theorem C108_drag_partial (a : Attrs) (s : St) (es : List Ev) (hh : ∀ e ∈ es, Held e) (v : Rat) :
    (s.run a (.down :: es ++ [.change v, .move, .up])).value = a.fit v ∧
    (s.run a (.down :: es ++ [.change v, .move, .up])).sent.getLast? = some (a.fit v) := by
  rw [List.cons_append, run_cons, run_append]
  have hm := held_moving a es hh (s.step a .down) rfl
  generalize (s.step a .down).run a es = t at hm
  simp [St.run, St.step, hm]

/-- C108: while it is held, values that arrive do not move the slider. -/
theorem C108_held (a : Attrs) (s : St) (es : List Ev) (hh : ∀ e ∈ es, ∃ q, e = .update q) :
    (s.run a (.down :: es)).value = s.value := by
  rw [run_cons]
  have key : ∀ (es : List Ev), (∀ e ∈ es, ∃ q, e = .update q) → ∀ s : St, s.moving = true → (s.run a es).value = s.value := by
    intro es
    induction es with
    | nil => intro _ s _; rfl
    | cons e es ih =>
      intro hh s hm
      obtain ⟨q, rfl⟩ := hh e List.mem_cons_self
      rw [run_cons]
      have : s.step a (.update q) = s := by simp [St.step, hm]
      rw [this]
      exact ih (fun x hx => hh x (List.mem_cons_of_mem _ hx)) s hm
  exact key es hh _ rfl

/-- C108: when it is not held, it shows the latest value, to the nearest position. -/
theorem C108_follows (a : Attrs) (s : St) (hm : s.moving = false) (es : List Ev) (hh : ∀ e ∈ es, ∃ q, e = .update q) (q : Rat) :
    (s.run a (es ++ [.update q])).value = a.fit (shown q) ∧ (s.run a (es ++ [.update q])).sent = s.sent := by
  rw [run_append]
  have key : ∀ (es : List Ev), (∀ e ∈ es, ∃ q, e = .update q) → ∀ s : St, s.moving = false →
      (s.run a es).moving = false ∧ (s.run a es).sent = s.sent := by
    intro es
    induction es with
    | nil => intro _ s h; exact ⟨h, rfl⟩
    | cons e es ih =>
      intro hh s hm
      obtain ⟨q, rfl⟩ := hh e List.mem_cons_self
      rw [run_cons]
      have := ih (fun x hx => hh x (List.mem_cons_of_mem _ hx)) (s.step a (.update q)) (by simp [St.step, hm])
      refine ⟨this.1, this.2.trans ?_⟩
      simp [St.step, hm]
  obtain ⟨h1, h2⟩ := key es hh s hm
  simp [St.run] at h1 h2
  simp [St.run, St.step, h1, h2]

/-- A click on the track, and a change by the keyboard: no move in between. -/
def clickOrKey : Bool × Rat → List Ev
  | (true, v) => [.down, .change v, .up]
  | (false, v) => [.change v]

/-- C108 fails for clicks on the track and for keys: the slider shows the new value, and nothing is sent, however many
of them. -/
theorem C108_click_fails (a : Attrs) (s : St) (hm : s.moving = false) (cs : List (Bool × Rat)) (c : Bool × Rat) :
    (s.run a ((cs ++ [c]).flatMap clickOrKey)).sent = s.sent ∧
    (s.run a ((cs ++ [c]).flatMap clickOrKey)).value = a.fit c.2 := by
  have one : ∀ (c : Bool × Rat) (s : St), s.moving = false → s.run a (clickOrKey c) = ⟨a.fit c.2, false, s.sent⟩ := by
    intro c s hm
    obtain ⟨b, v⟩ := c
    obtain ⟨x, m, l⟩ := s
    simp only at hm
    subst hm
    cases b <;> rfl
  have many : ∀ (cs : List (Bool × Rat)) (s : St), s.moving = false →
      (s.run a (cs.flatMap clickOrKey)).moving = false ∧ (s.run a (cs.flatMap clickOrKey)).sent = s.sent := by
    intro cs
    induction cs with
    | nil => intro s h; exact ⟨h, rfl⟩
    | cons c cs ih =>
      intro s h
      rw [List.flatMap_cons, run_append, one c s h]
      exact ih _ rfl
  obtain ⟨h1, h2⟩ := many cs s hm
  rw [List.flatMap_append, run_append]
  simp only [List.flatMap_cons, List.flatMap_nil, List.append_nil]
  rw [one c _ h1]
  exact ⟨h2, rfl⟩

/-! ### The settings slider, App.js 68–96 -/

/-- The `value` of what is under the pointer: none if that element has no such attribute; `Number` of a string. -/
abbrev Target := Option String

/-- A move while the settings slider is held: `updateMinTxPeriod(Number(event.target.value))`. `Number(undefined)` is not
a number; `num` is `Number` of a string, none for NaN. -/
def period (num : String → Option Rat) (p : Rat) : Target → Rat
  | none => p
  | some t => (num t).getD p

/-- C108, the settings slider: as long as the pointer stays on the slider or on things whose value is no number, the period
is what it was or a value of the slider. -/
theorem C108_period_partial (num : String → Option Rat) (p : Rat) (ts : List Target) (P : Rat → Prop) (hp : P p)
    (ht : ∀ t ∈ ts, ∀ x v, t = some x → num x = some v → P v) : P (ts.foldl (period num) p) := by
  induction ts generalizing p with
  | nil => exact hp
  | cons t ts ih =>
    rw [List.foldl_cons]
    refine ih _ ?_ (fun t' h' => ht t' (List.mem_cons_of_mem _ h'))
    cases t with
    | none => exact hp
    | some x =>
      cases hv : num x with
      | none => simpa only [period, hv, Option.getD_none] using hp
      | some v => simpa only [period, hv, Option.getD_some] using ht _ List.mem_cons_self x v rfl hv

/-- C108 fails for the settings slider: `event.target` is what lies under the pointer. Dragged on over a button, whose
`value` is the empty string, the period becomes 0; over an input box, it becomes the number written there. -/
theorem C108_period_fails (num : String → Option Rat) (h0 : num "" = some 0) (p : Rat) (ts : List Target) :
    (ts ++ [some ""]).foldl (period num) p = 0 ∧
    ∀ x v, num x = some v → (ts ++ [some x]).foldl (period num) p = v := by
  refine ⟨?_, fun x v hv => ?_⟩
  · rw [List.foldl_append]; simp [period, h0]
  · rw [List.foldl_append]; simp [period, hv]

/-- Cases: 0 to 1000 in 300 steps has 334 positions, the last being 999. -/
example : ∃ a, slider (.int 0) (.int 1000) 300 = .ok a ∧ a.fit 1000 = 999 ∧ a.last = 333 ∧ ¬ Possible a.lo a.hi a.eff (1000 : Int) := by
  obtain ⟨a, ha, h⟩ := C108_top_fails 0 1000 300 (by norm_num) (by norm_num) (by norm_num)
  have hs := slider_ints 0 1000 300 (by norm_num) (by norm_num)
  rw [hs] at ha
  cases ha
  have he : Attrs.eff ⟨((0 : Int) : Rat), ((1000 : Int) : Rat), (((1000 - 0) / 300 : Int) : Rat)⟩ = 3 := by norm_num [Attrs.eff]
  have hl : Attrs.last ⟨((0 : Int) : Rat), ((1000 : Int) : Rat), (((1000 - 0) / 300 : Int) : Rat)⟩ = 333 := by
    unfold Attrs.last; rw [he, Int.floor_eq_iff]; norm_num
  refine ⟨_, hs, ?_, hl, ?_⟩
  · unfold Attrs.fit
    rw [hl, he]
    have : ⌊((1000 : Rat) - ((0 : Int) : Rat)) / 3 + 1 / 2⌋ = 333 := by rw [Int.floor_eq_iff]; norm_num
    simp only at this ⊢
    rw [this]
    unfold Attrs.pos
    rw [he]
    norm_num
  · intro hp
    have := h.mp hp
    omega

end Verif.Slider
