import Verif.Base
import Mathlib.Data.Rat.Floor
import Mathlib.Data.Nat.Log
import Mathlib.Tactic.Linarith
import Mathlib.Tactic.FieldSimp
import Mathlib.Tactic.Ring
import Mathlib.Tactic.NormNum
/-!
C110: the text over a plot: `data/js/classes/UnitSystem.js` (a duration with its unit) and
`data/js/classes/OverlayManager.js` (the lines and where they are drawn).

Numbers are rationals: rounding of floats is left out. `toFixed(3)` rounds to the nearest thousandth, the larger of
two; times are not negative. `bumpCapacity` is in `Server/Plots.lean` (C96).
-/
namespace Verif.Overlay

/-! ### `UnitSystem.js` -/

/-- The loop of `traverse`, UnitSystem.js 11–16, with at most the given number of rounds left. The results are
`decimal`, `fractional` and `iteration`. -/
def loop (d : Rat) : Nat → Rat → Rat → Nat → Rat × Rat × Nat
  | 0, dec, fr, k => (dec, fr, k)
  | n + 1, dec, fr, k =>
    if d ≤ dec then loop d n ⌊dec / d⌋ (dec - d * ⌊dec / d⌋) (k + 1) else (dec, fr, k)

/-- `traverse`, 7–19, from iteration 0: `Math.min(this.prefixes.length - 1, max_prefix)` rounds. -/
def traverse (prefixes : Nat) (d : Rat) (value : Rat) (maxPrefix : Nat := 3) : Rat × Rat × Nat :=
  loop d (min (prefixes - 1) maxPrefix) value 0 0

/-- The prefixes of `siUnits`, 22–23. -/
def prefixes : List Char := ['n', 'u', 'm', ' ', 'k', 'M', 'G', 'T']

/-- `toFixed(3)` of a number that is not negative, in thousandths. -/
def fixed3 (q : Rat) : Nat := ⌊q * 1000 + 1 / 2⌋.toNat

/-- `nanosString`, 27–33: the number in thousandths and the place of its prefix. -/
def nanos (delta : Rat) : Nat × Nat :=
  let t := traverse prefixes.length 1000 delta
  (fixed3 (t.1 + t.2.1 / 1000), t.2.2)

/-! ### `OverlayManager.js` -/

/-- Text of a number of thousandths. -/
def text3 (n : Nat) : List Char :=
  Nat.toDigits 10 (n / 1000) ++
    ['.', Nat.digitChar (n % 1000 / 100), Nat.digitChar (n % 100 / 10), Nat.digitChar (n % 10)]

/-- `padStringTo`, 3–13, with the default of 24 blanks in front. -/
def pad (s : List Char) : List Char :=
  if s.length < 24 then List.replicate (24 - s.length) ' ' ++ s else s

/-- An `OverlayManager`, 15–30, with the size of its canvas; `drawn` is what the last update drew. -/
structure St where
  visible : Bool := true
  depth : Nat
  width : Nat
  height : Nat
  lo : Option Nat := none
  hi : Option Nat := none
  lines : List (List Char) := []
  maxLen : Nat := 0
  drawn : List (List Char × Rat × Rat) := []

/-- The constructor for a canvas. -/
def St.new (w h : Nat) : St := { depth := min 512 w, width := w, height := h }

/-- `writeLn`, 32–36. -/
def St.writeLn (s : St) (data : List Char) : St :=
  { s with maxLen := max s.maxLen (pad data).length, lines := s.lines ++ [pad data] }

/-- The loop of `writeLines`, 87–94. -/
def place (x : Rat) : Rat → List (List Char) → List (List Char × Rat × Rat)
  | _, [] => []
  | y, l :: ls => (if l ≠ [] then [(l, x, y + 14)] else []) ++ place x (y + 14) ls

/-- `writeLines`, 86–99. -/
def St.writeLines (s : St) (x y : Rat) : St :=
  { s with drawn := place x y s.lines, lines := [], maxLen := 0 }

def tFrame : List Char := " s (frame time )".toList
def tAxis : List Char := "s (x-axis     )".toList
def tMax : List Char := "       (max samples)".toList
def tWidth : List Char := "       (width      )".toList
def tHeight : List Char := "       (height     )".toList
def tHide : List Char := "Click to hide.".toList
def tShow : List Char := "Click for overlay.".toList

/-- `update`, 38–84, at a time in milliseconds. A `maxTimestamp` of 0 counts as none (62). -/
def St.update (s : St) (time : Rat) : St :=
  let s := s.writeLn (text3 (fixed3 (time / 1000)) ++ tFrame)
  let s :=
    if s.visible then
      let s := match s.lo, s.hi with
        | some lo, some hi =>
          if hi = 0 then s
          else
            let n := nanos ((hi : Rat) - lo)
            s.writeLn (text3 n.1 ++ prefixes[n.2]?.toList ++ tAxis)
        | _, _ => s
      let s := s.writeLn (Nat.toDigits 10 s.depth ++ tMax)
      let s := s.writeLn (Nat.toDigits 10 s.width ++ tWidth)
      let s := s.writeLn (Nat.toDigits 10 s.height ++ tHeight)
      (s.writeLn []).writeLn tHide
    else (s.writeLn []).writeLn tShow
  s.writeLines (s.width - s.maxLen * (14 * (3 / 5))) (14 / 2)

/-- What happens to an overlay: a frame, a click (`handleMessage`, 106–113), another message, a change of size
(`updateSize`), of the time span (PlotDrawer.js 88–89) or of the number of samples. -/
inductive Ev where
  | frame (time : Rat)
  | click
  | other
  | size (w h : Nat)
  | span (lo hi : Option Nat)
  | depth (n : Nat)

def St.step (s : St) : Ev → St
  | .frame t => s.update t
  | .click => { s with visible := !s.visible }
  | .other => s
  | .size w h => { s with width := w, height := h }
  | .span lo hi => { s with lo := lo, hi := hi }
  | .depth n => { s with depth := n }

def St.run (s : St) (l : List Ev) : St := l.foldl St.step s

/-! ### Durations -/

theorem loop_zero (d dec fr : Rat) (k : Nat) : loop d 0 dec fr k = (dec, fr, k) := rfl

theorem loop_ge {d dec : Rat} (h : d ≤ dec) (n : Nat) (fr : Rat) (k : Nat) :
    loop d (n + 1) dec fr k = loop d n ⌊dec / d⌋ (dec - d * ⌊dec / d⌋) (k + 1) := by
  rw [loop, if_pos h]

theorem loop_lt {d dec : Rat} (h : dec < d) (n : Nat) (fr : Rat) (k : Nat) :
    loop d n dec fr k = (dec, fr, k) := by
  cases n with
  | zero => rfl
  | succ n => rw [loop, if_neg (not_le.mpr h)]

theorem floor_nat (v d : Nat) : ⌊(v : Rat) / (d : Rat)⌋ = ((v / d : Nat) : Int) := by
  rw [Rat.floor_natCast_div_natCast]; norm_cast

/-- The loop on whole numbers. -/
def nloop (d : Nat) : Nat → Nat → Nat → Nat → Nat × Nat × Nat
  | 0, dec, fr, k => (dec, fr, k)
  | n + 1, dec, fr, k => if d ≤ dec then nloop d n (dec / d) (dec % d) (k + 1) else (dec, fr, k)

theorem loop_nat (d : Nat) (n : Nat) : ∀ (v fr k : Nat),
    loop d n v fr k = (((nloop d n v fr k).1 : Rat), ((nloop d n v fr k).2.1 : Rat), (nloop d n v fr k).2.2) := by
  induction n with
  | zero => intro v fr k; rfl
  | succ n ih =>
    intro v fr k
    by_cases h : d ≤ v
    · rw [loop_ge (by exact_mod_cast h), nloop, if_pos h, floor_nat]
      have e : ((v : Rat) - d * ((v / d : Nat) : Int)) = ((v % d : Nat) : Rat) := by
        have := Nat.div_add_mod v d
        have h2 : (v : Rat) = d * ((v / d : Nat) : Rat) + ((v % d : Nat) : Rat) := by exact_mod_cast this.symm
        rw [Int.cast_natCast]
        linarith
      rw [e]
      have := ih (v / d) (v % d) (k + 1)
      rw [Int.cast_natCast]
      exact this
    · rw [loop_lt (by exact_mod_cast not_le.mp h), nloop, if_neg h]

/-- A whole value: the part before the point is the value in the chosen unit, rounded down, the fraction is in
the unit below, and the unit is the largest one not above the value. -/
theorem nloop_spec (d : Nat) (hd : 1 < d) (n : Nat) : ∀ v fr k : Nat,
    ∃ j, (nloop d n v fr k).2.2 = k + j ∧ j ≤ n ∧ (nloop d n v fr k).1 = v / d ^ j ∧
      (j = 0 → (nloop d n v fr k).2.1 = fr) ∧
      (0 < j → (nloop d n v fr k).2.1 = v / d ^ (j - 1) % d ∧ d ^ j ≤ v) ∧ (j < n → v < d ^ (j + 1)) := by
  induction n with
  | zero => intro v fr k; exact ⟨0, by simp [nloop]⟩
  | succ n ih =>
    intro v fr k
    by_cases h : d ≤ v
    · rw [nloop, if_pos h]
      obtain ⟨j, h1, h2, h3, h4, h5, h6⟩ := ih (v / d) (v % d) (k + 1)
      refine ⟨j + 1, by omega, by omega, ?_, by omega, fun _ => ?_, fun hj => ?_⟩
      · rw [h3, Nat.div_div_eq_div_mul, pow_succ, mul_comm]
      · rcases Nat.eq_zero_or_pos j with h0 | h0
        · subst h0; simp [h4, h]
        · obtain ⟨a, b⟩ := h5 h0
          constructor
          · rw [a, Nat.div_div_eq_div_mul]
            congr 2
            rw [← pow_succ']
            congr 1
            omega
          · rw [pow_succ]; exact (Nat.le_div_iff_mul_le (by omega)).mp b
      · have := h6 (by omega)
        rw [pow_succ]
        exact (Nat.div_lt_iff_lt_mul (by omega)).mp this
    · rw [nloop, if_neg h]
      exact ⟨0, by simp; omega⟩

/-- C110: for every number of prefixes, divisor above 1 and whole value, `traverse` chooses the largest unit that
is not above the value, as far as the prefixes and the limit go, and gives the whole part in that unit and the
remainder in the unit below. -/
theorem C110_traverse (p d v m : Nat) (hd : 1 < d) :
    ∃ k, (traverse p d v m).2.2 = k ∧ k ≤ min (p - 1) m ∧ (0 < k → d ^ k ≤ v) ∧
      (k < min (p - 1) m → v < d ^ (k + 1)) ∧ (traverse p d v m).1 = ((v / d ^ k : Nat) : Rat) ∧
      (k = 0 → (traverse p d v m).2.1 = 0) ∧
      (0 < k → (traverse p d v m).2.1 = ((v / d ^ (k - 1) % d : Nat) : Rat)) := by
  have e := loop_nat d (min (p - 1) m) v 0 0
  obtain ⟨k, h1, h2, h3, h4, h5, h6⟩ := nloop_spec d hd (min (p - 1) m) v 0 0
  have e2 : traverse p d v m = _ := e
  rw [Nat.zero_add] at h1
  refine ⟨k, ?_, h2, fun h => (h5 h).2, h6, ?_, ?_, ?_⟩
  · rw [e2]; exact h1
  · rw [e2]; simp only [h3]
  · intro h0; rw [e2]; simp only [h4 h0]; rfl
  · intro h0; rw [e2]; simp only [(h5 h0).1]

example : traverse 8 (1000 : Nat) (1234567 : Nat) 3 = (1, 234, 2) := by
  unfold traverse; rw [show (0 : Rat) = ((0 : Nat) : Rat) by simp, loop_nat]; norm_num [nloop]

theorem fixed3_thousandths (n : Nat) : fixed3 ((n : Rat) / 1000) = n := by
  unfold fixed3
  have : ⌊((n : Rat) / 1000) * 1000 + 1 / 2⌋ = (n : Int) := by
    rw [Int.floor_eq_iff]
    push_cast
    constructor <;> linarith
  rw [this]; rfl

/-- What is shown for a whole number of nanoseconds. -/
theorem nanos_nat (v : Nat) : ∃ k, (nanos v).2 = k ∧ k ≤ 3 ∧ (0 < k → 1000 ^ k ≤ v) ∧ (k < 3 → v < 1000 ^ (k + 1)) ∧
    (nanos v).1 = v * 1000 / 1000 ^ k := by
  obtain ⟨k, h1, h2, h3, h4, h5, h6, h7⟩ := C110_traverse prefixes.length 1000 v 3 (by omega)
  have hm : min (prefixes.length - 1) 3 = 3 := by decide
  rw [hm] at h2 h4
  push_cast at h1 h5 h6 h7
  refine ⟨k, h1, h2, h3, h4, ?_⟩
  have e : (nanos v).1 = fixed3 ((traverse prefixes.length 1000 v).1 + (traverse prefixes.length 1000 v).2.1 / 1000) :=
    rfl
  rw [e, h5]
  rcases Nat.eq_zero_or_pos k with h0 | h0
  · rw [h6 h0]
    subst h0
    have := fixed3_thousandths (v * 1000)
    rw [pow_zero, Nat.div_one, Nat.div_one, ← this]
    congr 1
    push_cast
    ring
  · rw [h7 h0]
    have key : v * 1000 / 1000 ^ k = v / 1000 ^ k * 1000 + v / 1000 ^ (k - 1) % 1000 := by
      obtain ⟨j, rfl⟩ : ∃ j, k = j + 1 := ⟨k - 1, by omega⟩
      rw [Nat.add_sub_cancel, pow_succ, Nat.mul_div_mul_right _ _ (by omega), ← Nat.div_div_eq_div_mul]
      have := Nat.div_add_mod (v / 1000 ^ j) 1000
      omega
    rw [key, ← fixed3_thousandths (v / 1000 ^ k * 1000 + v / 1000 ^ (k - 1) % 1000)]
    congr 1
    push_cast
    ring

/-- C110: the number shown for a whole number of nanoseconds is that number in the unit shown, cut after three
decimals. -/
theorem C110_shown (v : Nat) :
    (nanos v).1 * 1000 ^ (nanos v).2 ≤ v * 1000 ∧ v * 1000 < ((nanos v).1 + 1) * 1000 ^ (nanos v).2 := by
  obtain ⟨k, h1, _, _, _, h5⟩ := nanos_nat v
  rw [h1, h5]
  have hp : 0 < 1000 ^ k := by positivity
  exact ⟨Nat.div_mul_le_self _ _, by rw [mul_comm (_ + 1)]; exact Nat.lt_mul_div_succ _ hp⟩

/-- C110: the unit shown is nanoseconds below 1000 ns, then micro- and milliseconds, and seconds for everything
from a second on. -/
theorem C110_unit (v : Nat) : (nanos v).2 = min 3 (Nat.log 1000 v) ∧
    prefixes[(nanos v).2]? = some (if v < 10 ^ 3 then 'n' else if v < 10 ^ 6 then 'u' else if v < 10 ^ 9 then 'm' else ' ') := by
  obtain ⟨k, h1, h2, h3, h4, -⟩ := nanos_nat v
  rw [h1]
  constructor
  · rcases Nat.eq_zero_or_pos v with h0 | h0
    · subst h0
      rcases Nat.eq_zero_or_pos k with hk | hk
      · subst hk; simp
      · have := h3 hk
        have : 0 < 1000 ^ k := by positivity
        omega
    · have a : k ≤ Nat.log 1000 v := by
        rcases Nat.eq_zero_or_pos k with hk | hk
        · omega
        · exact (Nat.le_log_iff_pow_le (by omega) (by omega)).mpr (h3 hk)
      rcases Nat.lt_or_ge k 3 with hk | hk
      · have := (Nat.log_lt_iff_lt_pow (b := 1000) (by omega) (by omega)).mpr (h4 hk)
        omega
      · omega
  · have hk : k = 0 ∨ k = 1 ∨ k = 2 ∨ k = 3 := by omega
    rcases hk with rfl | rfl | rfl | rfl
    · have := h4 (by omega); simp at this; rw [if_pos (by omega)]; rfl
    · have a := h3 (by omega); have b := h4 (by omega); simp at a b
      rw [if_neg (by omega), if_pos (by omega)]; rfl
    · have a := h3 (by omega); have b := h4 (by omega); simp at a b
      rw [if_neg (by omega), if_neg (by omega), if_pos (by omega)]; rfl
    · have a := h3 (by omega); simp at a
      rw [if_neg (by omega), if_neg (by omega), if_neg (by omega)]; rfl

/-- C110: a longer duration is never shown as a shorter one. -/
theorem C110_order {v w : Nat} (h : v ≤ w) :
    (nanos v).1 * 1000 ^ (nanos v).2 ≤ (nanos w).1 * 1000 ^ (nanos w).2 := by
  obtain ⟨k, h1, h2, h3, h4, h5⟩ := nanos_nat v
  obtain ⟨j, g1, g2, g3, g4, g5⟩ := nanos_nat w
  have hv := (C110_shown v).1
  rw [h1] at hv
  rw [h1, g1]
  have hkj : k ≤ j := by
    by_contra hc
    have a := h3 (by omega)
    have b := g4 (by omega)
    have : 1000 ^ (j + 1) ≤ 1000 ^ k := Nat.pow_le_pow_right (by omega) (by omega)
    omega
  rcases Nat.lt_or_ge k j with hlt | hge
  · -- a smaller unit: the shown value is below one of the larger unit
    have a := g3 (by omega)
    have b := h4 (by omega)
    have c : 1000 ^ (k + 1) ≤ 1000 ^ j := Nat.pow_le_pow_right (by omega) (by omega)
    have hw1 : 1000 ≤ (nanos w).1 := by
      rw [g5]
      refine (Nat.le_div_iff_mul_le (by positivity)).mpr ?_
      calc 1000 * 1000 ^ j = 1000 ^ j * 1000 := mul_comm _ _
        _ ≤ w * 1000 := Nat.mul_le_mul_right _ a
    calc (nanos v).1 * 1000 ^ k ≤ v * 1000 := hv
      _ ≤ 1000 ^ j * 1000 := Nat.mul_le_mul_right _ (by omega)
      _ = 1000 * 1000 ^ j := mul_comm _ _
      _ ≤ (nanos w).1 * 1000 ^ j := Nat.mul_le_mul_right _ hw1
  · have e : j = k := by omega
    subst e
    rw [h5, g5]
    exact Nat.mul_le_mul_right _ (Nat.div_le_div_right (Nat.mul_le_mul_right _ h))

/-- C110: below a thousand seconds there are at most three digits before the point, and from a nanosecond on the number
shown is at least one. -/
theorem C110_digits (v : Nat) : ((nanos v).1 < 10 ^ 6 ↔ v < 10 ^ 12) ∧ (0 < v → 1000 ≤ (nanos v).1) := by
  obtain ⟨k, h1, h2, h3, h4, h5⟩ := nanos_nat v
  have hk : k = 0 ∨ k = 1 ∨ k = 2 ∨ k = 3 := by omega
  rw [h5]
  rcases hk with rfl | rfl | rfl | rfl
  · have := h4 (by omega); simp at this ⊢; omega
  · have a := h3 (by omega); have b := h4 (by omega); simp at a b ⊢; omega
  · have a := h3 (by omega); have b := h4 (by omega); simp at a b ⊢; omega
  · have a := h3 (by omega); simp at a ⊢; omega

/-- C110: there is no unit above the second: a thousand seconds and more are counted in seconds although the table has a
prefix for them. -/
theorem C110_long_fails (v : Nat) (h : 10 ^ 12 ≤ v) :
    prefixes[(nanos v).2]? = some ' ' ∧ 1000 * 1000 ≤ (nanos v).1 ∧ 'k' ∈ prefixes := by
  have a := C110_unit v
  have b := C110_digits v
  refine ⟨?_, by omega, by decide⟩
  rw [a.2, if_neg (by omega), if_neg (by omega), if_neg (by omega)]

example : nanos (5000000000123 : Nat) = (5000000, 3) := by
  obtain ⟨k, h1, h2, h3, h4, h5⟩ := nanos_nat 5000000000123
  have : k = 3 := by
    by_contra hne
    have h6 := h4 (by omega)
    have : 1000 ^ (k + 1) ≤ 1000 ^ 3 := Nat.pow_le_pow_right (by omega) (by omega)
    omega
  subst this
  exact Prod.ext h5 h1

/-- C110: a duration with a fraction of a nanosecond may be rounded up to a full thousand of its unit. -/
theorem C110_carry_fails (q : Rat) (h : 999.9995 ≤ q) (h2 : q < 1000) : nanos q = (1000 * 1000, 0) := by
  have e : traverse prefixes.length 1000 q = (q, 0, 0) := loop_lt h2 _ _ _
  have e2 : nanos q = (fixed3 ((traverse prefixes.length 1000 q).1 + (traverse prefixes.length 1000 q).2.1 / 1000),
    (traverse prefixes.length 1000 q).2.2) := rfl
  rw [e2, e]
  have : fixed3 (q + 0 / 1000) = 1000 * 1000 := by
    unfold fixed3
    have : ⌊(q + 0 / 1000) * 1000 + 1 / 2⌋ = (1000000 : Int) := by
      rw [Int.floor_eq_iff]; push_cast; constructor <;> linarith
    rw [this]; rfl
  simp only [this]

example : ∃ q : Rat, 999.9995 ≤ q ∧ q < 1000 := ⟨999.9996, by norm_num, by norm_num⟩

/-! ### The lines -/

theorem length_pad (s : List Char) : (pad s).length = max 24 s.length := by
  unfold pad
  split
  · simp; omega
  · omega

theorem length_text3 (n : Nat) : (text3 n).length = (Nat.toDigits 10 (n / 1000)).length + 4 := by simp [text3]

theorem digitChar_inj {a b : Nat} (ha : a < 10) (hb : b < 10) (h : Nat.digitChar a = Nat.digitChar b) : a = b := by
  have key : ∀ a < 10, ∀ b < 10, Nat.digitChar a = Nat.digitChar b → a = b := by decide
  exact key a ha b hb h

/-- C110: the text of a number: its digits, the point and exactly three more, and no other number has that text. -/
theorem C110_text (n : Nat) : (∃ a b c, text3 n = Nat.toDigits 10 (n / 1000) ++ ['.', Nat.digitChar a, Nat.digitChar b, Nat.digitChar c] ∧
      a < 10 ∧ b < 10 ∧ c < 10 ∧ n = n / 1000 * 1000 + a * 100 + b * 10 + c) ∧
    ∀ m, text3 m = text3 n → m = n := by
  refine ⟨⟨_, _, _, rfl, by omega, by omega, by omega, by omega⟩, fun m h => ?_⟩
  unfold text3 at h
  obtain ⟨h1, h2⟩ := List.append_inj' h rfl
  simp only [List.cons.injEq, true_and, and_true] at h2
  obtain ⟨a, b, c⟩ := h2
  have a := digitChar_inj (by omega) (by omega) a
  have b := digitChar_inj (by omega) (by omega) b
  have c := digitChar_inj (by omega) (by omega) c
  have d : m / 1000 = n / 1000 := by
    have := congrArg (fun l => Nat.ofDigitChars 10 l 0) h1
    simpa [Nat.ofDigitChars_ten_toDigits] using this
  omega

/-- The lines to be shown. -/
def St.texts (s : St) (time : Rat) : List (List Char) :=
  (text3 (fixed3 (time / 1000)) ++ tFrame) ::
    if s.visible then
      (match s.lo, s.hi with
        | some lo, some hi =>
          if hi = 0 then []
          else [text3 (nanos ((hi : Rat) - lo)).1 ++ prefixes[(nanos ((hi : Rat) - lo)).2]?.toList ++ tAxis]
        | _, _ => []) ++
      [Nat.toDigits 10 s.depth ++ tMax, Nat.toDigits 10 s.width ++ tWidth, Nat.toDigits 10 s.height ++ tHeight, [], tHide]
    else [[], tShow]

def writeAll (s : St) (l : List (List Char)) : St := l.foldl St.writeLn s

theorem writeAll_spec (l : List (List Char)) : ∀ s : St, writeAll s l =
    { s with maxLen := l.foldl (fun m x => max m (pad x).length) s.maxLen, lines := s.lines ++ l.map pad } := by
  induction l with
  | nil => intro s; simp [writeAll]
  | cons x l ih =>
    intro s
    show writeAll (s.writeLn x) l = _
    rw [ih]
    simp [St.writeLn]

theorem wl_visible (s : St) (x : List Char) : (s.writeLn x).visible = s.visible := rfl
theorem wl_lo (s : St) (x : List Char) : (s.writeLn x).lo = s.lo := rfl
theorem wl_hi (s : St) (x : List Char) : (s.writeLn x).hi = s.hi := rfl
theorem wl_depth (s : St) (x : List Char) : (s.writeLn x).depth = s.depth := rfl
theorem wl_width (s : St) (x : List Char) : (s.writeLn x).width = s.width := rfl
theorem wl_height (s : St) (x : List Char) : (s.writeLn x).height = s.height := rfl

theorem update_eq (s : St) (t : Rat) : s.update t =
    (writeAll s (s.texts t)).writeLines ((s.width : Rat) - (writeAll s (s.texts t)).maxLen * (14 * (3 / 5))) (14 / 2) := by
  unfold St.update St.texts writeAll
  generalize tFrame = a1, tAxis = a2, tMax = a3, tWidth = a4, tHeight = a5, tHide = a6, tShow = a7
  generalize text3 (fixed3 (t / 1000)) = a8
  generalize (14 * (3 / 5) : Rat) = c
  generalize (14 / 2 : Rat) = c'
  cases hv : s.visible
  · simp only [wl_visible, hv, wl_width, List.foldl_cons, List.foldl_nil, Bool.false_eq_true, if_false]
  · cases hl : s.lo with
    | none => simp only [wl_visible, hv, wl_lo, hl, wl_width, wl_depth, wl_height, List.foldl_cons, List.foldl_nil, List.nil_append, if_true]
    | some lo =>
      cases hh : s.hi with
      | none => simp only [wl_visible, hv, wl_lo, wl_hi, hl, hh, wl_width, wl_depth, wl_height, List.foldl_cons, List.foldl_nil, List.nil_append, if_true]
      | some hi =>
        by_cases h0 : hi = 0
        · simp only [wl_visible, hv, wl_lo, wl_hi, hl, hh, h0, wl_width, wl_depth, wl_height, List.foldl_cons, List.foldl_nil, List.nil_append, if_true]
        · simp only [wl_visible, hv, wl_lo, wl_hi, hl, hh, if_neg h0, wl_width, wl_depth, wl_height, List.foldl_cons, List.foldl_nil, List.nil_append, List.cons_append, if_true]

/-- Nothing is left over between two updates. -/
theorem clean_step (s : St) (e : Ev) (h : s.lines = [] ∧ s.maxLen = 0) :
    (s.step e).lines = [] ∧ (s.step e).maxLen = 0 := by
  cases e <;> first | exact h | skip
  simp [St.step, update_eq, St.writeLines]

theorem run_cons (s : St) (e : Ev) (l : List Ev) : s.run (e :: l) = (s.step e).run l := rfl

theorem run_snoc (s : St) (l : List Ev) (e : Ev) : s.run (l ++ [e]) = (s.run l).step e := by
  simp [St.run]

theorem clean_run (l : List Ev) : ∀ s : St, (s.lines = [] ∧ s.maxLen = 0) →
    (s.run l).lines = [] ∧ (s.run l).maxLen = 0 := by
  induction l with
  | nil => intro s h; exact h
  | cons e l ih => intro s h; exact ih _ (clean_step s e h)

theorem place_spec (x : Rat) (l : List (List Char)) : ∀ y, (∀ t ∈ l, t ≠ []) →
    place x y l = l.mapIdx (fun i t => (t, x, y + 14 * (i + 1))) := by
  induction l with
  | nil => intro y _; rfl
  | cons t l ih =>
    intro y h
    rw [place, if_pos (h t (by simp)), ih _ (fun t ht => h t (by simp [ht])), List.mapIdx_cons]
    simp only [List.singleton_append, Nat.cast_zero, zero_add, mul_one, List.cons.injEq, true_and]
    congr 1
    funext i a
    push_cast
    ring_nf

theorem pad_ne (s : List Char) : pad s ≠ [] := by
  intro h
  have := length_pad s
  rw [h] at this
  simp at this
  omega

/-- The width of the longest line. -/
def widest (l : List (List Char)) : Nat := l.foldl (fun m x => max m (pad x).length) 0

/-- C110: after every history, a frame draws the lines of the state at that moment and nothing else: each on its own
row, rows 14 pixels apart, the longest one ending at the right edge of the canvas. -/
theorem C110_frame (w h : Nat) (l : List Ev) (t : Rat) :
    (((St.new w h).run (l ++ [.frame t])).drawn) =
      (((St.new w h).run l).texts t).mapIdx fun i x =>
        (pad x, (((St.new w h).run l).width : Rat) - (widest (((St.new w h).run l).texts t)) * (42 / 5),
          7 + 14 * ((i : Rat) + 1)) := by
  rw [run_snoc]
  obtain ⟨h1, h2⟩ := clean_run l (St.new w h) ⟨rfl, rfl⟩
  generalize (St.new w h).run l = s at *
  show (s.update t).drawn = _
  rw [update_eq, writeAll_spec]
  simp only [St.writeLines, h1, h2, List.nil_append]
  have hm : ∀ (f : Nat → List Char → List Char × Rat × Rat) (l : List (List Char)),
      (l.map pad).mapIdx f = l.mapIdx fun i x => f i (pad x) := by
    intro f l
    apply List.ext_getElem
    · simp
    · intro i h1 h2; simp
  rw [place_spec _ _ _ (by simp [pad_ne]), hm]
  congr 1
  funext i a
  simp only [widest]
  norm_num

/-- C110: which lines there are: the time of the frame always; the rest unless the overlay is hidden; the span of
the time axis only when it is known and does not end at time 0. -/
theorem C110_lines (s : St) (t : Rat) :
    (s.visible = false → s.texts t = [text3 (fixed3 (t / 1000)) ++ tFrame, [], tShow]) ∧
    (s.visible = true → ∃ axis, s.texts t = [text3 (fixed3 (t / 1000)) ++ tFrame] ++ axis ++
        [Nat.toDigits 10 s.depth ++ tMax, Nat.toDigits 10 s.width ++ tWidth,
          Nat.toDigits 10 s.height ++ tHeight, [], tHide] ∧
      (∀ lo hi, s.lo = some lo → s.hi = some hi → 0 < hi → lo ≤ hi →
        axis = [text3 (nanos ((hi - lo : Nat) : Rat)).1 ++
          (if hi - lo < 10 ^ 3 then 'n' else if hi - lo < 10 ^ 6 then 'u' else if hi - lo < 10 ^ 9 then 'm' else ' ') ::
            tAxis]) ∧
      (s.lo = none ∨ s.hi = none ∨ s.hi = some 0 → axis = [])) := by
  constructor
  · intro hv; unfold St.texts; rw [hv]; rfl
  · intro hv
    refine ⟨_, by unfold St.texts; rw [hv, if_pos rfl, List.append_assoc]; rfl, ?_, ?_⟩
    · intro lo hi h1 h2 h3 h4
      rw [h1, h2]
      have e : ((hi : Rat) - lo) = ((hi - lo : Nat) : Rat) := by rw [Nat.cast_sub h4]
      simp only [if_neg (by omega : hi ≠ 0), e, (C110_unit (hi - lo)).2]
      rw [List.append_assoc]
      rfl
    · intro h
      rcases h with h | h | h
      · rw [h]
      · rw [h]; cases s.lo <;> rfl
      · rw [h]; cases s.lo <;> simp

/-- C110: the overlay is hidden after an odd number of clicks; nothing else hides or shows it. -/
theorem C110_clicks (w h : Nat) (l : List Ev) :
    ((St.new w h).run l).visible = ((l.filter fun e => match e with | .click => true | _ => false).length % 2 == 0) := by
  have key : ∀ (l : List Ev) (s : St), (s.run l).visible =
      (s.visible == ((l.filter fun e => match e with | .click => true | _ => false).length % 2 == 0)) := by
    intro l
    induction l with
    | nil => intro s; simp [St.run]
    | cons e l ih =>
      intro s
      rw [run_cons, ih]
      have hup : ∀ t, (s.update t).visible = s.visible := by
        intro t; rw [update_eq, writeAll_spec]; rfl
      cases e with
      | click =>
        rw [List.filter_cons_of_pos (by rfl)]
        simp only [St.step, List.length_cons]
        generalize (List.filter _ l).length = n
        have : n % 2 = 0 ∨ n % 2 = 1 := by omega
        rcases this with h | h
        · have h2 : (n + 1) % 2 = 1 := by omega
          rw [h, h2]; cases s.visible <;> rfl
        · have h2 : (n + 1) % 2 = 0 := by omega
          rw [h, h2]; cases s.visible <;> rfl
      | frame t => rw [List.filter_cons_of_neg (by simp)]; simp [St.step, hup]
      | other => rw [List.filter_cons_of_neg (by simp)]; rfl
      | size => rw [List.filter_cons_of_neg (by simp)]; rfl
      | span => rw [List.filter_cons_of_neg (by simp)]; rfl
      | depth => rw [List.filter_cons_of_neg (by simp)]; rfl
  rw [key]
  simp [St.new]

/-- Fifteen characters. -/
theorem len_axis : tAxis.length = 15 := by decide

/-- The length of the text of a line. -/
theorem len_count (n : Nat) (t : List Char) (ht : t.length = 20) :
    (Nat.toDigits 10 n ++ t).length ≤ 24 ↔ n < 10000 := by
  have := @Nat.length_toDigits_le_iff 10 n 4 (by omega) (by omega)
  rw [List.length_append, ht]
  omega

theorem len_text3 (n : Nat) (t : List Char) (ht : t.length = 16) :
    (text3 n ++ t).length ≤ 24 ↔ n < 10000 * 1000 := by
  have := @Nat.length_toDigits_le_iff 10 (n / 1000) 4 (by omega) (by omega)
  rw [List.length_append, ht, length_text3]
  omega

theorem widest_small (l : List (List Char)) (h : ∀ x ∈ l, x.length ≤ 24) (hl : l ≠ []) : widest l = 24 := by
  have key : ∀ (l : List (List Char)) (m : Nat), (∀ x ∈ l, x.length ≤ 24) →
      l.foldl (fun m x => max m (pad x).length) m = if l = [] then m else max m 24 := by
    intro l
    induction l with
    | nil => intro m _; rfl
    | cons x l ih =>
      intro m hx
      rw [List.foldl_cons, ih _ (fun y hy => hx y (by simp [hy])), length_pad]
      have := hx x (by simp)
      rw [if_neg (List.cons_ne_nil x l)]
      split <;> omega
  unfold widest
  rw [key l 0 h, if_neg hl]
  rfl

theorem le_widest (l : List (List Char)) (x : List Char) (h : x ∈ l) : x.length ≤ widest l ∧ 24 ≤ widest l := by
  have mono : ∀ (l : List (List Char)) (m : Nat), m ≤ l.foldl (fun m x => max m (pad x).length) m := by
    intro l
    induction l with
    | nil => intro m; exact Nat.le_refl _
    | cons y l ih => intro m; exact Nat.le_trans (Nat.le_max_left _ _) (ih _)
  have key : ∀ (l : List (List Char)) (m : Nat), x ∈ l → (pad x).length ≤ l.foldl (fun m x => max m (pad x).length) m := by
    intro l
    induction l with
    | nil => intro m h; cases h
    | cons y l ih =>
      intro m h
      rcases List.mem_cons.mp h with h | h
      · subst h; exact Nat.le_trans (Nat.le_max_right _ _) (mono l _)
      · exact ih _ h
  have a := key l 0 h
  rw [length_pad] at a
  unfold widest
  omega

/-- C110: all lines end at the right edge as long as the page is open for less than 10000 seconds, the time axis
is shorter than that and the other numbers have at most four digits. -/
theorem C110_aligned_partial (s : St) (t : Rat) (ht : fixed3 (t / 1000) < 10000 * 1000)
    (hs : ∀ lo hi, s.lo = some lo → s.hi = some hi → lo ≤ hi ∧ hi - lo < 10 ^ 13)
    (hd : s.depth < 10000) (hw : s.width < 10000) (hh : s.height < 10000) :
    ∀ x ∈ s.texts t, (pad x).length = widest (s.texts t) := by
  have small : ∀ x ∈ s.texts t, x.length ≤ 24 := by
    intro x hx
    unfold St.texts at hx
    rcases List.mem_cons.mp hx with rfl | hx
    · exact (len_text3 _ _ (by decide)).mpr ht
    · split at hx
      · rcases List.mem_append.mp hx with hx | hx
        · cases hl : s.lo with
          | none => simp [hl] at hx
          | some lo =>
            cases hi : s.hi with
            | none => simp [hl, hi] at hx
            | some hi' =>
              obtain ⟨h1, h2⟩ := hs _ _ hl hi
              have e : ((hi' : Rat) - lo) = ((hi' - lo : Nat) : Rat) := by rw [Nat.cast_sub h1]
              simp only [hl, hi, e, (C110_unit (hi' - lo)).2] at hx
              split at hx
              · simp at hx
              · rw [List.mem_singleton] at hx
                subst hx
                rw [List.append_assoc]
                refine (len_text3 _ _ (by rw [List.length_append, len_axis]; rfl)).mpr ?_
                obtain ⟨k, h1, h2, h3, h4, h5⟩ := nanos_nat (hi' - lo)
                have := C110_digits (hi' - lo)
                by_cases hc : hi' - lo < 10 ^ 12
                · omega
                · have hk : k = 3 := by
                    by_contra hne
                    have h6 := h4 (by omega)
                    have : 1000 ^ (k + 1) ≤ 1000 ^ 3 := Nat.pow_le_pow_right (by omega) (by omega)
                    omega
                  rw [h5, hk]
                  omega
        · simp only [List.mem_cons, List.not_mem_nil, or_false] at hx
          rcases hx with rfl | rfl | rfl | rfl | rfl
          · exact (len_count _ _ (by decide)).mpr hd
          · exact (len_count _ _ (by decide)).mpr hw
          · exact (len_count _ _ (by decide)).mpr hh
          · simp
          · decide
      · simp only [List.mem_cons, List.not_mem_nil, or_false] at hx
        rcases hx with rfl | rfl
        · simp
        · decide
  intro x hx
  rw [widest_small _ small (by simp [St.texts]), length_pad]
  have := small x hx
  omega

example : fixed3 ((12345 : Rat) / 1000) < 10000 * 1000 := by
  have : (12345 : Rat) / 1000 = ((12345 : Nat) : Rat) / 1000 := by norm_num
  rw [this, fixed3_thousandths]; omega

/-- C110: once the page is open for 10000 seconds, the last line no longer ends where the first one does,
whatever else is shown. -/
theorem C110_aligned_fails (s : St) (t : Rat) (ht : 10000 * 1000 ≤ fixed3 (t / 1000)) :
    ∃ x ∈ s.texts t, (pad x).length < widest (s.texts t) := by
  have a : (text3 (fixed3 (t / 1000)) ++ tFrame) ∈ s.texts t := by simp [St.texts]
  have b := (le_widest _ _ a).1
  have c : ¬ (text3 (fixed3 (t / 1000)) ++ tFrame).length ≤ 24 := by
    rw [len_text3 _ _ (by decide)]; omega
  refine ⟨[], ?_, ?_⟩
  · unfold St.texts; cases s.visible <;> simp
  · rw [length_pad]; simp; omega

example : 10000 * 1000 ≤ fixed3 ((10000000 : Rat) / 1000) := by
  have : (10000000 : Rat) / 1000 = ((10000000 : Nat) : Rat) / 1000 := by norm_num
  rw [this, fixed3_thousandths]

end Verif.Overlay
