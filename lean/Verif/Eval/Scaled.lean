import Verif.Eval.Props
import Verif.Scaling.Props
/-!
C130: waiting for and sampling the scaled values of channels: `wait_for_value` of integers (`primitives/int.py` 43–60) and
floats (`primitives/float.py` 37–48), `compare_latest` (`primitives/evaluation.py` 91–109), `wait_for_isclose` (166–188),
and the functions of the environment (`channel/environment/base.py` 280–402).

Exact rational arithmetic, as in `Scaling/Model.lean`. How long is waited, and what is seen meanwhile, is C09 and C10;
here it is what a new value is compared with.
-/
namespace Verif.Scaled
open Verif Verif.Wire Verif.Prim Verif.Eval Verif.Scaling

/-- `OPERATOR_MAP`, evaluation.py 31–38, on numbers. -/
def rel : Operator → Rat → Rat → Bool
  | .lessThan, a, b => decide (a < b)
  | .lessThanOrEqual, a, b => decide (a ≤ b)
  | .equal, a, b => decide (a = b)
  | .notEqual, a, b => decide (a ≠ b)
  | .greaterThanOrEqual, a, b => decide (a ≥ b)
  | .greaterThan, a, b => decide (a > b)

/-- The evaluator of an integer's `wait_for_value`, int.py 51–60: the value wanted is un-scaled and rounded, the raw value
is compared with it. -/
def intTest (scaling : List Rat) (value : Rat) (op : Operator) (new : Int) : Except PyErr Bool :=
  (invert value scaling true).map fun lhs => rel op lhs new

/-- The evaluator of a float's `wait_for_value`, float.py 45–48. -/
def floatTest (scaling : List Rat) (value : Rat) (op : Operator) (new : Rat) : Except PyErr Bool :=
  if scaling = [] then .ok (rel op value new) else (invert value scaling false).map fun lhs => rel op lhs new

/-- The evaluator of `wait_for_isclose`, evaluation.py 178–187. -/
def closeTest (close : Rat → Rat → Bool) (scaling : List Rat) (value new : Rat) : Bool := close value (apply new scaling)

/-- The evaluator of `wait_for_enum` for an integer enumeration whose name has the value `n`, base.py 371–385. -/
def enumTest (scaling : List Rat) (n : Int) (new : Int) : Except PyErr Bool := intTest scaling n .equal new

/-- `sample_int_for`, `sample_float_for`, base.py 315–351, on the samples of `sample_for` (C10). -/
def sampleNum (scaling : List Rat) (scale : Bool) (samples : List (Rat × Int)) : List (Rat × Int) :=
  samples.map fun s => (if scale && !scaling.isEmpty then apply s.1 scaling else s.1, s.2)

/-- `sample_enum_for`, base.py 387–402: what is yielded, and whether `get_str` raised. -/
def sampleEnum (name : Int → Option String) : List (Int × Int) → List (String × Int) × Option PyErr
  | [] => ([], none)
  | (v, t) :: rest =>
    match name v with
    | none => ([], some .key)
    | some s => ((s, t) :: (sampleEnum name rest).1, (sampleEnum name rest).2)

/-! ### Lemmas -/

/-- Only the order of the two numbers matters. -/
theorem rel_congr (op : Operator) {a b c d : Rat} (h1 : a < b ↔ c < d) (h2 : b < a ↔ d < c) : rel op a b = rel op c d := by
  have e : a = b ↔ c = d := by
    constructor
    · intro h
      rcases lt_trichotomy c d with k | k | k
      · exact absurd (h1.2 k) (by rw [h]; exact lt_irrefl _)
      · exact k
      · exact absurd (h2.2 k) (by rw [h]; exact lt_irrefl _)
    · intro h
      rcases lt_trichotomy a b with k | k | k
      · exact absurd (h1.1 k) (by rw [h]; exact lt_irrefl _)
      · exact k
      · exact absurd (h2.1 k) (by rw [h]; exact lt_irrefl _)
  cases op <;> simp only [rel, decide_eq_decide]
  · exact h1
  · rw [← not_lt, ← not_lt, h2]
  · exact e
  · rw [ne_eq, ne_eq, e]
  · show b ≤ a ↔ d ≤ c
    rw [← not_lt, ← not_lt, h1]
  · exact h2

theorem unscale_order {a b v x : Rat} (hb : 0 < b) :
    ((v - a) / b < x ↔ v < apply x [a, b]) ∧ (x < (v - a) / b ↔ apply x [a, b] < v) := by
  rw [apply_two, div_lt_iff₀ hb, lt_div_iff₀ hb]
  constructor <;> constructor <;> intro h <;> linarith

theorem unscale_order_neg {a b v x : Rat} (hb : b < 0) :
    ((v - a) / b < x ↔ apply x [a, b] < v) ∧ (x < (v - a) / b ↔ v < apply x [a, b]) := by
  rw [apply_two, div_lt_iff_of_neg hb, lt_div_iff_of_neg hb]
  constructor <;> constructor <;> intro h <;> linarith

/-- The operator with its sides exchanged. -/
def mirror : Operator → Operator
  | .lessThan => .greaterThan
  | .lessThanOrEqual => .greaterThanOrEqual
  | .greaterThanOrEqual => .lessThanOrEqual
  | .greaterThan => .lessThan
  | o => o

theorem rel_mirror (op : Operator) {a b c d : Rat} (h1 : a < b ↔ d < c) (h2 : b < a ↔ c < d) :
    rel op a b = rel (mirror op) c d := by
  have : rel (mirror op) c d = rel op d c := by
    cases op <;> simp [rel, mirror, eq_comm]
  rw [this]
  exact rel_congr op h1 h2

/-! ### Claims -/

/-- C130: a float with a rising scaling (or none): the test is the comparison with the scaled value, for every operator. -/
theorem C130_float (a b v new : Rat) (hb : 0 < b) (op : Operator) :
    floatTest [a, b] v op new = .ok (rel op v (apply new [a, b])) ∧
    floatTest [] v op new = .ok (rel op v (apply new [])) := by
  refine ⟨?_, by simp [floatTest, apply]⟩
  have hb' : b ≠ 0 := ne_of_gt hb
  simp only [floatTest, invert, unscale, hb', if_false, Except.map, Bool.false_eq_true, reduceCtorEq]
  rw [rel_congr op (unscale_order hb).1 (unscale_order hb).2]

/-- C130, for equality and its negation: any slope will do. -/
theorem C130_float_equal (a b v new : Rat) (hb : b ≠ 0) :
    floatTest [a, b] v .equal new = .ok (decide (v = apply new [a, b])) ∧
    floatTest [a, b] v .notEqual new = .ok (decide (v ≠ apply new [a, b])) := by
  have e : (v - a) / b = new ↔ v = apply new [a, b] := by
    rw [apply_two, div_eq_iff hb]
    constructor <;> intro h <;> linarith
  constructor <;> simp [floatTest, invert, unscale, hb, Except.map, rel, e]

/-- C130 fails for a falling scaling: the test is the comparison the other way round. Waiting for a scaled value below a
bound ends when it is above. -/
theorem C130_falling_fails (a b v new : Rat) (hb : b < 0) (op : Operator) :
    floatTest [a, b] v op new = .ok (rel (mirror op) v (apply new [a, b])) ∧
    (mirror op ≠ op → v ≠ apply new [a, b] → floatTest [a, b] v op new = .ok (!rel op v (apply new [a, b]))) := by
  have hb' : b ≠ 0 := ne_of_lt hb
  have h : floatTest [a, b] v op new = .ok (rel (mirror op) v (apply new [a, b])) := by
    simp only [floatTest, invert, unscale, hb', if_false, Except.map, Bool.false_eq_true, reduceCtorEq]
    rw [rel_mirror op (c := v) (d := apply new [a, b]) (unscale_order_neg hb).1 (unscale_order_neg hb).2]
  refine ⟨h, fun hm hv => ?_⟩
  rw [h]
  generalize apply new [a, b] = y at hv
  congr 1
  rcases lt_or_gt_of_ne hv with k | k
  · have k1 : ¬ y < v := not_lt.2 (le_of_lt k)
    have k2 : ¬ y ≤ v := not_le.2 k
    cases op <;> simp_all [rel, mirror, le_of_lt]
  · have k1 : ¬ v < y := not_lt.2 (le_of_lt k)
    have k2 : ¬ v ≤ y := not_le.2 k
    cases op <;> simp_all [rel, mirror, le_of_lt]

theorem pyRound_lt (q : Rat) (n : Int) : ((pyRound q : Rat) < n → q < n) ∧ ((n : Rat) < pyRound q → (n : Rat) < q) := by
  have h := abs_le.1 (pyRound_near q)
  constructor <;> intro k
  · have : (pyRound q : Rat) + 1 ≤ n := by exact_mod_cast k
    linarith [h.1]
  · have : (n : Rat) + 1 ≤ pyRound q := by exact_mod_cast k
    linarith [h.2]

/-- C130: an integer with a rising scaling. For every raw value other than the one nearest to the value wanted the test is
the comparison with the scaled value; for the nearest one it is the operator on equal numbers. -/
theorem C130_int (a b v : Rat) (hb : 0 < b) (op : Operator) (new : Int) :
    (new ≠ pyRound ((v - a) / b) → intTest [a, b] v op new = .ok (rel op v (apply new [a, b]))) ∧
    (new = pyRound ((v - a) / b) → intTest [a, b] v op new = .ok (rel op v v)) := by
  have hb' : b ≠ 0 := ne_of_gt hb
  have h : intTest [a, b] v op new = .ok (rel op (pyRound ((v - a) / b) : Rat) new) := by
    simp [intTest, invert, unscale, hb', Except.map]
  rw [h]
  constructor
  · intro hn
    congr 1
    apply rel_congr
    · rw [← (unscale_order hb).1]
      refine ⟨(pyRound_lt _ _).1, fun k => ?_⟩
      by_contra hc
      have h1 : (new : Rat) ≤ pyRound ((v - a) / b) := not_lt.1 hc
      have h2 : new < pyRound ((v - a) / b) := lt_of_le_of_ne (by exact_mod_cast h1) hn
      have := (pyRound_lt ((v - a) / b) new).2 (by exact_mod_cast h2)
      exact absurd this (not_lt.2 (le_of_lt k))
    · rw [← (unscale_order hb).2]
      refine ⟨(pyRound_lt _ _).2, fun k => ?_⟩
      by_contra hc
      have h1 : (pyRound ((v - a) / b) : Rat) ≤ new := not_lt.1 hc
      have h2 : pyRound ((v - a) / b) < new := lt_of_le_of_ne (by exact_mod_cast h1) (Ne.symm hn)
      have := (pyRound_lt ((v - a) / b) new).1 (by exact_mod_cast h2)
      exact absurd this (not_lt.2 (le_of_lt k))
  · rintro rfl
    congr 1
    apply rel_congr <;> simp

/-- C130: so for a value that some raw value has, the test is the comparison with the scaled value. -/
theorem C130_int_exact (a b : Rat) (hb : 0 < b) (op : Operator) (n new : Int) :
    intTest [a, b] (apply n [a, b]) op new = .ok (rel op (apply n [a, b]) (apply new [a, b])) := by
  have e : pyRound ((apply (n : Rat) [a, b] - a) / b) = n := by
    have : (apply (n : Rat) [a, b] - a) / b = n := by
      rw [apply_two]; field_simp; ring
    rw [this, pyRound_int]
  by_cases h : new = n
  · subst h
    exact (C130_int a b _ hb op new).2 e.symm
  · exact (C130_int a b _ hb op new).1 (by rw [e]; exact h)

/-- C130 fails for other values: at the nearest raw value, equality is reported although the scaled value is another, and
one of the two strict comparisons is missed although it holds. -/
theorem C130_nearest_fails (a b v : Rat) (hb : 0 < b) (hv : ∀ n : Int, apply n [a, b] ≠ v) :
    let r := pyRound ((v - a) / b)
    apply r [a, b] ≠ v ∧ intTest [a, b] v .equal r = .ok true ∧
    ((rel .lessThan v (apply r [a, b]) = true ∧ intTest [a, b] v .lessThan r = .ok false) ∨
      (rel .greaterThan v (apply r [a, b]) = true ∧ intTest [a, b] v .greaterThan r = .ok false)) := by
  intro r
  refine ⟨hv r, ?_, ?_⟩
  · rw [(C130_int a b v hb .equal r).2 rfl]; simp [rel]
  · rcases lt_trichotomy v (apply r [a, b]) with k | k | k
    · left
      exact ⟨by simpa [rel] using k, by rw [(C130_int a b v hb .lessThan r).2 rfl]; simp [rel]⟩
    · exact absurd k.symm (hv r)
    · right
      exact ⟨by simpa [rel] using k, by rw [(C130_int a b v hb .greaterThan r).2 rfl]; simp [rel]⟩

/-- An integer without scaling: the same with the value itself; a whole number is compared exactly. -/
theorem C130_int_plain (op : Operator) (n new : Int) (v : Rat) :
    intTest [] n op new = .ok (rel op n new) ∧ intTest [] v op new = intTest [] (pyRound v) op new := by
  simp [intTest, invert, unscale, Except.map, pyRound_int]

/-- C130 fails: with a slope of 0 or more than two terms, waiting raises although the scaled value is defined. -/
theorem C130_raises_fails (a c : Rat) (b : Rat) (rest : List Rat) (v new : Rat) (n : Int) (op : Operator) :
    floatTest [a, 0] v op new = .error .zeroDivision ∧ intTest [a, 0] v op n = .error .zeroDivision ∧
    floatTest (a :: b :: c :: rest) v op new = .error .assertion ∧
    intTest (a :: b :: c :: rest) v op n = .error .assertion := by
  simp [floatTest, intTest, invert, unscale, Except.map]

/-- C130 fails for a scaling of one term: the value is compared as if the term were an offset, but the scaled value is
that term, whatever the raw value (C07). -/
theorem C130_one_term_fails (c v new : Rat) (n : Int) (op : Operator) :
    floatTest [c] v op new = .ok (rel op v (new + c)) ∧ intTest [c] (n + c) op n = .ok (rel op v v) ∧
    apply new [c] = c := by
  refine ⟨?_, ?_, by simp [apply, applyLoop]⟩
  · simp only [floatTest, invert, unscale, Except.map, Bool.false_eq_true, reduceCtorEq, if_false, div_one]
    congr 1
    apply rel_congr <;> constructor <;> intro h <;> linarith
  · have : (n : Rat) + c - c = n := by ring
    simp only [intTest, invert, unscale, Except.map, div_one, this, pyRound_int, if_true]
    congr 1
    apply rel_congr <;> simp

/-- C130: waiting for a number close to a value uses the scaled value, whatever the scaling. -/
theorem C130_close (close : Rat → Rat → Bool) (a : Rat) (rest : List Rat) (v new : Rat) :
    closeTest close (a :: rest) v new = close v (a + if rest = [] then 0 else new * apply new rest) := by
  rw [closeTest, C07_apply_polynomial]

/-- C130: waiting for a name of an enumeration, without scaling: the raw value is the name's. -/
theorem C130_enum (n new : Int) : enumTest [] n new = .ok (decide (n = new)) := by
  rw [enumTest, (C130_int_plain .equal n new 0).1]
  simp [rel]

/-- C130 fails for an enumeration with scaling: the raw value that is shown by the name is not the one waited for, unless
un-scaling leaves it alone. -/
theorem C130_enum_scaled_fails (a b : Rat) (hb : b ≠ 0) (n new : Int) :
    enumTest [a, b] n new = .ok (decide (pyRound ((n - a) / b) = new)) ∧
    (pyRound ((n - a) / b) ≠ n → enumTest [a, b] n n = .ok false) := by
  have h : ∀ m : Int, enumTest [a, b] n m = .ok (decide (pyRound ((n - a) / b) = m)) := by
    intro m
    simp [enumTest, intTest, invert, unscale, hb, Except.map, rel]
  exact ⟨h new, fun k => by rw [h n]; simp [k]⟩

/-- C130: samples come in their order and with their times; each is the scaled value, unless that is not wanted. -/
theorem C130_samples (scaling : List Rat) (scale : Bool) (samples : List (Rat × Int)) :
    (sampleNum scaling scale samples).map Prod.snd = samples.map Prod.snd ∧
    (sampleNum scaling scale samples).map Prod.fst =
      samples.map fun s => if scale then apply s.1 scaling else s.1 := by
  constructor
  · simp [sampleNum]
  · simp only [sampleNum, List.map_map]
    congr 1
    funext s
    cases scale <;> cases scaling <;> simp [apply]

/-- C130: samples of an enumeration are the names, up to the first value that has none; there the sampling raises. -/
theorem C130_enum_samples (name : Int → Option String) (samples : List (Int × Int)) :
    (sampleEnum name samples).1.map (fun s => (some s.1, s.2)) =
      (samples.takeWhile fun s => (name s.1).isSome).map (fun s => (name s.1, s.2)) ∧
    ((sampleEnum name samples).2 = none ↔ ∀ s ∈ samples, name s.1 ≠ none) := by
  induction samples with
  | nil => simp [sampleEnum]
  | cons p rest ih =>
    obtain ⟨v, t⟩ := p
    cases h : name v with
    | none => simp [sampleEnum, h]
    | some s => simp [sampleEnum, h, ih]

/-- With C09: waiting for a value that a raw value has succeeds exactly if the scaled value stands in the relation to it,
now or after the last change. -/
theorem C130_wait (k : IntKind) (a b : Rat) (hb : 0 < b) (n : Int) (op : Operator) (c : Cell Int) (hc : Ordered c)
    (changes : List (Int × Int)) :
    ∃ lhs : Int, invert (apply n [a, b]) [a, b] true = .ok lhs ∧
    ((evaluate (wrap k) (compareLatest lhs op) c changes).2 = .success ↔
      (rel op (apply n [a, b]) (apply c.raw [a, b]) = true ∨
        ∃ o m t, (Eval.Spec.effective (wrap k) c.raw changes).getLast? = some (o, m, t) ∧
          rel op (apply n [a, b]) (apply m [a, b]) = true)) := by
  have hb' : b ≠ 0 := ne_of_gt hb
  have e : (apply (n : Rat) [a, b] - a) / b = n := by rw [apply_two]; field_simp; ring
  refine ⟨n, by simp [invert, unscale, hb', Except.map, e, pyRound_int], ?_⟩
  have hr : ∀ m : Int, op.eval n m = rel op (apply n [a, b]) (apply m [a, b]) := by
    intro m
    have h := C130_int_exact a b hb op n m
    have h' : intTest [a, b] (apply n [a, b]) op m = .ok (rel op (n : Rat) m) := by
      simp [intTest, invert, unscale, hb', Except.map, e, pyRound_int]
    rw [h'] at h
    injection h with h
    rw [← h]
    cases op <;> simp [Operator.eval, rel]
  rw [C09_compare_success k n op c hc changes]
  simp only [hr]

/-! ### Examples -/

theorem C130_cases :
    intTest [1, 1 / 2] 3 .lessThan 5 = .ok true ∧ intTest [1, 1 / 2] 3 .lessThan 4 = .ok false ∧
    intTest [0, 1] (5 / 2) .equal 2 = .ok true ∧ intTest [0, 1] (11 / 4) .lessThan 3 = .ok false ∧
    floatTest [0, -1] 3 .lessThan (-5) = .ok false ∧ floatTest [0, -1] 3 .lessThan 5 = .ok true ∧
    enumTest [0, 2] 4 2 = .ok true ∧ enumTest [0, 2] 4 4 = .ok false ∧
    sampleNum [1, 2] true [(3, 10), (4, 11)] = [(7, 10), (9, 11)] ∧
    sampleEnum (fun v => if v = 7 then none else some "x") [(1, 5), (7, 6), (2, 8)] = ([("x", 5)], some .key) := by
  decide +kernel

example : ∀ n : Int, apply n [0, 1] ≠ (5 / 2 : Rat) := by
  intro n h
  rw [apply_two] at h
  have : (2 * n : Int) = 5 := by
    have : (2 * n : Rat) = 5 := by linarith
    exact_mod_cast this
  omega

end Verif.Scaled
