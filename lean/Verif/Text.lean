import Verif.Split
import Batteries.Tactic.Init
/-!
Python text functions on ASCII text: `strip`, `lower`, `int(text)`, `str(n)`, `split` with
`maxsplit`. Behaviour on other characters is outside the model (it is reached only after the bytes
of a header were decoded, which admits ASCII alone).
-/
namespace Verif.Text

/-- `str.isspace` for an ASCII character: tab to carriage return, 0x1c to 0x1f and space. -/
def isSpace (c : Char) : Bool :=
  (9 ≤ c.val.toNat && c.val.toNat ≤ 13) || (28 ≤ c.val.toNat && c.val.toNat ≤ 32)

/-- `str.strip()`. -/
def strip (s : List Char) : List Char := ((s.dropWhile isSpace).reverse.dropWhile isSpace).reverse

/-- `str.lower()`. -/
def lower (s : List Char) : List Char := s.map Char.toLower

/-- `str(n)` for a natural number. -/
def showNat (n : Nat) : List Char := Nat.toDigits 10 n

/-- Digits with single underscores between them, as `int` accepts. `prev`: the last character read
was a digit. -/
def digits : Bool → List Char → Nat → Except PyErr Nat
  | prev, [], n => if prev then .ok n else .error .value
  | prev, c :: cs, n =>
    if c.isDigit then digits true cs (10 * n + (c.toNat - '0'.toNat))
    else if c = '_' ∧ prev = true then digits false cs n
    else .error .value

/-- `int(text)`: surrounding white space, a sign, digits. -/
def pyInt (s : List Char) : Except PyErr Int :=
  match strip s with
  | '-' :: cs => (digits false cs 0).map (fun n => -(n : Int))
  | '+' :: cs => (digits false cs 0).map (fun n => (n : Int))
  | cs => (digits false cs 0).map (fun n => (n : Int))

/-- `text.split(c, maxsplit=1)`: the first piece and what follows the separator, if there is one. -/
def cut (c : Char) (s : List Char) : List Char × Option (List Char) :=
  match s with
  | [] => ([], none)
  | x :: xs => if x = c then ([], some xs) else ((x :: (cut c xs).1), (cut c xs).2)

/-! ### Lemmas -/

theorem strip_of_ends {s : List Char} (h1 : ∀ c, s.head? = some c → isSpace c = false)
    (h2 : ∀ c, s.getLast? = some c → isSpace c = false) : strip s = s := by
  have hd : ∀ (t : List Char), (∀ c, t.head? = some c → isSpace c = false) → t.dropWhile isSpace = t := by
    intro t ht
    cases t with
    | nil => rfl
    | cons c cs => rw [List.dropWhile_cons, ht c rfl]; rfl
  unfold strip
  rw [hd s h1, hd s.reverse (by rw [List.head?_reverse]; exact h2), List.reverse_reverse]

theorem dropWhile_head (s : List Char) (c : Char) (h : (s.dropWhile isSpace).head? = some c) :
    isSpace c = false := by
  induction s with
  | nil => cases h
  | cons x xs ih =>
    rw [List.dropWhile_cons] at h
    cases hx : isSpace x
    · rw [hx] at h
      simp at h
      subst h; exact hx
    · rw [hx] at h
      exact ih h

theorem dropWhile_suffix_last (s : List Char) (c : Char)
    (h : (s.dropWhile isSpace).getLast? = some c) : s.getLast? = some c := by
  obtain ⟨t, ht⟩ := List.dropWhile_suffix (l := s) isSpace
  rw [← ht]
  rw [List.getLast?_append, h]
  rfl

/-- Stripped text starts and ends without white space. -/
theorem strip_ends (s : List Char) :
    (∀ c, (strip s).head? = some c → isSpace c = false) ∧
    (∀ c, (strip s).getLast? = some c → isSpace c = false) := by
  unfold strip
  constructor
  · intro c hc
    rw [List.head?_reverse] at hc
    have := dropWhile_suffix_last _ c hc
    rw [List.getLast?_reverse] at this
    exact dropWhile_head s c this
  · intro c hc
    rw [List.getLast?_reverse] at hc
    exact dropWhile_head _ c hc

theorem strip_strip (s : List Char) : strip (strip s) = strip s :=
  strip_of_ends (strip_ends s).1 (strip_ends s).2

/-- White space in front does not matter. -/
theorem strip_space (s : List Char) : strip (' ' :: s) = strip s := by
  unfold strip
  rw [List.dropWhile_cons]
  rfl

theorem strip_mem {s : List Char} {c : Char} (h : c ∈ strip s) : c ∈ s := by
  unfold strip at h
  rw [List.mem_reverse] at h
  have h1 := (List.dropWhile_suffix (l := (s.dropWhile isSpace).reverse) isSpace).subset h
  rw [List.mem_reverse] at h1
  exact (List.dropWhile_suffix (l := s) isSpace).subset h1

theorem toLower_toLower (c : Char) : c.toLower.toLower = c.toLower := by
  by_cases h : c.val ≥ 65 ∧ c.val ≤ 90
  · have h1 := UInt32.le_iff_toNat_le.mp h.1
    have h2 := UInt32.le_iff_toNat_le.mp h.2
    have key : ∀ n : Fin 91, 65 ≤ n.val → (Char.ofNat n.val).toLower.toLower = (Char.ofNat n.val).toLower := by
      decide +kernel
    have hb : c.toNat ≤ 90 := h2
    have hc := key ⟨c.toNat, by omega⟩ h1
    rw [Char.ofNat_toNat] at hc
    exact hc
  · have e : c.toLower = c := by
      unfold Char.toLower
      split
      · rename_i hh; exact absurd hh h
      · rfl
    rw [e, e]

theorem lower_lower (s : List Char) : lower (lower s) = lower s := by
  simp [lower, toLower_toLower]

theorem digit_facts {c : Char} (h : c.isDigit = true) :
    isSpace c = false ∧ c ≠ '-' ∧ c ≠ '+' ∧ c ≠ ' ' ∧ c ≠ '.' ∧ c ≠ '/' ∧ c ≠ ':' ∧ c ≠ '\n' ∧ c ≠ '\r' ∧
      c.val.toNat < 128 := by
  have h' : 48 ≤ c.val.toNat ∧ c.val.toNat ≤ 57 := by
    unfold Char.isDigit at h
    simp only [Bool.and_eq_true, decide_eq_true_eq] at h
    have h1 := UInt32.le_iff_toNat_le.mp h.1
    have h2 := UInt32.le_iff_toNat_le.mp h.2
    simp at h1 h2
    exact ⟨h1, h2⟩
  have hne : ∀ d : Char, (d.val.toNat < 48 ∨ 57 < d.val.toNat) → c ≠ d := by
    intro d hd e; subst e; omega
  refine ⟨?_, hne _ (by decide), hne _ (by decide), hne _ (by decide), hne _ (by decide), hne _ (by decide),
    hne _ (by decide), hne _ (by decide), hne _ (by decide), by omega⟩
  have e : c.val.toNat = c.toNat := rfl
  unfold isSpace
  rw [e] at h' ⊢
  simp
  omega

theorem showNat_digit {n : Nat} {c : Char} (h : c ∈ showNat n) : c.isDigit = true :=
  Nat.isDigit_of_mem_toDigits (by decide) (by decide) h

theorem showNat_ne_nil (n : Nat) : showNat n ≠ [] := by
  have := @Nat.length_toDigits_pos 10 n
  intro h
  rw [showNat] at h
  rw [h] at this
  simp at this

theorem digits_spec (cs : List Char) (h : ∀ c ∈ cs, c.isDigit = true) (p : Bool) (n : Nat)
    (hp : p = true ∨ cs ≠ []) : digits p cs n = .ok (Nat.ofDigitChars 10 cs n) := by
  induction cs generalizing p n with
  | nil =>
    rcases hp with rfl | hp
    · rfl
    · exact absurd rfl hp
  | cons c cs ih =>
    rw [digits, if_pos (h c List.mem_cons_self), ih (fun d hd => h d (List.mem_cons_of_mem _ hd)) _ _ (Or.inl rfl),
      Nat.ofDigitChars_cons]

/-- Printed numbers are read back. -/
theorem pyInt_showNat (n : Nat) : pyInt (showNat n) = .ok n := by
  have hs : strip (showNat n) = showNat n := by
    apply strip_of_ends
    · intro c hc
      exact (digit_facts (showNat_digit (List.mem_of_mem_head? hc))).1
    · intro c hc
      exact (digit_facts (showNat_digit (List.mem_of_getLast? hc))).1
  have hd : digits false (showNat n) 0 = .ok n := by
    rw [digits_spec _ (fun c hc => showNat_digit hc) _ _ (Or.inr (showNat_ne_nil n)), showNat,
      Nat.ofDigitChars_ten_toDigits]
  unfold pyInt
  rw [hs]
  split
  · rename_i cs h
    exact absurd rfl (digit_facts (showNat_digit (n := n) (c := '-') (by rw [h]; exact List.mem_cons_self))).2.1
  · rename_i cs h
    exact absurd rfl (digit_facts (showNat_digit (n := n) (c := '+') (by rw [h]; exact List.mem_cons_self))).2.2.1
  · rw [hd]; rfl

theorem cut_append (c : Char) (a b : List Char) (h : c ∉ a) : cut c (a ++ c :: b) = (a, some b) := by
  induction a with
  | nil => simp [cut]
  | cons x xs ih =>
    have hx : x ≠ c := fun e => h (e ▸ List.mem_cons_self)
    have := ih (fun hm => h (List.mem_cons_of_mem _ hm))
    rw [List.cons_append, cut, if_neg hx, this]

theorem cut_none (c : Char) (a : List Char) (h : c ∉ a) : cut c a = (a, none) := by
  induction a with
  | nil => rfl
  | cons x xs ih =>
    have hx : x ≠ c := fun e => h (e ▸ List.mem_cons_self)
    have := ih (fun hm => h (List.mem_cons_of_mem _ hm))
    rw [cut, if_neg hx, this]

example : pyInt " 42 ".toList = .ok 42 ∧ pyInt "-1_000".toList = .ok (-1000) ∧
    pyInt "1__0".toList = .error .value ∧ pyInt "".toList = .error .value ∧ pyInt "4x".toList = .error .value := by
  decide +kernel

end Verif.Text
