import Verif.Registry.Model
import Verif.Server.Scripts
/-!
C120: which names are valid: `mixins/regex.py`, its use in `mapping.py` 62–65, `registry/name.py` 37–62,
`registry/bool.py` 12–26, `channel/registry.py` 38 and `primitives/field/__init__.py` 85–117; what names look
like inside namespaces; and what follows for command lines (`channel/environment/command/processor.py` 173–178,
`command/parser.py` 41–76) and for the page's scripts (C119).

The patterns are read from their texts by a parser of the part of Python's regular expressions they use; matching
is the standard relation. `\w` beyond ASCII is a parameter: letters and digits of Unicode, none of which is white
space. Of argparse only the classification of words is modelled, without words that contain `=`.
-/
namespace Verif.Names
open Verif Verif.Registry

abbrev Str := List Char

/-! ### Regular expressions -/

/-- An item of a class. -/
inductive Item where
  | word
  | one (c : Char)
  | range (a b : Char)
  deriving DecidableEq

/-- Expressions as far as they are used. -/
inductive Re where
  | cls (items : List Item)
  | bol
  | eol
  | seq (a b : Re)
  | plus (a : Re)
  deriving DecidableEq

/-- `\w`: what it is beyond ASCII. -/
structure Unicode where
  word : Char → Bool
  space : Char → Bool
  apart : ∀ c, word c = true → space c = false
  beyond : ∀ c, c.toNat < 128 → word c = false ∧ space c = false

variable (U : Unicode)

/-- ASCII letters and digits. -/
def asciiAlnum (c : Char) : Bool :=
  ('a' ≤ c && c ≤ 'z') || ('A' ≤ c && c ≤ 'Z') || ('0' ≤ c && c ≤ '9')

def isWord (c : Char) : Bool := asciiAlnum c || c == '_' || U.word c

def Item.has : Item → Char → Bool
  | .word, c => isWord U c
  | .one a, c => a == c
  | .range a b, c => a ≤ c && c ≤ b

/-- `Match s r i j`: `r` matches `s` from `i` to `j`. `$` also matches before a final line break. -/
inductive Match (s : Str) : Re → Nat → Nat → Prop
  | cls {items i c} : s[i]? = some c → items.any (fun x => x.has U c) = true → Match s (.cls items) i (i + 1)
  | bol : Match s .bol 0 0
  | eol : Match s .eol s.length s.length
  | eolBreak {i} : i + 1 = s.length → s[i]? = some '\n' → Match s .eol i i
  | seq {a b i j k} : Match s a i j → Match s b j k → Match s (.seq a b) i k
  | once {a i j} : Match s a i j → Match s (.plus a) i j
  | more {a i j k} : Match s a i j → Match s (.plus a) j k → Match s (.plus a) i k

/-- `Pattern.fullmatch`. -/
def Fullmatch (r : Re) (s : Str) : Prop := Match U s r 0 s.length

/-- `Pattern.match`. -/
def Prefixmatch (r : Re) (s : Str) : Prop := ∃ j, Match U s r 0 j

/-- The items of a class up to its bracket. -/
def items : Nat → Str → Option (List Item × Str)
  | 0, _ => none
  | n + 1, s =>
    match s with
    | [] => none
    | ']' :: r => some ([], r)
    | '\\' :: 'w' :: r => (items n r).map fun x => (.word :: x.1, x.2)
    | '\\' :: c :: r => (items n r).map fun x => (.one c :: x.1, x.2)
    | a :: '-' :: ']' :: r => some ([.one a, .one '-'], r)
    | a :: '-' :: b :: r => (items n r).map fun x => (.range a b :: x.1, x.2)
    | c :: r => (items n r).map fun x => (.one c :: x.1, x.2)

/-- A pattern of the form `^[…]+$`. -/
def compile (s : Str) : Option Re :=
  match s with
  | '^' :: '[' :: r =>
    match items r.length r with
    | some (l, ['+', '$']) => some (.seq .bol (.seq (.plus (.cls l)) .eol))
    | _ => none
  | _ => none

/-- `DEFAULT_PATTERN`, mixins/regex.py 14: the text of the pattern, after Python's own escapes. -/
def defaultText : Str := "^[\\w\\:.\\-_\\/]+$".toList
/-- `CHANNEL_PATTERN`, mixins/regex.py 15. -/
def channelText : Str := "^[a-zA-Z0-9_.-]+$".toList

/-- `validate_name`, mixins/regex.py 24–37, with `name_regex` as text. -/
noncomputable def validate (pattern : Option Str) (name : Str) : Bool :=
  match pattern with
  | none => true
  | some p =>
    match compile p with
    | none => false
    | some r => @decide (Fullmatch U r name) (Classical.propDecidable _)

/-- Names of channels, bit fields and bit flags. -/
noncomputable def channelValid (n : String) : Bool := validate U (some channelText) n.toList
/-- All other names: enumerations, their members. -/
noncomputable def defaultValid (n : String) : Bool := validate U (some defaultText) n.toList

/-! ### Namespaces and command lines -/

/-- `Namespace.namespace` of vcorelib: the names of the stack joined with dots. -/
def joined : List Str → Str
  | [] => []
  | [a] => a
  | a :: l => a ++ '.' :: joined l

/-- White space of ASCII for `str.split`. -/
def space (c : Char) : Bool := c == ' ' || c == '\t' || c == '\n' || c == '\r' || c == '\x0b' || c == '\x0c' ||
  c == '\x1c' || c == '\x1d' || c == '\x1e' || c == '\x1f' || U.space c

/-- `str.split()`: the word being read and those before it. -/
def splitGo (cur : Str) : Str → List Str
  | [] => if cur = [] then [] else [cur]
  | c :: r =>
    if space U c then (if cur = [] then splitGo [] r else cur :: splitGo [] r)
    else splitGo (cur ++ [c]) r

def words (s : Str) : List Str := splitGo U [] s

/-- What follows the digits after the dash; `d` are those digits. -/
def negRest (d : Str) : Str → Bool
  | [] => d != []
  | x :: t => x == '.' && t != [] && t.all Char.isDigit

/-- `^-\d+$|^-\d*\.\d+$`: argparse's negative numbers. -/
def negative : Str → Bool
  | '-' :: r => negRest (r.takeWhile Char.isDigit) (r.dropWhile Char.isDigit)
  | _ => false

/-- `ArgumentParser._parse_optional` for this parser (parser.py 41–76: options `-f`, `--force`, `-r`, `--remote`,
`-e`, `--env`, none of which looks like a number): whether a word is an argument rather than an option. -/
def isArgument (w : Str) : Bool :=
  match w with
  | [] => true
  | '-' :: r => r == [] || negative w
  | _ => true

/-! ### Theorems -/

variable {U}

theorem match_plus (s : Str) (l : List Item) (i j : Nat) (h : Match U s (.plus (.cls l)) i j) :
    i < j ∧ j ≤ s.length ∧ ∀ k, i ≤ k → k < j → ∃ c, s[k]? = some c ∧ l.any (fun x => x.has U c) = true := by
  have key : ∀ (r : Re) (i j : Nat), Match U s r i j → r = .plus (.cls l) →
      i < j ∧ j ≤ s.length ∧ ∀ k, i ≤ k → k < j → ∃ c, s[k]? = some c ∧ l.any (fun x => x.has U c) = true := by
    intro r i j h
    have one : ∀ i j, Match U s (.cls l) i j → j = i + 1 ∧ i < s.length ∧
        ∃ c, s[i]? = some c ∧ l.any (fun x => x.has U c) = true := by
      intro i j h
      cases h with
      | cls h1 h2 => exact ⟨rfl, (List.getElem?_eq_some_iff.mp h1).1, _, h1, h2⟩
    induction h with
    | cls => intro e; cases e
    | bol => intro e; cases e
    | eol => intro e; cases e
    | eolBreak => intro e; cases e
    | seq => intro e; cases e
    | once h1 =>
      intro e
      injection e with e
      subst e
      obtain ⟨rfl, hl, hc⟩ := one _ _ h1
      refine ⟨by omega, by omega, ?_⟩
      intro k h2 h3
      have : k = _ := Nat.le_antisymm (Nat.lt_succ_iff.mp h3) h2
      subst this
      exact hc
    | more h1 _ _ ih =>
      intro e
      obtain ⟨i1, i2, i3⟩ := ih e
      injection e with e
      subst e
      obtain ⟨rfl, hl, hc⟩ := one _ _ h1
      refine ⟨by omega, i2, ?_⟩
      intro k h2 h3
      rcases Nat.eq_or_lt_of_le h2 with h4 | h4
      · subst h4; exact hc
      · exact i3 k h4 h3
  exact key _ i j h rfl

theorem plus_match (s : Str) (l : List Item) (n i : Nat) (hi : i + (n + 1) ≤ s.length)
    (h : ∀ k, i ≤ k → k < i + (n + 1) → ∃ c, s[k]? = some c ∧ l.any (fun x => x.has U c) = true) :
    Match U s (.plus (.cls l)) i (i + (n + 1)) := by
  induction n generalizing i with
  | zero =>
    obtain ⟨c, h1, h2⟩ := h i (Nat.le_refl i) (by omega)
    exact .once (.cls h1 h2)
  | succ n ih =>
    obtain ⟨c, h1, h2⟩ := h i (Nat.le_refl i) (by omega)
    have := ih (i + 1) (by omega) (fun k a b => h k (by omega) (by omega))
    have e : i + 1 + (n + 1) = i + (n + 1 + 1) := by omega
    rw [e] at this
    exact .more (.cls h1 h2) this

/-- What `^[…]+$` matches in full. -/
theorem fullmatch_iff (l : List Item) (s : Str) :
    Fullmatch U (.seq .bol (.seq (.plus (.cls l)) .eol)) s ↔
      s ≠ [] ∧ ∀ c ∈ s, l.any (fun x => x.has U c) = true := by
  unfold Fullmatch
  constructor
  · intro h
    cases h with
    | seq h1 h2 =>
      cases h1
      cases h2 with
      | seq h3 h4 =>
        obtain ⟨a1, a2, a3⟩ := match_plus _ _ _ _ h3
        have hj : ∀ j, Match U s .eol j s.length → j = s.length := by
          intro j h
          generalize hk : s.length = k at h
          cases h with
          | eol => exact hk
          | eolBreak h _ => omega
        have := hj _ h4
        subst this
        refine ⟨by intro e; subst e; exact absurd a1 (Nat.lt_irrefl 0), ?_⟩
        intro c hc
        obtain ⟨k, hk, rfl⟩ := List.getElem_of_mem hc
        obtain ⟨c', b1, b2⟩ := a3 k (Nat.zero_le _) hk
        rw [List.getElem?_eq_getElem hk] at b1
        injection b1 with b1
        rw [b1]
        exact b2
  · rintro ⟨h1, h2⟩
    obtain ⟨n, hn⟩ : ∃ n, s.length = n + 1 := by
      cases s with
      | nil => exact absurd rfl h1
      | cons c s => exact ⟨s.length, rfl⟩
    refine .seq .bol (.seq ?_ .eol)
    have := plus_match (U := U) s l n 0 (by omega) (by
      intro k _ hk
      have hk' : k < s.length := by omega
      exact ⟨s[k], List.getElem?_eq_getElem hk', h2 _ (List.getElem_mem hk')⟩)
    rw [Nat.zero_add, ← hn] at this
    exact this

theorem compile_channel : compile channelText =
    some (.seq .bol (.seq (.plus (.cls [.range 'a' 'z', .range 'A' 'Z', .range '0' '9', .one '_', .one '.', .one '-'])) .eol)) := by
  decide +kernel

theorem compile_default : compile defaultText =
    some (.seq .bol (.seq (.plus (.cls [.word, .one ':', .one '.', .one '-', .one '_', .one '/'])) .eol)) := by
  decide +kernel

/-- C120: a channel's name is one or more ASCII letters, digits, underscores, dots and dashes; nothing else, not even
a line break at the end. -/
theorem C120_channel (n : String) : channelValid U n = true ↔
    n.toList ≠ [] ∧ ∀ c ∈ n.toList, ('a' ≤ c ∧ c ≤ 'z') ∨ ('A' ≤ c ∧ c ≤ 'Z') ∨ ('0' ≤ c ∧ c ≤ '9') ∨
      c = '_' ∨ c = '.' ∨ c = '-' := by
  unfold channelValid validate
  dsimp only
  rw [compile_channel]
  dsimp only
  rw [@decide_eq_true_iff _ (Classical.propDecidable _), fullmatch_iff]
  simp only [List.any_cons, List.any_nil, Item.has, Bool.or_eq_true, Bool.and_eq_true, decide_eq_true_eq, beq_iff_eq,
    Bool.or_false]
  constructor
  · rintro ⟨h1, h2⟩
    refine ⟨h1, fun c hc => ?_⟩
    rcases h2 c hc with h | h | h | h | h | h
    · exact .inl h
    · exact .inr (.inl h)
    · exact .inr (.inr (.inl h))
    · exact .inr (.inr (.inr (.inl h.symm)))
    · exact .inr (.inr (.inr (.inr (.inl h.symm))))
    · exact .inr (.inr (.inr (.inr (.inr h.symm))))
  · rintro ⟨h1, h2⟩
    refine ⟨h1, fun c hc => ?_⟩
    rcases h2 c hc with h | h | h | h | h | h
    · exact .inl h
    · exact .inr (.inl h)
    · exact .inr (.inr (.inl h))
    · exact .inr (.inr (.inr (.inl h.symm)))
    · exact .inr (.inr (.inr (.inr (.inl h.symm))))
    · exact .inr (.inr (.inr (.inr (.inr h.symm))))

/-- C120: all other names are one or more letters or digits of any script, underscores, colons, dots, dashes and
slashes. -/
theorem C120_default (n : String) : defaultValid U n = true ↔
    n.toList ≠ [] ∧ ∀ c ∈ n.toList, (('a' ≤ c ∧ c ≤ 'z') ∨ ('A' ≤ c ∧ c ≤ 'Z') ∨ ('0' ≤ c ∧ c ≤ '9') ∨ c = '_' ∨
      U.word c = true) ∨ c = ':' ∨ c = '.' ∨ c = '-' ∨ c = '/' := by
  unfold defaultValid validate
  dsimp only
  rw [compile_default]
  dsimp only
  rw [@decide_eq_true_iff _ (Classical.propDecidable _), fullmatch_iff]
  simp only [List.any_cons, List.any_nil, Item.has, isWord, asciiAlnum, Bool.or_eq_true, Bool.and_eq_true,
    decide_eq_true_eq, beq_iff_eq, Bool.or_false]
  constructor
  · rintro ⟨h1, h2⟩
    refine ⟨h1, fun c hc => ?_⟩
    have := h2 c hc
    grind
  · rintro ⟨h1, h2⟩
    refine ⟨h1, fun c hc => ?_⟩
    have := h2 c hc
    grind

/-- C120: a class without a pattern takes every name. -/
theorem C120_unrestricted (name : Str) : validate U none name = true := rfl

/-- C120: a name that is good for a channel is good everywhere. -/
theorem C120_narrower (n : String) (h : channelValid U n = true) : defaultValid U n = true := by
  rw [C120_default]
  obtain ⟨h1, h2⟩ := (C120_channel n).mp h
  refine ⟨h1, fun c hc => ?_⟩
  have := h2 c hc
  grind

/-! #### Registries -/

/-- All names of a mapping. -/
def AllValid {K : Type} (v : String → Bool) (m : Mapping K) : Prop :=
  (∀ p ∈ m.mapping, v p.2 = true) ∧ (∀ p ∈ m.reverse, v p.1 = true) ∧ ∀ n ∈ m.order, v n = true

theorem mem_dset' {α β : Type} [DecidableEq α] (d : List (α × β)) (k : α) (x : β) (p : α × β) (h : p ∈ dset d k x) :
    p ∈ d ∨ p = (k, x) := by
  induction d with
  | nil =>
    unfold dset at h
    simp at h
    exact .inr h
  | cons q d ih =>
    unfold dset at h
    grind [dset]

theorem set_valid {K : Type} [DecidableEq K] (v : String → Bool) (m : Mapping K) (k : K) (n : String) (h : AllValid v m) :
    AllValid v (m.set v k n).1 := by
  unfold Mapping.set
  split
  · rename_i hv
    obtain ⟨h1, h2, h3⟩ := h
    have f1 : ∀ p ∈ dset m.mapping k n, v p.2 = true := by
      intro p hp
      rcases mem_dset' _ _ _ _ hp with hp | rfl
      · exact h1 p hp
      · exact hv
    have f2 : ∀ p ∈ dset m.reverse n k, v p.1 = true := by
      intro p hp
      rcases mem_dset' _ _ _ _ hp with hp | rfl
      · exact h2 p hp
      · exact hv
    have f3 : ∀ x ∈ m.order ++ [n], v x = true := by
      intro x hx
      rcases List.mem_append.mp hx with hx | hx
      · exact h3 x hx
      · rw [List.mem_singleton.mp hx]; exact hv
    cases hd : dget m.mapping k with
    | none =>
      simp only [if_true]
      split
      · exact ⟨f1, f2, f3⟩
      · exact ⟨f1, h2, h3⟩
    | some c =>
      simp only
      split
      · split
        · exact ⟨h1, f2, f3⟩
        · exact ⟨h1, h2, h3⟩
      · exact ⟨h1, h2, h3⟩
  · exact h

theorem load_valid {K : Type} [DecidableEq K] (v : String → Bool) (l : List (K × String)) (m : Mapping K)
    (h : AllValid v m) : AllValid v (m.load v l).1 := by
  induction l generalizing m with
  | nil => exact h
  | cons p l ih =>
    have hs := set_valid v m p.1 p.2 h
    rw [Mapping.load]
    split
    · rename_i m' he
      rw [he] at hs
      exact ih m' hs
    · rename_i m' e he
      rw [he] at hs
      exact hs

theorem register_valid (v : String → Bool) (r : NameReg) (n : String) (i : Option Int) (h : AllValid v r.map) :
    AllValid v (r.register v n i).1.map := by
  unfold NameReg.register
  split
  · split <;> exact h
  · split
    · have key : ∀ (r' : NameReg) (ident : Int), r'.map = r.map →
          AllValid v (if (dget r'.map.mapping ident).isSome = true then (r', Except.ok none)
            else match r'.map.set v ident n with
              | (m, .ok ()) => ({ r' with map := m }, .ok (some ident))
              | (m, .error e) => ({ r' with map := m }, .error e) : NameReg × Except PyErr (Option Int)).1.map := by
        intro r' ident hm
        rw [hm]
        split
        · rw [hm]; exact h
        · have hs := set_valid v r.map ident n h
          split
          · rename_i m he; rw [he] at hs; exact hs
          · rename_i m e he; rw [he] at hs; exact hs
      cases i with
      | none => exact key { r with current := nextFree r.map.mapping r.map.mapping.length r.current } _ rfl
      | some i => exact key r i rfl
    · exact h

/-- C120: a registry never holds an invalid name: neither as it is made nor after any registrations, refused and
failing ones included. -/
theorem C120_registry (v : String → Bool) (mapping : List (Int × String)) (reverse : List (String × Int)) (r : NameReg)
    (hr : NameReg.new v mapping reverse = .ok r) (ops : List (String × Option Int)) :
    AllValid v (ops.foldl (fun r o => (r.register v o.1 o.2).1) r).map := by
  have h0 : AllValid v r.map := by
    unfold NameReg.new at hr
    split at hr
    · cases hr
    · rename_i m hm
      injection hr with hr
      rw [← hr]
      show AllValid v m
      unfold Mapping.new at hm
      have he : AllValid v (Mapping.empty : Mapping Int) := by
        refine ⟨?_, ?_, ?_⟩ <;> intro p hp <;> cases hp
      have h1 := load_valid v mapping Mapping.empty he
      split at hm
      · cases hm
      · rename_i m1 e1
        rw [e1] at h1
        have h2 := load_valid v (reverse.map (fun p => (p.2, p.1))) m1 h1
        split at hm
        · cases hm
        · rename_i m2 e2
          rw [e2] at h2
          injection hm with hm
          rw [← hm]
          exact h2
  induction ops generalizing r with
  | nil => exact h0
  | cons o ops ih =>
    rw [List.foldl_cons]
    have h1 := register_valid v r o.1 o.2 h0
    clear ih hr
    generalize (r.register v o.1 o.2).1 = r1 at h1
    induction ops generalizing r1 with
    | nil => exact h1
    | cons o' ops ih =>
      rw [List.foldl_cons]
      exact ih _ (register_valid v r1 o'.1 o'.2 h1)

/-- C120: nor does a boolean enumeration. -/
theorem C120_boolean {K : Type} [DecidableEq K] (v : String → Bool) (m : Mapping K) (h : AllValid v m)
    (ops : List (String × K)) : AllValid v (ops.foldl (fun m o => (m.register v o.1 o.2).1) m) := by
  induction ops generalizing m with
  | nil => exact h
  | cons o ops ih =>
    rw [List.foldl_cons]
    apply ih
    unfold Mapping.register
    split
    · exact h
    · rename_i hc
      have hv : v o.1 = true := by
        cases hv : v o.1 with
        | true => rfl
        | false => rw [hv] at hc; simp at hc
      refine ⟨?_, ?_, h.2.2⟩
      · intro p hp
        rcases mem_dset' _ _ _ _ hp with hp | rfl
        · exact h.1 p hp
        · exact hv
      · intro p hp
        rcases mem_dset' _ _ _ _ hp with hp | rfl
        · exact h.2.1 p hp
        · exact hv

/-- C120: a valid name is registered at once if neither it nor the identifier is taken. -/
theorem C120_accepted (n : String) (i : Int) (r : NameReg) (h : channelValid U n = true)
    (h1 : dget r.map.reverse n = none) (h2 : dget r.map.mapping i = none) :
    (r.register (channelValid U) n (some i)).2 = .ok (some i) := by
  unfold NameReg.register Mapping.identifier Mapping.set
  simp [h1, h2, h]

/-! #### Namespaces -/

theorem mem_joined (l : List Str) (c : Char) : c ∈ joined l ↔ (∃ a ∈ l, c ∈ a) ∨ (c = '.' ∧ 2 ≤ l.length) := by
  induction l with
  | nil => simp [joined]
  | cons a l ih =>
    cases l with
    | nil => simp [joined]
    | cons b l =>
      rw [joined]
      · rw [List.mem_append, List.mem_cons, ih]
        simp only [List.mem_cons, List.length_cons]
        grind
      · simp

theorem joined_nil (l : List Str) : joined l = [] ↔ l = [] ∨ l = [[]] := by
  cases l with
  | nil => simp [joined]
  | cons a l =>
    cases l with
    | nil => simp [joined]
    | cons b l =>
      rw [joined]
      · simp
      · simp

/-- C120: inside namespaces a channel's name is valid exactly if all parts consist of valid characters and there is
more than one part or a part that is not empty. -/
theorem C120_joined (l : List Str) : channelValid U (String.ofList (joined l)) = true ↔
    (2 ≤ l.length ∨ ∃ a ∈ l, a ≠ []) ∧ ∀ a ∈ l, ∀ c ∈ a, ('a' ≤ c ∧ c ≤ 'z') ∨ ('A' ≤ c ∧ c ≤ 'Z') ∨
      ('0' ≤ c ∧ c ≤ '9') ∨ c = '_' ∨ c = '.' ∨ c = '-' := by
  rw [C120_channel, String.toList_ofList]
  constructor
  · rintro ⟨h1, h2⟩
    refine ⟨?_, fun a ha c hc => h2 c ((mem_joined l c).mpr (.inl ⟨a, ha, hc⟩))⟩
    cases l with
    | nil => exact absurd rfl h1
    | cons a l =>
      cases l with
      | nil => exact .inr ⟨a, List.mem_cons_self, h1⟩
      | cons b l => exact .inl (by simp)
  · rintro ⟨h1, h2⟩
    refine ⟨?_, fun c hc => ?_⟩
    · intro h
      rcases (joined_nil l).mp h with rfl | rfl
      · rcases h1 with h1 | ⟨a, ha, -⟩
        · exact absurd h1 (by decide)
        · cases ha
      · rcases h1 with h1 | ⟨a, ha, hn⟩
        · exact absurd h1 (by decide)
        · exact hn (List.mem_singleton.mp ha)
    · rcases (mem_joined l c).mp hc with ⟨a, ha, hc⟩ | ⟨rfl, -⟩
      · exact h2 a ha c hc
      · exact .inr (.inr (.inr (.inr (.inl rfl))))

/-- C120: names in different namespaces are different if no part has a dot. -/
theorem C120_apart (l m : List Str) (hl : ∀ a ∈ l, '.' ∉ a) (hm : ∀ a ∈ m, '.' ∉ a) (nl : l ≠ []) (nm : m ≠ [])
    (h : joined l = joined m) : l = m := by
  have cut : ∀ (a b x y : Str), '.' ∉ a → '.' ∉ b → a ++ '.' :: x = b ++ '.' :: y → a = b ∧ x = y := by
    intro a
    induction a with
    | nil =>
      intro b x y _ hb h
      cases b with
      | nil => injection h with _ h; exact ⟨rfl, h⟩
      | cons c b => injection h with h _; exact absurd (h ▸ List.mem_cons_self) hb
    | cons c a ih =>
      intro b x y ha hb h
      cases b with
      | nil => injection h with h _; exact absurd (h ▸ List.mem_cons_self) ha
      | cons d b =>
        injection h with h1 h2
        obtain ⟨e1, e2⟩ := ih b x y (fun h => ha (List.mem_cons_of_mem _ h)) (fun h => hb (List.mem_cons_of_mem _ h)) h2
        exact ⟨by rw [h1, e1], e2⟩
  induction l generalizing m with
  | nil => exact absurd rfl nl
  | cons a l ih =>
    cases m with
    | nil => exact absurd rfl nm
    | cons b m =>
      have ha := hl a List.mem_cons_self
      have hb := hm b List.mem_cons_self
      have jc : ∀ (a b : Str) (l : List Str), joined (a :: b :: l) = a ++ '.' :: joined (b :: l) := fun _ _ _ => rfl
      cases l with
      | nil =>
        cases m with
        | nil => rw [show a = b from h]
        | cons c m =>
          rw [jc] at h
          have h' : a = b ++ '.' :: joined (c :: m) := h
          exact absurd (h' ▸ List.mem_append_right _ List.mem_cons_self) ha
      | cons c l =>
        cases m with
        | nil =>
          rw [jc] at h
          have h' : a ++ '.' :: joined (c :: l) = b := h
          exact absurd (h' ▸ List.mem_append_right _ List.mem_cons_self) hb
        | cons d m =>
          rw [jc, jc] at h
          obtain ⟨e1, e2⟩ := cut _ _ _ _ ha hb h
          rw [e1, ih (d :: m) (fun x hx => hl x (List.mem_cons_of_mem _ hx)) (fun x hx => hm x (List.mem_cons_of_mem _ hx))
            (by simp) (by simp) e2]

/-- C120: with dots in names, channels of different namespaces get the same name. -/
theorem C120_collision_fails (a b c : Str) :
    joined [a, b ++ '.' :: c] = joined [a ++ '.' :: b, c] ∧ joined [a, b ++ '.' :: c] = joined [a, b, c] := by
  simp [joined]

/-! #### Command lines -/

theorem small (c d : Char) (h : c ≤ d) (hd : d.toNat < 128) : c.toNat < 128 := by
  have : c.val.toNat ≤ d.val.toNat := UInt32.le_iff_toNat_le.mp h
  exact Nat.lt_of_le_of_lt this hd

theorem ascii_of_channel (c : Char) (h : ('a' ≤ c ∧ c ≤ 'z') ∨ ('A' ≤ c ∧ c ≤ 'Z') ∨ ('0' ≤ c ∧ c ≤ '9') ∨
    c = '_' ∨ c = '.' ∨ c = '-') : c.toNat < 128 := by
  rcases h with h | h | h | rfl | rfl | rfl
  · exact small _ _ h.2 (by decide)
  · exact small _ _ h.2 (by decide)
  · exact small _ _ h.2 (by decide)
  all_goals decide

theorem not_space (n : String) (h : channelValid U n = true) : ∀ c ∈ n.toList, space U c = false := by
  intro c hc
  have hx := ((C120_channel n).mp h).2 c hc
  have ha := U.beyond c (ascii_of_channel c hx)
  unfold space
  rw [ha.2, Bool.or_false]
  have hne : ∀ d ∈ [' ', '\t', '\n', '\r', '\x0b', '\x0c', '\x1c', '\x1d', '\x1e', '\x1f'], c ≠ d := by
    intro d hd e
    subst e
    revert hd hx
    simp only [List.mem_cons, List.not_mem_nil, or_false]
    rintro hx (rfl | rfl | rfl | rfl | rfl | rfl | rfl | rfl | rfl | rfl)
    all_goals (revert hx; decide)
  simp only [List.mem_cons, List.not_mem_nil, or_false, forall_eq_or_imp, forall_eq] at hne
  obtain ⟨a1, a2, a3, a4, a5, a6, a7, a8, a9, a10⟩ := hne
  simp [a1, a2, a3, a4, a5, a6, a7, a8, a9, a10]

theorem splitGo_word (w cur r : Str) (h : ∀ c ∈ w, space U c = false) : splitGo U cur (w ++ r) = splitGo U (cur ++ w) r := by
  induction w generalizing cur with
  | nil => simp
  | cons c w ih =>
    rw [List.cons_append, splitGo, h c List.mem_cons_self]
    simp only [Bool.false_eq_true, if_false]
    rw [ih _ (fun d hd => h d (List.mem_cons_of_mem _ hd)), List.append_assoc]
    rfl

theorem splitGo_space (cur r : Str) (hc : cur ≠ []) : splitGo U cur (' ' :: r) = cur :: splitGo U [] r := by
  have : space U ' ' = true := rfl
  rw [splitGo, if_pos this, if_neg hc]

/-- C120: in a command line a channel's name is a word of its own, as it is written; with any value that has no white
space the line has three words. -/
theorem C120_words (cmd : Str) (n : String) (value : Str) (hn : channelValid U n = true) (hc : cmd ≠ [])
    (hs : ∀ c ∈ cmd, space U c = false) (hv : value ≠ []) (hw : ∀ c ∈ value, space U c = false) :
    words U (cmd ++ ' ' :: (n.toList ++ ' ' :: value)) = [cmd, n.toList, value] := by
  unfold words
  rw [splitGo_word cmd [] _ hs, List.nil_append, splitGo_space _ _ hc, splitGo_word n.toList [] _ (not_space n hn),
    List.nil_append, splitGo_space _ _ ((C120_channel n).mp hn).1]
  have := splitGo_word value [] [] hw
  rw [List.append_nil] at this
  rw [this, List.nil_append, splitGo, if_neg hv]

/-- C120: the parser takes a word, such as a channel's name, for an argument, not for an option, exactly if it does not begin with a
dash or is a lone dash or a negative number. -/
theorem C120_argument (w : Str) :
    isArgument w = true ↔ (∀ r, w ≠ '-' :: r) ∨ w = ['-'] ∨
      (∃ d, w = '-' :: d ∧ d ≠ [] ∧ ∀ c ∈ d, c.isDigit = true) ∨
      ∃ d e, w = '-' :: (d ++ '.' :: e) ∧ e ≠ [] ∧ (∀ c ∈ d, c.isDigit = true) ∧ ∀ c ∈ e, c.isDigit = true := by
  cases w with
  | nil => simp [isArgument]
  | cons c r =>
    by_cases hc : c = '-'
    · subst hc
      have hneg : negative ('-' :: r) = true ↔ (r ≠ [] ∧ ∀ c ∈ r, c.isDigit = true) ∨
          ∃ d e, r = d ++ '.' :: e ∧ e ≠ [] ∧ (∀ c ∈ d, c.isDigit = true) ∧ ∀ c ∈ e, c.isDigit = true := by
        show negRest _ _ = true ↔ _
        have hsplit := List.takeWhile_append_dropWhile (p := Char.isDigit) (l := r)
        have htk : ∀ c ∈ r.takeWhile Char.isDigit, c.isDigit = true := by
          intro c hc
          have := List.all_takeWhile (p := Char.isDigit) (l := r)
          exact List.all_eq_true.mp this c hc
        cases ht : r.dropWhile Char.isDigit with
        | nil =>
          rw [ht, List.append_nil] at hsplit
          rw [negRest, bne_iff_ne]
          constructor
          · intro h
            exact .inl ⟨by rw [← hsplit]; exact h, by rw [← hsplit]; exact htk⟩
          · rintro (⟨h1, h2⟩ | ⟨d, e, rfl, -, -, -⟩)
            · rw [hsplit]; exact h1
            · exfalso
              have := htk '.' (by rw [hsplit]; simp)
              revert this; decide
        | cons x t =>
          rw [ht] at hsplit
          have hx : x.isDigit = false := by
            have h0 := List.head?_dropWhile_not Char.isDigit r
            rw [ht] at h0
            simpa using h0
          have hno : ¬ (r ≠ [] ∧ ∀ c ∈ r, c.isDigit = true) := by
            rintro ⟨-, h⟩
            have := h x (by rw [← hsplit]; simp)
            rw [hx] at this
            cases this
          have uniq : ∀ (a d : Str) (x : Char) (t e : Str), (∀ c ∈ a, c.isDigit = true) → (∀ c ∈ d, c.isDigit = true) →
              x.isDigit = false → a ++ x :: t = d ++ '.' :: e → x = '.' ∧ t = e := by
            intro a
            induction a with
            | nil =>
              intro d x t e _ hd hx h
              cases d with
              | nil => injection h with h1 h2; exact ⟨h1, h2⟩
              | cons y d =>
                injection h with h1 h2
                have := hd y List.mem_cons_self
                rw [← h1, hx] at this
                cases this
            | cons z a ih =>
              intro d x t e ha hd hx h
              cases d with
              | nil =>
                injection h with h1 h2
                have := ha z List.mem_cons_self
                rw [h1] at this
                exact absurd this (by decide)
              | cons y d =>
                injection h with h1 h2
                exact ih d x t e (fun c hc => ha c (List.mem_cons_of_mem _ hc)) (fun c hc => hd c (List.mem_cons_of_mem _ hc)) hx h2
          rw [negRest, Bool.and_eq_true, Bool.and_eq_true, beq_iff_eq, bne_iff_ne, List.all_eq_true]
          constructor
          · rintro ⟨⟨rfl, h1⟩, h2⟩
            exact .inr ⟨_, t, hsplit.symm, h1, htk, h2⟩
          · rintro (h | ⟨d, e, h1, h2, h3, h4⟩)
            · exact absurd h hno
            · obtain ⟨h5, h6⟩ := uniq _ d x t e htk h3 hx (hsplit.trans h1)
              exact ⟨⟨h5, by rw [h6]; exact h2⟩, by rw [h6]; exact h4⟩
      show (r == [] || negative ('-' :: r)) = true ↔ _
      rw [Bool.or_eq_true, hneg, beq_iff_eq]
      constructor
      · rintro (h | ⟨h1, h2⟩ | ⟨d, e, h1, h2⟩)
        · exact .inr (.inl (by rw [h]))
        · exact .inr (.inr (.inl ⟨r, rfl, h1, h2⟩))
        · exact .inr (.inr (.inr ⟨d, e, by rw [h1], h2⟩))
      · rintro (h | h | ⟨d, h1, h2⟩ | ⟨d, e, h1, h2⟩)
        · exact absurd rfl (h r)
        · injection h with _ h; exact .inl h
        · injection h1 with _ h1; subst h1; exact .inr (.inl h2)
        · injection h1 with _ h1; exact .inr (.inr ⟨d, e, h1, h2⟩)
    · have : isArgument (c :: r) = true := by
        unfold isArgument
        split
        · rfl
        · rename_i h; injection h with h _; exact absurd h hc
        · rfl
      rw [this]
      refine iff_of_true rfl (.inl ?_)
      intro r' h
      injection h with h _
      exact hc h

/-- C120: a channel may be named like an option; no command without `--` reaches it. -/
theorem C120_option_fails (n : String) (r : Str) (a : Char) (h : n.toList = '-' :: a :: r) (hd : a.isDigit = false)
    (hp : a ≠ '.') : isArgument n.toList = false := by
  rw [h]
  have e : isArgument ('-' :: a :: r) = ((a :: r) == [] || negRest ((a :: r).takeWhile Char.isDigit)
    ((a :: r).dropWhile Char.isDigit)) := rfl
  rw [e, List.dropWhile_cons, hd]
  simp [negRest, hp]

/-! #### The page -/

theorem default_safe (c : Char) (h : (('a' ≤ c ∧ c ≤ 'z') ∨ ('A' ≤ c ∧ c ≤ 'Z') ∨ ('0' ≤ c ∧ c ≤ '9') ∨ c = '_' ∨
    U.word c = true) ∨ c = ':' ∨ c = '.' ∨ c = '-' ∨ c = '/') (d : Char) (hd : d ∈ ['"', '\\', '\n', '\r', '<']) : c ≠ d := by
  rintro rfl
  have hw : U.word c = false := by
    refine (U.beyond c ?_).1
    revert hd
    simp only [List.mem_cons, List.not_mem_nil, or_false]
    rintro (rfl | rfl | rfl | rfl | rfl) <;> decide
  rw [hw] at h
  revert h hd
  simp only [List.mem_cons, List.not_mem_nil, or_false]
  rintro h (rfl | rfl | rfl | rfl | rfl)
  all_goals (revert h; decide)

theorem toLower_lt (c : Char) (h4 : c.toLower = '<') : c = '<' := by
  unfold Char.toLower at h4
  split at h4
  · rename_i hu
    exfalso
    have h6 : c.val + 32 = 60 := congrArg (fun c : Char => c.val) h4
    have h8 : (c.val.toNat + 32) % 4294967296 = 60 := by
      have := congrArg UInt32.toNat h6
      rw [UInt32.toNat_add] at this
      exact this
    have h9 : 65 ≤ c.val.toNat := UInt32.le_iff_toNat_le.mp hu.1
    have h10 : c.val.toNat ≤ 90 := UInt32.le_iff_toNat_le.mp hu.2
    omega
  · exact h4

theorem no_bracket (p s : Str) (q : Char) (hq : ∀ c ∈ s, c.toLower ≠ q) : ¬ Server.Scripts.Occurs (q :: p) s := by
  rintro ⟨a, b, h1, h2⟩
  cases b with
  | nil => cases h2
  | cons c b =>
    rw [Server.Scripts.startsCI, Bool.and_eq_true] at h2
    have : c.toLower = q := by simpa using h2.1
    exact hq c (by rw [h1]; simp) this

/-- C120: a valid name can be a tab's name: it is safe in the page's scripts and the tab's object gets it as it is
(C119). -/
theorem C120_page (escape : Char → Option Char) (n : String) (rest : Str) (h : defaultValid U n = true) :
    Server.Scripts.Clean n.toList ∧
    Server.Scripts.literal escape (n.toList ++ '"' :: rest) = some (n.toList, rest) := by
  have hs := ((C120_default n).mp h).2
  have hb : ∀ c ∈ n.toList, c.toLower ≠ '<' := by
    intro c hc e
    exact default_safe c (hs c hc) '<' (by simp) (toLower_lt c e)
  refine ⟨⟨?_, ?_⟩, ?_⟩
  · rw [Server.Scripts.consts.1]
    exact no_bracket _ _ _ hb
  · rw [Server.Scripts.consts.2.1]
    exact no_bracket _ _ _ hb
  · rw [Server.Scripts.C119_name]
    intro c hc
    have := default_safe c (hs c hc)
    exact ⟨this _ (by simp), this _ (by simp), this _ (by simp), this _ (by simp)⟩

/-! ### Cases -/

/-- Letters beyond ASCII: here `é`. -/
def exU : Unicode where
  word c := c == 'é'
  space c := c == '\u00a0'
  apart c h := by
    have : c = 'é' := by simpa using h
    subst this
    decide
  beyond c h := by
    constructor
    · cases hc : (c == 'é') with
      | false => rfl
      | true => have : c = 'é' := by simpa using hc
                subst this; revert h; decide
    · cases hc : (c == '\u00a0') with
      | false => rfl
      | true => have : c = '\u00a0' := by simpa using hc
                subst this; revert h; decide

/-- C120: `match` instead of `fullmatch` would accept a line break at the end. -/
theorem C120_break (U : Unicode) : Prefixmatch U (.seq .bol (.seq (.plus (.cls [.range 'a' 'z'])) .eol)) ['a', '\n'] ∧
    ¬ Fullmatch U (.seq .bol (.seq (.plus (.cls [.range 'a' 'z'])) .eol)) ['a', '\n'] := by
  constructor
  · exact ⟨1, .seq .bol (.seq (.once (.cls (c := 'a') rfl rfl)) (.eolBreak rfl rfl))⟩
  · rw [fullmatch_iff]
    rintro ⟨-, h⟩
    have := h '\n' (by simp)
    revert this
    simp [Item.has]

theorem C120_cases :
    channelValid exU "fields.flag_1-a" = true ∧ channelValid exU "" = false ∧ channelValid exU "a b" = false ∧
    channelValid exU "a\n" = false ∧ channelValid exU "é" = false ∧ defaultValid exU "é/a:b" = true ∧
    defaultValid exU "a<b" = false ∧
    words exU "set  a.b 5 ".toList = ["set".toList, "a.b".toList, "5".toList] ∧
    isArgument "-5".toList = true ∧ isArgument "-1.5".toList = true ∧ isArgument "-.".toList = false ∧
    isArgument "-x".toList = false ∧ isArgument "--".toList = false ∧ isArgument "-".toList = true ∧
    joined ["a".toList, "b".toList, "c".toList] = "a.b.c".toList := by
  have no : ∀ (b : Bool), ¬ b = true → b = false := by intro b; cases b <;> simp
  refine ⟨?_, ?_, ?_, ?_, ?_, ?_, ?_, ?_⟩
  · rw [C120_channel]; decide +kernel
  · apply no; rw [C120_channel]; decide +kernel
  · apply no; rw [C120_channel]; decide +kernel
  · apply no; rw [C120_channel]; decide +kernel
  · apply no; rw [C120_channel]; decide +kernel
  · rw [C120_default]; decide +kernel
  · apply no; rw [C120_default]; decide +kernel
  · decide +kernel

end Verif.Names
