import Verif.Base
/-!
`str.splitlines` of Python.
-/
namespace Verif

/-- The characters `str.splitlines` breaks lines at. -/
def isBreak (c : Char) : Bool :=
  c = '\n' || c = '\r' || c = '\x0b' || c = '\x0c' || c = '\x1c' || c = '\x1d' || c = '\x1e'
    || c = '\u0085' || c = '\u2028' || c = '\u2029'

/-- `str.splitlines()`, with the line read so far. -/
def linesFrom (cur : List Char) : List Char → List (List Char)
  | [] => if cur = [] then [] else [cur]
  | '\r' :: '\n' :: r => cur :: linesFrom [] r
  | c :: r => if isBreak c then cur :: linesFrom [] r else linesFrom (cur ++ [c]) r

/-- `str.splitlines()`. -/
def splitLines (s : List Char) : List (List Char) := linesFrom [] s

/-- The line ends used below. -/
inductive Eol where
  | lf
  | crlf

def Eol.chars : Eol → List Char
  | .lf => ['\n']
  | .crlf => ['\r', '\n']

theorem linesFrom_plain (cur : List Char) (c : Char) (r : List Char) (h : isBreak c = false) :
    linesFrom cur (c :: r) = linesFrom (cur ++ [c]) r := by
  have hr : c ≠ '\r' := by rintro rfl; simp [isBreak] at h
  rw [linesFrom, if_neg (by rw [h]; decide)]
  intro r' e
  exact absurd e hr

theorem linesFrom_append (l cur r : List Char) (h : ∀ c ∈ l, isBreak c = false) :
    linesFrom cur (l ++ r) = linesFrom (cur ++ l) r := by
  induction l generalizing cur with
  | nil => rw [List.append_nil]; rfl
  | cons c l ih =>
    rw [List.cons_append, linesFrom_plain _ _ _ (h c List.mem_cons_self),
      ih _ (fun d hd => h d (List.mem_cons_of_mem _ hd)), List.append_assoc]
    rfl

theorem linesFrom_eol (e : Eol) (cur r : List Char) : linesFrom cur (e.chars ++ r) = cur :: linesFrom [] r := by
  cases e with
  | lf =>
    show linesFrom cur ('\n' :: r) = _
    rw [linesFrom, if_pos (by decide)]
    intro r' e
    exact absurd e (by decide)
  | crlf => rfl

/-- The line ends of Python that are one character, as its documentation lists them. -/
def lineEnds : List Char := ['\n', '\r', '\x0b', '\x0c', '\x1c', '\x1d', '\x1e', '\u0085', '\u2028', '\u2029']

/-- A character breaks a line exactly if it is one of these. -/
theorem isBreak_iff (c : Char) : isBreak c = true ↔ c ∈ lineEnds := by
  simp [isBreak, lineEnds, or_assoc]

/-- Each of them ends a line. -/
theorem splitLines_break (l : List Char) (c : Char) (r : List Char) (h : ∀ x ∈ l, x ∉ lineEnds) (hc : c ∈ lineEnds)
    (hr : ¬ (c = '\r' ∧ r.head? = some '\n')) : splitLines (l ++ c :: r) = l :: splitLines r := by
  rw [splitLines, linesFrom_append _ _ _ (fun x hx => by
    have := h x hx; rw [← isBreak_iff] at this; simpa using this), List.nil_append]
  rw [linesFrom, if_pos ((isBreak_iff c).mpr hc)]
  · rfl
  · rintro r' rfl rfl
    exact hr ⟨rfl, rfl⟩

/-- A line and its end are split off. -/
theorem splitLines_line (l : List Char) (e : Eol) (r : List Char) (h : ∀ c ∈ l, isBreak c = false) :
    splitLines (l ++ e.chars ++ r) = l :: splitLines r := by
  rw [splitLines, List.append_assoc, linesFrom_append _ _ _ h, linesFrom_eol]
  rfl

/-- Terminated lines are split as they were written. -/
theorem splitLines_join (ls : List (List Char × Eol)) (h : ∀ l ∈ ls, ∀ c ∈ l.1, isBreak c = false) (r : List Char) :
    splitLines (ls.flatMap (fun l => l.1 ++ l.2.chars) ++ r) = ls.map (·.1) ++ splitLines r := by
  induction ls with
  | nil => rfl
  | cons l ls ih =>
    rw [List.flatMap_cons, List.append_assoc, splitLines_line _ _ _ (h l List.mem_cons_self),
      ih (fun x hx => h x (List.mem_cons_of_mem _ hx))]
    rfl

/-- A last line without an end counts as a line unless it is empty. -/
theorem splitLines_last (l : List Char) (h : ∀ c ∈ l, isBreak c = false) (hl : l ≠ []) : splitLines l = [l] := by
  have := linesFrom_append l [] [] h
  rw [List.append_nil] at this
  rw [splitLines, this, List.nil_append, linesFrom, if_neg hl]

theorem splitLines_nil : splitLines [] = [] := rfl

end Verif
