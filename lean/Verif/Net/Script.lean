import Verif.Base
/-!
C131: the script written for a peer program: `subprocess/peer.py` 132–160 (`_write_script`).

Texts are lists of characters. A Python string literal in double quotes is read as the language reference says (the
tokenizer, and the escapes of one character; numeric and named escapes, `\0` … `\7`, `\x`, `\u`, `\U`, `\N`, are left out
and count as not read). Universal newlines: a carriage return ends a line too. Only the two lines with texts from outside
are modelled, the others are fixed; the import path is C124's.
-/
namespace Verif.Script
open Verif

/-- `str(config_path).replace("\\", "\\\\")`, peer.py 149. -/
def fixPath : List Char → List Char
  | [] => []
  | c :: cs => if c = '\\' then '\\' :: '\\' :: fixPath cs else c :: fixPath cs

/-- The line `CONFIG_PATH = "…"`, 150. -/
def pathStart : List Char := "CONFIG_PATH = \"".toList

def pathLine (path : List Char) : List Char := pathStart ++ (fixPath path ++ ['"'])

/-- What follows the name, 155–158. -/
def tail : List Char :=
  ", ARBITER.decode(CONFIG_PATH, require_success=True, includes_key=DEFAULT_INCLUDES_KEY).data, sys.argv))".toList

/-- The line that runs the program, 154–159. -/
def runStart (item : List Char) : List Char := "run_handle_interrupt(".toList ++ (item ++ ".run(\"".toList)

def runLine (item name : List Char) : List Char := runStart item ++ (name ++ '"' :: tail)

/-- The character an escape of one character stands for (Python language reference 2.4.1). -/
def escape : Char → Option (List Char)
  | '\\' => some ['\\']
  | '"' => some ['"']
  | '\'' => some ['\'']
  | '\n' => some []
  | 'n' => some ['\n']
  | 't' => some ['\t']
  | 'r' => some ['\r']
  | 'a' => some [Char.ofNat 7]
  | 'b' => some [Char.ofNat 8]
  | 'f' => some [Char.ofNat 12]
  | 'v' => some [Char.ofNat 11]
  | 'x' | 'u' | 'U' | 'N' | '0' | '1' | '2' | '3' | '4' | '5' | '6' | '7' => none
  | c => some ['\\', c]

/-- Reading a literal after its opening quote: its value and what follows the closing quote. -/
def literal : List Char → Option (List Char × List Char)
  | [] => none
  | '"' :: rest => some ([], rest)
  | '\n' :: _ => none
  | '\r' :: _ => none
  | ['\\'] => none
  | '\\' :: c :: rest =>
    match escape c, literal rest with
    | some e, some (v, r) => some (e ++ v, r)
    | _, _ => none
  | c :: rest => (literal rest).map fun p => (c :: p.1, p.2)

/-- Reading a line: a fixed beginning, then a literal. -/
def after (start line : List Char) : Option (List Char × List Char) :=
  if start.isPrefixOf line then literal (line.drop start.length) else none

/-! ### Claims -/

/-- A character that stands for itself in a literal. -/
def Plain (c : Char) : Prop := c ≠ '"' ∧ c ≠ '\\' ∧ c ≠ '\n' ∧ c ≠ '\r'

theorem literal_plain {c : Char} (h : Plain c) (rest : List Char) :
    literal (c :: rest) = (literal rest).map fun p => (c :: p.1, p.2) := by
  obtain ⟨h1, h2, h3, h4⟩ := h
  rw [literal.eq_def]
  split <;> simp_all

theorem literal_backslash (rest : List Char) :
    literal ('\\' :: '\\' :: rest) = (literal rest).map fun p => ('\\' :: p.1, p.2) := by
  rw [literal]
  simp only [escape]
  cases literal rest with
  | none => rfl
  | some p => rfl

theorem after_append (start line : List Char) : after start (start ++ line) = literal line := by
  simp [after]

theorem literal_text (text rest : List Char) (h : ∀ c ∈ text, Plain c) : literal (text ++ '"' :: rest) = some (text, rest) := by
  induction text with
  | nil => simp [literal]
  | cons c cs ih =>
    rw [List.cons_append, literal_plain (h c (by simp)), ih (fun d hd => h d (by simp [hd]))]
    rfl

/-- C131: the program reads its configuration from the path it was written to, on every system: any path without quote and
line ends, with any number of backslashes, is read back as it is. -/
theorem C131_path (path : List Char) (h : ∀ c ∈ path, c ≠ '"' ∧ c ≠ '\n' ∧ c ≠ '\r') :
    after pathStart (pathLine path) = some (path, []) := by
  rw [pathLine, after_append]
  induction path with
  | nil => simp [fixPath, literal]
  | cons c cs ih =>
    have hc := h c (by simp)
    have ih := ih (fun d hd => h d (by simp [hd]))
    by_cases hb : c = '\\'
    · subst hb
      rw [fixPath, if_pos rfl, List.cons_append, List.cons_append, literal_backslash, ih]
      rfl
    · rw [fixPath, if_neg hb, List.cons_append, literal_plain ⟨hc.1, hb, hc.2.1, hc.2.2⟩, ih]
      rfl

/-- C131, for names without quote, backslash and line end: the program is run with the name it was given, and the rest of
the line is as written. -/
theorem C131_name_partial (item name : List Char) (h : ∀ c ∈ name, Plain c) :
    after (runStart item) (runLine item name) = some (name, tail) := by
  have e : runLine item name =
      (runStart item) ++ (name ++ '"' :: tail) := by
    simp only [runLine]
  rw [e, after_append, literal_text name tail h]

/-- C131 fails for a name with a quote: the program's name ends there, and the rest of the name is code. -/
theorem C131_quote_fails (item before code : List Char) (h : ∀ c ∈ before, Plain c) :
    after (runStart item) (runLine item (before ++ '"' :: code)) =
      some (before, code ++ '"' :: tail) := by
  have e : runLine item (before ++ '"' :: code) =
      (runStart item) ++ (before ++ '"' :: (code ++ '"' :: tail)) := by
    simp only [runLine, List.append_assoc, List.cons_append]
  rw [e, after_append, literal_text before _ h]

theorem literal_prefix (text rest : List Char) (h : ∀ c ∈ text, Plain c) :
    literal (text ++ rest) = (literal rest).map fun p => (text ++ p.1, p.2) := by
  induction text with
  | nil => rw [List.nil_append]; cases literal rest <;> rfl
  | cons c cs ih =>
    rw [List.cons_append, literal_plain (h c (by simp)), ih (fun d hd => h d (by simp [hd]))]
    cases literal rest <;> rfl

/-- C131 fails for a name with a line end: the script is no program. -/
theorem C131_line_fails (item before more : List Char) (c : Char) (hc : c = '\n' ∨ c = '\r') (h : ∀ c ∈ before, Plain c) :
    after (runStart item) (runLine item (before ++ c :: more)) = none := by
  have e : runLine item (before ++ c :: more) =
      (runStart item) ++ (before ++ c :: (more ++ '"' :: tail)) := by
    simp only [runLine, List.append_assoc, List.cons_append]
  rw [e, after_append, literal_prefix before _ h]
  rcases hc with rfl | rfl <;> simp [literal]

theorem literal_tail_none : literal tail = none := by decide +kernel

/-- C131 fails for a name with backslashes, which the path is protected from: two of them are read as one, and one at the
end takes the closing quote away. -/
theorem C131_backslash_fails (item before more : List Char) (h : ∀ c ∈ before, Plain c) (h' : ∀ c ∈ more, Plain c) :
    let start := runStart item
    after start (runLine item (before ++ '\\' :: '\\' :: more)) = some (before ++ '\\' :: more, tail) ∧
    after start (runLine item (before ++ ['\\'])) = none := by
  intro start
  have e1 : runLine item (before ++ '\\' :: '\\' :: more) = start ++ (before ++ '\\' :: '\\' :: (more ++ '"' :: tail)) := by
    simp only [runLine, start, List.append_assoc, List.cons_append]
  have e2 : runLine item (before ++ ['\\']) = start ++ (before ++ '\\' :: '"' :: tail) := by
    simp only [runLine, start, List.append_assoc, List.cons_append, List.nil_append]
  constructor
  · rw [e1, after_append, literal_prefix before _ h, literal_backslash, literal_text more _ h']
    rfl
  · rw [e2, after_append, literal_prefix before _ h]
    have : literal ('\\' :: '"' :: tail) = none := by
      rw [literal]
      simp only [escape, literal_tail_none]
    rw [this]
    rfl

/-! ### Examples -/

theorem C131_cases :
    String.ofList (pathLine "C:\\tmp\\new.json".toList) = "CONFIG_PATH = \"C:\\\\tmp\\\\new.json\"" ∧
    after ".run(\"".toList ".run(\"proc1\", x)".toList = some ("proc1".toList, ", x)".toList) ∧
    after ".run(\"".toList ".run(\"a\\nb\", x)".toList = some ("a\nb".toList, ", x)".toList) ∧
    after ".run(\"".toList ".run(\"a\"+f()+\"b\", x)".toList = some ("a".toList, "+f()+\"b\", x)".toList) := by
  decide +kernel

end Verif.Script
