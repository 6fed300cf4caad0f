import Verif.Lines
import Verif.Split
/-!
C65: the text interface of the NP-05B power distribution unit (net/tcp/telnet/np_05b.py).

Text frames are lists of characters. The log, and the command data that only goes into the log, are
left out. `env.set` on the outlet channels, which exist for every index below `num_ports` (70–82), is an
assignment to a list of truth values.
-/
namespace Verif.Np05b

/-- `Np05bStrings`, np_05b.py 21–34. -/
inductive Cmd where
  | setOutlet
  | outletStatus
  | allOutlets
  | ok
  | fail
  deriving DecidableEq, Repr

/-- The strings, np_05b.py 24–34. -/
def Cmd.chars : Cmd → List Char
  | .setOutlet => ['$', 'A', '3']
  | .outletStatus => ['$', 'A', '5']
  | .allOutlets => ['$', 'A', '7']
  | .ok => ['$', 'A', '0']
  | .fail => ['$', 'A', 'F']

/-- `Np05bStrings(text)`: look-up by value, `ValueError` if there is none. -/
def Cmd.parse (s : List Char) : Except PyErr Cmd :=
  if s = ['$', 'A', '3'] then .ok .setOutlet
  else if s = ['$', 'A', '5'] then .ok .outletStatus
  else if s = ['$', 'A', '7'] then .ok .allOutlets
  else if s = ['$', 'A', '0'] then .ok .ok
  else if s = ['$', 'A', 'F'] then .ok .fail
  else .error .value

/-- `is_command`, np_05b.py 36–39. -/
def isCommand : List Char → Bool
  | '$' :: 'A' :: _ => true
  | _ => false

/-- `line.split("$A")`, np_05b.py 225. -/
def splitMark : List Char → List (List Char)
  | [] => [[]]
  | '$' :: 'A' :: r => [] :: splitMark r
  | c :: r =>
    match splitMark r with
    | [] => [[c]]
    | p :: ps => (c :: p) :: ps

/-- The members changed while text is processed, np_05b.py 63–72. -/
structure St where
  prev : List Char
  outlets : List (Option Bool)
  chans : List Bool
  permits : Nat
  deriving DecidableEq, Repr

/-- `init`, np_05b.py 58–82. -/
def St.new (numPorts : Nat) : St := ⟨[], List.replicate numPorts none, List.replicate numPorts false, 0⟩

/-- The loop over the reversed states, np_05b.py 193–205, from index `i` on. -/
def St.status (st : St) (i : Nat) : List Char → St × Option PyErr
  | [] => (st, none)
  | c :: cs =>
    if i < st.outlets.length then
      St.status { st with outlets := st.outlets.set i (some (c == '1')), chans := st.chans.set i (c == '1') } (i + 1) cs
    else (st, some .index)

/-- `process_response`, np_05b.py 166–208. -/
def St.response (st : St) (command : Cmd) (resp : List Char) : St × Option PyErr :=
  match splitOn ',' resp with
  | [] => (st, some .index)
  | first :: parts =>
    match Cmd.parse first with
    | .error e => (st, some e)
    | .ok result =>
      if result ≠ .fail ∧ result ≠ .ok then (st, some .assertion)
      else if command = .outletStatus then
        if result = .ok then
          match parts with
          | [] => (st, some .index)
          | states :: _ =>
            match st.status 0 states.reverse with
            | (st, some e) => (st, some e)
            | (st, none) => ({ st with permits := st.permits + 1 }, none)
        else ({ st with permits := st.permits + 1 }, none)
      else (st, none)

/-- One line with at most one marker, np_05b.py 218–247 without 222–228. -/
def St.line (st : St) (l : List Char) : St × Option PyErr :=
  if l = [] ∨ l = ['>'] then (st, none)
  else if isCommand l then
    if isCommand st.prev then
      match Cmd.parse (st.prev.take 3) with
      | .error e => (st, some e)
      | .ok c =>
        match st.response c l with
        | (st, some e) => (st, some e)
        | (st, none) => ({ st with prev := [] }, none)
    else ({ st with prev := l }, none)
  else (st, none)

/-- Lines with several markers are taken apart, np_05b.py 222–228. The pieces are put in front of the
lines still to be read; they hold one marker each (`pieces_single`), so they are not taken apart again. -/
def pieces (l : List Char) : List (List Char) :=
  if 2 < (splitMark l).length then (splitMark l).tail.map (fun x => '$' :: 'A' :: x) else [l]

/-- Lines one after the other; an exception ends the frame. -/
def St.lines (st : St) : List (List Char) → St × Option PyErr
  | [] => (st, none)
  | l :: ls =>
    match st.line l with
    | (st, some e) => (st, some e)
    | (st, none) => St.lines st ls

/-- `process_text`, np_05b.py 210–249. -/
def St.text (st : St) (data : List Char) : St × Option PyErr :=
  st.lines ((splitLines data).flatMap pieces)

/-! ### Splitting at markers -/

theorem splitMark_ne (s : List Char) : splitMark s ≠ [] := by
  fun_cases splitMark s <;> simp_all

/-- A marker-free character sequence. -/
def NoMark (s : List Char) : Prop := '$' ∉ s

theorem splitMark_step (c : Char) (r p : List Char) (ps : List (List Char)) (h : ¬ (c = '$' ∧ r.head? = some 'A'))
    (hs : splitMark r = p :: ps) : splitMark (c :: r) = (c :: p) :: ps := by
  rw [splitMark, hs]
  intro r' e1 e2
  exact h ⟨e1, by rw [e2]; rfl⟩

theorem splitMark_cons (c : Char) (r p : List Char) (ps : List (List Char)) (h : c ≠ '$')
    (hs : splitMark r = p :: ps) : splitMark (c :: r) = (c :: p) :: ps :=
  splitMark_step c r p ps (fun e => h e.1) hs

theorem splitMark_none (s : List Char) (h : '$' ∉ s) : splitMark s = [s] := by
  induction s with
  | nil => rfl
  | cons c s ih =>
    exact splitMark_cons _ _ _ _ (fun e => h (e ▸ List.mem_cons_self)) (ih (fun hm => h (List.mem_cons_of_mem _ hm)))

theorem splitMark_append (a r : List Char) (h : '$' ∉ a) :
    splitMark (a ++ '$' :: 'A' :: r) = a :: splitMark r := by
  induction a with
  | nil => rw [List.nil_append, splitMark]
  | cons c a ih =>
    exact splitMark_cons _ _ _ _ (fun e => h (e ▸ List.mem_cons_self)) (ih (fun hm => h (List.mem_cons_of_mem _ hm)))

/-- Messages written one after the other on a line. -/
def glue (ms : List (List Char)) : List Char := ms.flatMap (fun m => '$' :: 'A' :: m)

theorem splitMark_glue (pre : List Char) (ms : List (List Char)) (hp : '$' ∉ pre) (h : ∀ m ∈ ms, '$' ∉ m) :
    splitMark (pre ++ glue ms) = pre :: ms := by
  induction ms generalizing pre with
  | nil => rw [glue, List.flatMap_nil, List.append_nil, splitMark_none _ hp]
  | cons m ms ih =>
    rw [glue, List.flatMap_cons, List.cons_append, List.cons_append, splitMark_append _ _ hp]
    exact congrArg _ (ih m (h m List.mem_cons_self) (fun x hx => h x (List.mem_cons_of_mem _ hx)))

/-- The first piece begins as the text does. -/
theorem splitMark_head (s p : List Char) (ps : List (List Char)) (h : splitMark s = p :: ps) :
    p = [] ∨ p.head? = s.head? := by
  revert h
  fun_cases splitMark s <;> intro h <;> simp_all
  all_goals (obtain ⟨rfl, -⟩ := h; simp)

theorem splitMark_single (s x : List Char) (hx : x ∈ splitMark s) : splitMark x = [x] := by
  revert x
  induction s using splitMark.induct with
  | case1 => intro x hx; simp [splitMark] at hx; simp [hx, splitMark]
  | case2 r ih =>
    intro x hx
    rw [splitMark] at hx
    rcases List.mem_cons.mp hx with rfl | hx
    · simp [splitMark]
    · exact ih x hx
  | case3 c r hc hs ih => exact absurd hs (splitMark_ne r)
  | case4 c r hc q qs hs ih =>
    intro x hx
    have hc' : ¬ (c = '$' ∧ r.head? = some 'A') := by
      rintro ⟨rfl, h2⟩
      cases r with
      | nil => cases h2
      | cons a r => cases h2; exact hc _ rfl rfl
    rw [splitMark_step c r q qs hc' hs] at hx
    rcases List.mem_cons.mp hx with rfl | hx
    · refine splitMark_step c q q [] ?_ (ih q (by rw [hs]; exact List.mem_cons_self))
      rintro ⟨h1, h2⟩
      rcases splitMark_head r q qs hs with h | h
      · rw [h] at h2; cases h2
      · exact hc' ⟨h1, h ▸ h2⟩
    · exact ih x (by rw [hs]; exact List.mem_cons_of_mem _ hx)

/-- The pieces a line is taken apart into hold one marker, so they stay as they are. -/
theorem pieces_single (l p : List Char) (hp : p ∈ pieces l) : pieces p = [p] := by
  unfold pieces at hp
  split at hp
  · obtain ⟨x, hx, rfl⟩ := List.mem_map.mp hp
    have := splitMark_single l x (List.mem_of_mem_tail hx)
    rw [pieces, if_neg]
    rw [splitMark, this]
    simp
  · rename_i h
    rw [List.mem_singleton.mp hp, pieces, if_neg h]

/-! ### Transcripts -/

/-- A line of a transcript: text without markers, or messages (each shown behind its marker), possibly
several on a line and then possibly behind other text. -/
inductive Row where
  | noise (s : List Char)
  | msgs (pre : List Char) (ms : List (List Char))

/-- As it is written. -/
def Row.chars : Row → List Char
  | .noise s => s
  | .msgs pre ms => pre ++ glue ms

/-- The messages on a line. -/
def Row.messages : Row → List (List Char)
  | .noise _ => []
  | .msgs _ ms => ms

/-- Markers are where messages begin and nowhere else, lines hold no line break, and a single message
begins its line. -/
def Row.Ok : Row → Prop
  | .noise s => '$' ∉ s ∧ ∀ c ∈ s, isBreak c = false
  | .msgs pre ms => '$' ∉ pre ∧ (∀ c ∈ pre, isBreak c = false) ∧ (∀ m ∈ ms, '$' ∉ m ∧ ∀ c ∈ m, isBreak c = false)
      ∧ ms ≠ [] ∧ (ms.length = 1 → pre = [])

/-- The text of a frame: lines with their ends. -/
def render (rows : List (Row × Eol)) : List Char := rows.flatMap (fun r => r.1.chars ++ r.2.chars)

theorem Row.break_free (r : Row) (h : r.Ok) : ∀ c ∈ r.chars, isBreak c = false := by
  cases r with
  | noise s => exact h.2
  | msgs pre ms =>
    intro c hc
    rcases List.mem_append.mp hc with hc | hc
    · exact h.2.1 c hc
    · obtain ⟨m, hm, hc⟩ := List.mem_flatMap.mp hc
      rcases List.mem_cons.mp hc with rfl | hc
      · decide
      · rcases List.mem_cons.mp hc with rfl | hc
        · decide
        · exact (h.2.2.1 m hm).2 c hc

theorem line_noise (st : St) (s : List Char) (h : '$' ∉ s) : st.line s = (st, none) := by
  have hc : isCommand s = false := by
    cases s with
    | nil => rfl
    | cons c s =>
      have : c ≠ '$' := fun e => h (e ▸ List.mem_cons_self)
      unfold isCommand
      split
      · rename_i e; cases e; exact absurd rfl this
      · rfl
  unfold St.line
  rw [hc]
  split <;> rfl

theorem lines_append (st : St) (a b : List (List Char)) :
    st.lines (a ++ b) = match st.lines a with
      | (st, some e) => (st, some e)
      | (st, none) => st.lines b := by
  induction a generalizing st with
  | nil => rfl
  | cons l a ih =>
    rw [List.cons_append, St.lines, St.lines]
    rcases st.line l with ⟨st', _ | e⟩
    · exact ih st'
    · rfl

theorem pieces_row (r : Row) (h : r.Ok) (st : St) (rest : List (List Char)) :
    st.lines (pieces r.chars ++ rest) = st.lines (r.messages.map (fun m => '$' :: 'A' :: m) ++ rest) := by
  cases r with
  | noise s =>
    have : pieces s = [s] := by rw [pieces, splitMark_none s h.1]; rfl
    show st.lines (pieces s ++ rest) = st.lines rest
    rw [this, List.singleton_append, St.lines, line_noise st s h.1]
  | msgs pre ms =>
    obtain ⟨h1, h2, h3, h4, h5⟩ := h
    have e := splitMark_glue pre ms h1 (fun m hm => (h3 m hm).1)
    show st.lines (pieces (pre ++ glue ms) ++ rest) = st.lines (ms.map _ ++ rest)
    rw [pieces, e]
    match ms, h4, h5 with
    | [m], _, h5 => rw [h5 rfl]; simp [glue]
    | m :: m' :: ms, _, _ => rw [if_pos (by simp)]; rfl

theorem text_render (st : St) (rows : List (Row × Eol)) (h : ∀ r ∈ rows, r.1.Ok) :
    st.text (render rows) = st.lines ((rows.flatMap (·.1.messages)).map (fun m => '$' :: 'A' :: m)) := by
  have hs : splitLines (render rows) = rows.map (·.1.chars) := by
    have := splitLines_join (rows.map fun r => (r.1.chars, r.2)) (by
      intro l hl
      obtain ⟨r, hr, rfl⟩ := List.mem_map.mp hl
      exact r.1.break_free (h r hr)) []
    rw [List.append_nil, splitLines_nil, List.append_nil, List.map_map, List.flatMap_map] at this
    exact this
  rw [St.text, hs]
  clear hs
  induction rows generalizing st with
  | nil => rfl
  | cons r rows ih =>
    rw [List.map_cons, List.flatMap_cons, List.flatMap_cons, List.map_append, pieces_row _ (h r List.mem_cons_self),
      lines_append, lines_append]
    rcases st.lines (r.1.messages.map _) with ⟨st', _ | e⟩
    · exact ih st' (fun x hx => h x (List.mem_cons_of_mem _ hx))
    · rfl

/-- An exchange: the command the device echoes, with what follows it, and the reply: accepted or not, and
the parts behind the commas. -/
structure Exch where
  cmd : Cmd
  args : List Char
  good : Bool
  parts : List (List Char)

/-- The echo without its marker. -/
def Exch.echo (x : Exch) : List Char := x.cmd.chars.drop 2 ++ x.args

/-- The reply without its marker. -/
def Exch.reply (x : Exch) : List Char := (if x.good then '0' else 'F') :: x.parts.flatMap (fun p => ',' :: p)

/-- Parts hold no comma, and an accepted status query comes with the states of at most `n` outlets. -/
def Exch.Ok (n : Nat) (x : Exch) : Prop :=
  (∀ p ∈ x.parts, ',' ∉ p)
    ∧ (x.cmd = .outletStatus → x.good = true → ∃ s ps, x.parts = s :: ps ∧ s.length ≤ n)

/-- What an exchange tells about the outlets: outlet number `i` is the `i`-th character from the right. -/
def Exch.states (x : Exch) : List Char :=
  if x.cmd = .outletStatus ∧ x.good = true then x.parts.head?.getD [] else []

/-- Known states, given those known before. -/
def seen (o : List (Option Bool)) (s : List Char) : List (Option Bool) :=
  o.mapIdx fun i old => match s.reverse[i]? with
    | some c => some (c == '1')
    | none => old

/-- The same for the channels. -/
def seenChan (o : List Bool) (s : List Char) : List Bool :=
  o.mapIdx fun i old => match s.reverse[i]? with
    | some c => c == '1'
    | none => old

end Verif.Np05b
