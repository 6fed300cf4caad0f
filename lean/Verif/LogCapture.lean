import Verif.Base
import Mathlib.Data.List.Induction

/-!
C76: capturing the lines of a log file, `LogCaptureMixin` (mixins/logging.py 101–133).

One stream; `dispatch_log_capture` handles several one after another. Text is characters, a line ends with a
newline: the translation of other line endings and the decoding of bytes are left out, as is the logger.
`ws` is what `str.rstrip` takes for white space.
-/
namespace Verif.LogCapture

abbrev Text := List Char

/-- A followed file: its content, the reader's position, and what was given to `log_line`. -/
structure S where
  file : Text
  pos : Nat
  log : List Text
  deriving DecidableEq

/-- `stream.readline()`: the line with its end, and what follows. -/
def readline : Text → Text × Text
  | [] => ([], [])
  | c :: r => if c = '\n' then (['\n'], r) else (c :: (readline r).1, (readline r).2)

def rstrip (ws : Char → Bool) (l : Text) : Text := (l.reverse.dropWhile ws).reverse

theorem readline_append (r : Text) : (readline r).1 ++ (readline r).2 = r := by
  induction r with
  | nil => rfl
  | cons c r ih =>
    unfold readline
    split
    · rename_i h; simp [h]
    · simp [ih]

theorem readline_pos (r : Text) (h : r ≠ []) : (readline r).1 ≠ [] := by
  cases r with
  | nil => exact absurd rfl h
  | cons c r => unfold readline; split <;> simp

theorem readline_shorter (ws : Char → Bool) (r : Text) (h : rstrip ws (readline r).1 ≠ []) : (readline r).2.length < r.length := by
  have h1 : (readline r).1 ≠ [] := by intro e; rw [e] at h; exact h rfl
  have h2 := congrArg List.length (readline_append r)
  have h3 := List.length_pos_iff.mpr h1
  rw [List.length_append] at h2
  omega

/-- The loop of `dispatch_log_capture`, 129–133: the lines logged and what is left unread. -/
def drain (ws : Char → Bool) (r : Text) : List Text × Text :=
  if _h : rstrip ws (readline r).1 = [] then ([], (readline r).2)
  else (rstrip ws (readline r).1 :: (drain ws (readline r).2).1, (drain ws (readline r).2).2)
termination_by r.length
decreasing_by all_goals exact readline_shorter ws r _h

inductive Op where
  /-- another program appends to the file -/
  | append (t : Text)
  /-- another program replaces the content, as when logs are rotated in place -/
  | replace (t : Text)
  | dispatch
  deriving DecidableEq

/-- `init_log_capture`, 117–119: reading starts at the end. -/
def S.init (t : Text) : S := ⟨t, t.length, []⟩

def unread (s : S) : Text := s.file.drop s.pos

def step (ws : Char → Bool) (s : S) : Op → S
  | .append t => { s with file := s.file ++ t }
  | .replace t => { s with file := t }
  | .dispatch => { s with
      pos := s.pos + ((unread s).length - (drain ws (unread s)).2.length)
      log := s.log ++ (drain ws (unread s)).1 }

def run (ws : Char → Bool) (s : S) (ops : List Op) : S := ops.foldl (step ws) s

/-! ### Reading -/

theorem drain_eq (ws : Char → Bool) (r : Text) :
    drain ws r = if rstrip ws (readline r).1 = [] then ([], (readline r).2)
      else (rstrip ws (readline r).1 :: (drain ws (readline r).2).1, (drain ws (readline r).2).2) := by
  rw [drain]
  split <;> rfl

/-- A piece of a file that one `readline` returns: a newline can only be last. -/
def Piece (l : Text) : Prop := l ≠ [] ∧ '\n' ∉ l.dropLast

theorem readline_piece (r : Text) (h : r ≠ []) : Piece (readline r).1 := by
  refine ⟨readline_pos r h, ?_⟩
  induction r with
  | nil => exact absurd rfl h
  | cons c r ih =>
    unfold readline
    by_cases hc : c = '\n'
    · rw [if_pos hc]; simp
    · rw [if_neg hc]
      dsimp only
      by_cases hr : r = []
      · subst hr; simp [readline]
      · rw [List.dropLast_cons_of_ne_nil (readline_pos r hr)]
        intro hm
        rcases List.mem_cons.mp hm with hm | hm
        · exact hc hm.symm
        · exact ih hr hm

/-- What one dispatch reads: pieces, of which the non-blank ones are logged. -/
theorem drain_pieces (ws : Char → Bool) (r : Text) :
    ∃ ps : List Text, (∀ p ∈ ps, Piece p) ∧ ps.flatten ++ (drain ws r).2 = r ∧
      (drain ws r).1 = (ps.map (rstrip ws)).filter (· ≠ []) := by
  rw [drain_eq]
  by_cases h : rstrip ws (readline r).1 = []
  · rw [if_pos h]
    by_cases hr : r = []
    · subst hr
      exact ⟨[], by simp, rfl, rfl⟩
    · refine ⟨[(readline r).1], ?_, ?_, ?_⟩
      · intro p hp
        rw [List.mem_singleton] at hp
        subst hp
        exact readline_piece r hr
      · simpa using readline_append r
      · simp [h]
  · rw [if_neg h]
    have hr : r ≠ [] := by rintro rfl; exact h rfl
    obtain ⟨ps, h1, h2, h3⟩ := drain_pieces ws (readline r).2
    refine ⟨(readline r).1 :: ps, ?_, ?_, ?_⟩
    · intro p hp
      rcases List.mem_cons.mp hp with rfl | hp
      · exact readline_piece r hr
      · exact h1 p hp
    · dsimp only
      rw [List.flatten_cons, List.append_assoc, h2, readline_append]
    · dsimp only
      rw [h3]
      simp [h]
termination_by r.length
decreasing_by exact readline_shorter ws r h

theorem drain_length (ws : Char → Bool) (r : Text) : (drain ws r).2.length ≤ r.length := by
  obtain ⟨ps, -, h, -⟩ := drain_pieces ws r
  have := congrArg List.length h
  rw [List.length_append] at this
  omega

theorem drain_suffix (ws : Char → Bool) (r : Text) : r.drop (r.length - (drain ws r).2.length) = (drain ws r).2 := by
  obtain ⟨ps, -, h, -⟩ := drain_pieces ws r
  have := congrArg List.length h
  rw [List.length_append] at this
  have e : r.length - (drain ws r).2.length = ps.flatten.length := by omega
  rw [e]
  conv => lhs; rw [← h]
  simp

theorem unread_dispatch (ws : Char → Bool) (s : S) : unread (step ws s .dispatch) = (drain ws (unread s)).2 := by
  show s.file.drop (s.pos + _) = _
  rw [← List.drop_drop]
  exact drain_suffix ws (unread s)

def Op.appends : Op → Bool
  | .replace _ => false
  | _ => true

/-- What other programs have appended. -/
def written (ops : List Op) : Text :=
  (ops.map fun o => match o with
    | .append t => t
    | _ => []).flatten

theorem written_snoc (ops : List Op) (o : Op) : written (ops ++ [o]) = written ops ++ written [o] := by
  simp [written]

/-- C76. As long as the file only grows: what was appended is cut into pieces, none with a newline but at
its end, followed by what is still unread; the log has the pieces that are not blank, stripped, in order:
nothing is logged twice, out of order or made up. -/
theorem C76_once (ws : Char → Bool) (t : Text) (ops : List Op) (hops : ∀ o ∈ ops, o.appends = true) :
    let s := run ws (S.init t) ops
    ∃ ps : List Text, (∀ p ∈ ps, Piece p) ∧ written ops = ps.flatten ++ unread s ∧
      s.log = (ps.map (rstrip ws)).filter (· ≠ []) ∧ s.file = t ++ written ops ∧ s.pos = t.length + ps.flatten.length := by
  induction ops using List.reverseRecOn with
  | nil => exact ⟨[], by simp, by simp [written, run, S.init, unread], rfl, by simp [run, S.init, written], rfl⟩
  | append_singleton ops o ih =>
    obtain ⟨ps, h1, h2, h3, h4, h5⟩ := ih (fun x hx => hops x (List.mem_append_left _ hx))
    have hs : run ws (S.init t) (ops ++ [o]) = step ws (run ws (S.init t) ops) o := by simp [run, List.foldl_append]
    rw [hs]
    generalize run ws (S.init t) ops = s at *
    intro s'
    cases o with
    | append x =>
      have hlen : s.pos ≤ s.file.length := by
        rw [h4, h5, h2]; simp
      refine ⟨ps, h1, ?_, h3, ?_, h5⟩
      · rw [written_snoc, h2]
        show _ = ps.flatten ++ (s.file ++ x).drop s.pos
        rw [List.drop_append_of_le_length hlen]
        simp [written, unread]
      · show s.file ++ x = _
        rw [written_snoc, h4]
        simp [written]
    | replace x => exact absurd (hops (.replace x) (by simp)) (by simp [Op.appends])
    | dispatch =>
      obtain ⟨qs, q1, q2, q3⟩ := drain_pieces ws (unread s)
      have hw : written (ops ++ [.dispatch]) = written ops := by rw [written_snoc]; simp [written]
      refine ⟨ps ++ qs, ?_, ?_, ?_, ?_, ?_⟩
      · intro p hp
        rcases List.mem_append.mp hp with hp | hp
        · exact h1 p hp
        · exact q1 p hp
      · rw [hw, h2, unread_dispatch, List.flatten_append, List.append_assoc, q2]
      · show s.log ++ (drain ws (unread s)).1 = _
        rw [h3, q3, List.map_append, List.filter_append]
      · rw [hw]; exact h4
      · show s.pos + ((unread s).length - (drain ws (unread s)).2.length) = _
        have := congrArg List.length q2
        rw [List.length_append] at this
        rw [h5, List.flatten_append, List.length_append]
        omega

/-! ### Lines -/

theorem readline_line (l r : Text) (h : '\n' ∉ l) : readline (l ++ '\n' :: r) = (l ++ ['\n'], r) := by
  induction l with
  | nil => simp [readline]
  | cons c l ih =>
    have hc : c ≠ '\n' := fun e => h (by simp [e])
    simp only [List.cons_append, readline, hc, if_false]
    rw [ih (fun hm => h (List.mem_cons_of_mem _ hm))]

theorem readline_end (l : Text) (h : '\n' ∉ l) : readline l = (l, []) := by
  induction l with
  | nil => rfl
  | cons c l ih =>
    have hc : c ≠ '\n' := fun e => h (by simp [e])
    simp only [readline, hc, if_false]
    rw [ih (fun hm => h (List.mem_cons_of_mem _ hm))]

theorem rstrip_newline (ws : Char → Bool) (hw : ws '\n' = true) (l : Text) : rstrip ws (l ++ ['\n']) = rstrip ws l := by
  simp [rstrip, List.dropWhile_cons, hw]

/-- A line with something to see. -/
structure Line (ws : Char → Bool) (l : Text) : Prop where
  whole : '\n' ∉ l
  seen : rstrip ws l ≠ []

def lines (ls : List Text) : Text := (ls.map (· ++ ['\n'])).flatten

theorem drain_lines (ws : Char → Bool) (hw : ws '\n' = true) (ls : List Text) (h : ∀ l ∈ ls, Line ws l) :
    drain ws (lines ls) = (ls.map (rstrip ws), []) := by
  induction ls with
  | nil => rw [drain_eq]; simp [lines, readline, rstrip]
  | cons l ls ih =>
    have hl := h l List.mem_cons_self
    have e : lines (l :: ls) = l ++ '\n' :: lines ls := by simp [lines]
    rw [drain_eq, e, readline_line _ _ hl.whole]
    dsimp only
    rw [rstrip_newline ws hw, if_neg hl.seen, ih (fun x hx => h x (List.mem_cons_of_mem _ hx))]
    rfl

theorem lines_append (a b : List Text) : lines (a ++ b) = lines a ++ lines b := by simp [lines]

/-- What a well-behaved program does to its log file: whole lines, none blank. -/
inductive Act where
  | write (ls : List Text)
  | dispatch

def Act.op : Act → Op
  | .write ls => .append (lines ls)
  | .dispatch => .dispatch

def Act.lines : Act → List Text
  | .write ls => ls
  | .dispatch => []

/-- C76 (partial: no blank lines, no lines written in parts). Each dispatch logs every line written
since, once, in order, without trailing white space. -/
theorem C76_lines_partial (ws : Char → Bool) (hw : ws '\n' = true) (t : Text) (acts : List Act)
    (h : ∀ a ∈ acts, ∀ l ∈ a.lines, Line ws l) :
    (run ws (S.init t) ((acts ++ [Act.dispatch]).map Act.op)).log = (acts.map Act.lines).flatten.map (rstrip ws) := by
  have key : ∀ (acts : List Act), (∀ a ∈ acts, ∀ l ∈ a.lines, Line ws l) →
      ∃ done rest : List Text, (acts.map Act.lines).flatten = done ++ rest ∧
        (run ws (S.init t) (acts.map Act.op)).log = done.map (rstrip ws) ∧
        unread (run ws (S.init t) (acts.map Act.op)) = lines rest ∧
        (run ws (S.init t) (acts.map Act.op)).pos ≤ (run ws (S.init t) (acts.map Act.op)).file.length := by
    intro acts
    induction acts using List.reverseRecOn with
    | nil => intro _; exact ⟨[], [], rfl, rfl, by simp [run, S.init, unread, lines], Nat.le_refl _⟩
    | append_singleton acts a ih =>
      intro h
      obtain ⟨done, rest, h1, h2, h3, h4⟩ := ih (fun x hx => h x (List.mem_append_left _ hx))
      have hs : run ws (S.init t) ((acts ++ [a]).map Act.op) = step ws (run ws (S.init t) (acts.map Act.op)) a.op := by
        simp [run, List.foldl_append]
      rw [hs]
      have hall : ∀ l ∈ done ++ rest, Line ws l := by
        rw [← h1]
        intro l hl
        obtain ⟨ls, hls, hl⟩ := List.mem_flatten.mp hl
        obtain ⟨b, hb, rfl⟩ := List.mem_map.mp hls
        exact h b (List.mem_append_left _ hb) l hl
      generalize run ws (S.init t) (acts.map Act.op) = s at *
      cases a with
      | write ls =>
        refine ⟨done, rest ++ ls, ?_, h2, ?_, ?_⟩
        · simp only [List.map_append, List.flatten_append, h1, List.append_assoc]
          simp [Act.lines]
        · show (s.file ++ lines ls).drop s.pos = _
          rw [List.drop_append_of_le_length h4, lines_append]
          exact congrArg (· ++ lines ls) h3
        · show s.pos ≤ (s.file ++ lines ls).length
          rw [List.length_append]; omega
      | dispatch =>
        have hd := drain_lines ws hw rest (fun l hl => hall l (List.mem_append_right _ hl))
        refine ⟨done ++ rest, [], ?_, ?_, ?_, ?_⟩
        · simp only [List.map_append, List.flatten_append, h1]
          simp [Act.lines]
        · show s.log ++ (drain ws (unread s)).1 = _
          rw [h3, hd, h2, List.map_append]
        · show unread (step ws s .dispatch) = _
          rw [unread_dispatch, h3, hd]
          rfl
        · show s.pos + ((unread s).length - (drain ws (unread s)).2.length) ≤ s.file.length
          have : (unread s).length = s.file.length - s.pos := by simp [unread]
          omega
  obtain ⟨done, rest, h1, h2, h3, -⟩ := key acts h
  have hs : run ws (S.init t) ((acts ++ [Act.dispatch]).map Act.op) = step ws (run ws (S.init t) (acts.map Act.op)) .dispatch := by
    simp [run, List.foldl_append, Act.op]
  rw [hs]
  have hd := drain_lines ws hw rest (fun l hl => by
    have hm : l ∈ (acts.map Act.lines).flatten := by rw [h1]; exact List.mem_append_right _ hl
    obtain ⟨ls, hls, hl⟩ := List.mem_flatten.mp hm
    obtain ⟨b, hb, rfl⟩ := List.mem_map.mp hls
    exact h b hb l hl)
  show (run ws (S.init t) (acts.map Act.op)).log ++ (drain ws (unread _)).1 = _
  rw [h3, hd, h2, h1, List.map_append]

/-! ### Blank lines -/

/-- The lines of a text, each with its end. -/
def split (r : Text) : List Text :=
  if _h : r = [] then [] else (readline r).1 :: split (readline r).2
termination_by r.length
decreasing_by
  have h1 := readline_pos r _h
  have h2 := congrArg List.length (readline_append r)
  have h3 := List.length_pos_iff.mpr h1
  rw [List.length_append] at h2
  omega

def blanks (ws : Char → Bool) (r : Text) : Nat := ((split r).filter (fun l => rstrip ws l = [])).length

theorem split_cons (r : Text) (h : r ≠ []) : split r = (readline r).1 :: split (readline r).2 := by
  rw [split, dif_neg h]

/-- A dispatch reads everything, or everything up to the next blank line. -/
theorem drain_blanks (ws : Char → Bool) (r : Text) : (drain ws r).2 = [] ∨ blanks ws (drain ws r).2 < blanks ws r := by
  rw [drain_eq]
  by_cases h : rstrip ws (readline r).1 = []
  · rw [if_pos h]
    by_cases hr : r = []
    · subst hr; exact .inl rfl
    · right
      simp only [blanks]
      rw [split_cons r hr]
      simp [h]
  · rw [if_neg h]
    have hr : r ≠ [] := by rintro rfl; exact h rfl
    rcases drain_blanks ws (readline r).2 with h1 | h1
    · exact .inl h1
    · right
      dsimp only
      refine Nat.lt_of_lt_of_le h1 ?_
      simp only [blanks]
      rw [split_cons r hr]
      simp [h]
termination_by r.length
decreasing_by exact readline_shorter ws r h

/-- C76. Nothing stays unread for ever: one dispatch more than there are blank lines reads everything. -/
theorem C76_eventually (ws : Char → Bool) (s : S) (n : Nat) (h : blanks ws (unread s) < n) :
    unread (run ws s (List.replicate n .dispatch)) = [] := by
  induction n generalizing s with
  | zero => omega
  | succ n ih =>
    rw [List.replicate_succ]
    show unread (run ws (step ws s .dispatch) (List.replicate n .dispatch)) = []
    have key : ∀ (n : Nat) (s : S), unread s = [] → unread (run ws s (List.replicate n .dispatch)) = [] := by
      intro n
      induction n with
      | zero => intro s h; exact h
      | succ n ihn =>
        intro s h
        rw [List.replicate_succ]
        refine ihn _ ?_
        rw [unread_dispatch, h, drain_eq]
        simp [readline, rstrip]
    rcases drain_blanks ws (unread s) with h1 | h1
    · exact key n _ (by rw [unread_dispatch]; exact h1)
    · apply ih
      rw [unread_dispatch]
      omega

/-- C76 (negation). A blank line ends the dispatch: the lines after it wait for another one, however many
are there. -/
theorem C76_blank_fails (ws : Char → Bool) (hw : ws '\n' = true) (s : S) (ls : List Text) (h : ∀ l ∈ ls, Line ws l) (b rest : Text)
    (hb : rstrip ws b = [] ∧ '\n' ∉ b) (hu : unread s = lines ls ++ b ++ '\n' :: rest) :
    (step ws s .dispatch).log = s.log ++ ls.map (rstrip ws) ∧ unread (step ws s .dispatch) = rest := by
  have hd : drain ws (lines ls ++ b ++ '\n' :: rest) = (ls.map (rstrip ws), rest) := by
    clear hu
    induction ls with
    | nil =>
      rw [drain_eq]
      simp only [lines, List.map_nil, List.flatten_nil, List.nil_append]
      rw [readline_line b rest hb.2]
      dsimp only
      rw [rstrip_newline ws hw, if_pos hb.1]
    | cons l ls ih =>
      have hl := h l List.mem_cons_self
      have e : lines (l :: ls) ++ b ++ '\n' :: rest = l ++ '\n' :: (lines ls ++ b ++ '\n' :: rest) := by simp [lines]
      rw [drain_eq, e, readline_line _ _ hl.whole]
      dsimp only
      rw [rstrip_newline ws hw, if_neg hl.seen, ih (fun x hx => h x (List.mem_cons_of_mem _ hx))]
      rfl
  constructor
  · show s.log ++ (drain ws (unread s)).1 = _
    rw [hu, hd]
  · rw [unread_dispatch, hu, hd]

/-- C76 (negation). A line written in two parts is logged as two when it is dispatched in between. -/
theorem C76_torn_fails (ws : Char → Bool) (hw : ws '\n' = true) (t a b : Text) (ha : Line ws a) (hb : Line ws b) :
    (run ws (S.init t) [.append a, .dispatch, .append (b ++ ['\n']), .dispatch]).log = [rstrip ws a, rstrip ws b] := by
  have h1 : drain ws a = ([rstrip ws a], []) := by
    rw [drain_eq, readline_end a ha.whole]
    dsimp only
    rw [if_neg ha.seen, drain_eq]
    simp [readline, rstrip]
  have h2 : drain ws (b ++ ['\n']) = ([rstrip ws b], []) := by
    have := drain_lines ws hw [b] (by intro l hl; rw [List.mem_singleton] at hl; rw [hl]; exact hb)
    simpa [lines] using this
  simp only [run, List.foldl_cons, List.foldl_nil, step, S.init, unread, List.drop_left, h1, List.nil_append]
  have e : (t ++ a ++ (b ++ ['\n'])).drop (t.length + (a.length - ([] : Text).length)) = b ++ ['\n'] := by
    simp
  rw [e, h2]
  rfl

/-- C76 (negation). When the file is emptied and written anew, what comes before the old position is never
logged. -/
theorem C76_replaced_fails (ws : Char → Bool) (s : S) (new more : Text) (h : (new ++ more).length ≤ s.pos) :
    (run ws s [.replace new, .append more, .dispatch]).log = s.log ∧
    unread (run ws s [.replace new, .append more]) = [] := by
  have e : (new ++ more).drop s.pos = [] := List.drop_eq_nil_of_le h
  constructor
  · simp only [run, List.foldl_cons, List.foldl_nil, step, unread, e]
    rw [drain_eq]
    simp [readline, rstrip]
  · simp only [run, List.foldl_cons, List.foldl_nil, step, unread, e]

/-- Old content, two lines in one write, one in another; then a blank line before a last one. -/
theorem C76_cases :
    let ws := fun c : Char => c = ' ' || c = '\n'
    let s := run ws (S.init "old\n".toList) [.append "a \nb\n".toList, .dispatch, .append "c\n".toList, .dispatch]
    s.log.map String.ofList = ["a", "b", "c"] ∧
    (run ws s [.append "d\n \ne\n".toList, .dispatch]).log.map String.ofList = ["a", "b", "c", "d"] ∧
    blanks ws "d\n \ne\n".toList = 1 := by
  intro ws s
  have hw : ws '\n' = true := rfl
  have hs : s = ⟨"old\na \nb\nc\n".toList, 11, ["a".toList, "b".toList, "c".toList]⟩ := by
    simp [s, run, step, S.init, unread, drain_eq, readline, rstrip, ws]
  rw [hs]
  refine ⟨by simp, ?_, ?_⟩
  · simp [run, step, unread, drain_eq, readline, rstrip, ws]
  · simp [blanks, split, readline, rstrip, ws]

end Verif.LogCapture
