import Verif.Lines
/-!
C66: the SCPI interface (net/tcp/scpi/__init__.py).

`command_lock` admits one command at a time, `message_queue` holds one line (17–21), so `process_text` waits in
`put` while a line is unread (29–36). One step of the model is the code between two suspensions. A time-out that
strikes while a line is there to be taken is a time-out without loss, as `asyncio.wait_for` has it.
-/
namespace Verif.Scpi

/-- The connection: whether a command waits for its reply, the queue, the lines still to be put, and how the commands
that wanted a reply ended (`none` for a time-out, where `send_command` returns the empty string). -/
structure St where
  busy : Bool
  queue : List (List Char)
  pending : List (List Char)
  results : List (Option (List Char))
  deriving DecidableEq

def St.new : St := ⟨false, [], [], []⟩

/-- What happens: a call of `send_command` with or without a reply to wait for, a text frame, `process_text`
getting on with `put`, the waiting command getting its line, its time-out. -/
inductive Op where
  | send (wants : Bool)
  | frame (text : List Char)
  | put
  | get
  | timeout

/-- The non-empty lines of a frame, __init__.py 32–34. -/
def items (text : List Char) : List (List Char) := (splitLines text).filter (fun l => !l.isEmpty)

/-- One step: `send_command` 42–74, `process_text` 29–36. -/
def St.step (s : St) : Op → St
  | .send wants => if s.busy then s else { s with busy := wants }
  | .frame text => { s with pending := s.pending ++ items text }
  | .put =>
    match s.queue, s.pending with
    | [], x :: rest => { s with queue := [x], pending := rest }
    | _, _ => s
  | .get =>
    match s.busy, s.queue with
    | true, x :: rest => { s with busy := false, queue := rest, results := s.results ++ [some x] }
    | _, _ => s
  | .timeout => if s.busy then { s with busy := false, results := s.results ++ [none] } else s

def St.run (s : St) (ops : List Op) : St := ops.foldl St.step s

/-- All lines that arrived. -/
def arrived (ops : List Op) : List (List Char) :=
  ops.flatMap fun op => match op with
    | .frame text => items text
    | _ => []

theorem step_lines (s : St) (op : Op) :
    (s.step op).results.filterMap id ++ (s.step op).queue ++ (s.step op).pending
      = s.results.filterMap id ++ s.queue ++ s.pending ++ arrived [op] := by
  cases op with
  | send w => simp only [St.step, arrived]; split <;> simp
  | frame t => simp [St.step, arrived]
  | put =>
    simp only [St.step, arrived]
    split
    · rename_i hq hp; simp [hq, hp]
    · simp
  | get =>
    simp only [St.step, arrived]
    split
    · rename_i hq; simp [hq]
    · simp
  | timeout => simp only [St.step, arrived]; split <;> simp

theorem run_lines (s : St) (ops : List Op) :
    (s.run ops).results.filterMap id ++ (s.run ops).queue ++ (s.run ops).pending
      = s.results.filterMap id ++ s.queue ++ s.pending ++ arrived ops := by
  induction ops generalizing s with
  | nil => simp [St.run, arrived]
  | cons op ops ih =>
    show ((s.step op).run ops).results.filterMap id ++ ((s.step op).run ops).queue ++ ((s.step op).run ops).pending = _
    rw [ih, step_lines]
    simp [arrived]

/-- C66: whatever happens, commands are given the lines that arrived, in order, each once; the ones not given yet
are kept, one of them at most in the queue. -/
theorem C66_conserved (ops : List Op) :
    (St.new.run ops).results.filterMap id ++ (St.new.run ops).queue ++ (St.new.run ops).pending = arrived ops
      ∧ (St.new.run ops).queue.length ≤ 1 := by
  refine ⟨by simpa [St.new] using run_lines St.new ops, ?_⟩
  have : ∀ s : St, s.queue.length ≤ 1 → (s.run ops).queue.length ≤ 1 := by
    induction ops with
    | nil => intro s h; exact h
    | cons op ops ih =>
      intro s h
      apply ih
      cases op with
      | send w => simp only [St.step]; split <;> exact h
      | frame t => exact h
      | put => simp only [St.step]; split <;> simp_all
      | get => simp only [St.step]; split <;> simp_all
      | timeout => simp only [St.step]; split <;> exact h
  exact this _ (by simp [St.new])

/-- Whether a step lets in a command that wants a reply. -/
def Op.asks (s : St) : Op → Nat
  | .send true => if s.busy then 0 else 1
  | _ => 0

/-- The commands that wanted a reply and were let in. -/
def asked (s : St) : List Op → Nat
  | [] => 0
  | op :: ops => op.asks s + asked (s.step op) ops

/-- The commands still waiting. -/
def St.waiting (s : St) : Nat := if s.busy then 1 else 0

theorem run_asked (s : St) (ops : List Op) :
    (s.run ops).results.length + (s.run ops).waiting = s.results.length + s.waiting + asked s ops := by
  induction ops generalizing s with
  | nil => rfl
  | cons op ops ih =>
    have : (s.step op).results.length + (s.step op).waiting = s.results.length + s.waiting + op.asks s := by
      obtain ⟨b, q, p, r⟩ := s
      cases op with
      | send w => cases w <;> cases b <;> rfl
      | frame t => rfl
      | put => cases q <;> cases p <;> rfl
      | get => cases b <;> cases q <;> simp [St.step, St.waiting, Op.asks]
      | timeout => cases b <;> simp [St.step, St.waiting, Op.asks]
    show ((s.step op).run ops).results.length + ((s.step op).run ops).waiting = _
    rw [ih, asked]
    omega

theorem no_timeout (s : St) (ops : List Op) (h : ∀ op ∈ ops, op ≠ .timeout) (hs : ∀ r ∈ s.results, r ≠ none) :
    ∀ r ∈ (s.run ops).results, r ≠ none := by
  induction ops generalizing s with
  | nil => exact hs
  | cons op ops ih =>
    apply ih _ (fun o ho => h o (List.mem_cons_of_mem _ ho))
    cases op with
    | send w => simp only [St.step]; split <;> exact hs
    | frame t => exact hs
    | put => simp only [St.step]; split <;> exact hs
    | get =>
      simp only [St.step]
      split
      · intro r hr
        rcases List.mem_append.mp hr with hr | hr
        · exact hs r hr
        · rw [List.mem_singleton.mp hr]; simp
      · exact hs
    | timeout => exact absurd rfl (h .timeout List.mem_cons_self)

theorem filterMap_id_of (l : List (Option (List Char))) (h : ∀ r ∈ l, r ≠ none) (k : Nat) (x : List Char)
    (hk : l[k]? = some (some x)) : (l.filterMap id)[k]? = some x := by
  induction l generalizing k with
  | nil => simp at hk
  | cons r l ih =>
    obtain ⟨y, rfl⟩ := Option.ne_none_iff_exists'.mp (h r List.mem_cons_self)
    rw [show (some y :: l).filterMap id = y :: l.filterMap id from rfl]
    cases k with
    | zero => simpa using hk
    | succ k => exact ih (fun q hq => h q (List.mem_cons_of_mem _ hq)) k (by simpa using hk)

/-- C66: without time-outs the commands that wanted a reply end in the order they were made, the `k`-th with the
`k`-th line that arrived; one of them at most is still waiting. -/
theorem C66_own_reply_partial (ops : List Op) (h : ∀ op ∈ ops, op ≠ .timeout) :
    (St.new.run ops).results.length + (if (St.new.run ops).busy then 1 else 0) = asked St.new ops
      ∧ ∀ k < (St.new.run ops).results.length, (St.new.run ops).results[k]? = some (arrived ops)[k]? := by
  refine ⟨by simpa [St.new, St.waiting] using run_asked St.new ops, fun k hk => ?_⟩
  have hn := no_timeout St.new ops h (by simp [St.new])
  obtain ⟨x, hx⟩ := Option.ne_none_iff_exists'.mp (hn _ (List.getElem_mem hk))
  have h1 : (St.new.run ops).results[k]? = some (some x) := by rw [List.getElem?_eq_getElem hk, hx]
  have h2 := filterMap_id_of _ hn k x h1
  have h3 := (C66_conserved ops).1
  rw [h1, ← h3, List.append_assoc, List.getElem?_append_left, h2]
  exact (List.getElem?_eq_some_iff.mp h2).1

/-- The steps of one command answered by one line. -/
def turn (reply : List Char) : List Op := [.send true, .frame reply, .put, .get]

/-- The steps of one command given what is in the queue while its own reply comes later. -/
def lateTurn (reply : List Char) : List Op := [.send true, .put, .get, .frame reply]

/-- C66 fails after a time-out: once a reply came late, every later command is given the reply to the one before it,
for ever. -/
theorem C66_late_fails (first : List Char) (replies : List (List Char)) (h1 : items first = [first])
    (h : ∀ r ∈ replies, items r = [r]) :
    St.new.run ([.send true, .timeout, .frame first] ++ replies.flatMap lateTurn)
      = ⟨false, [], [(first :: replies).getLast (by simp)], none :: ((first :: replies).dropLast).map some⟩ := by
  have key : ∀ (replies : List (List Char)) (x : List Char) (res : List (Option (List Char))), (∀ r ∈ replies, items r = [r]) →
      St.run ⟨false, [], [x], res⟩ (replies.flatMap lateTurn)
        = ⟨false, [], [(x :: replies).getLast (by simp)], res ++ ((x :: replies).dropLast).map some⟩ := by
    intro replies
    induction replies with
    | nil => intro x res _; simp [St.run]
    | cons r rs ih =>
      intro x res hr
      have hs : St.run ⟨false, [], [x], res⟩ (lateTurn r) = ⟨false, [], [r], res ++ [some x]⟩ := by
        simp [St.run, lateTurn, St.step, hr r List.mem_cons_self]
      rw [List.flatMap_cons, St.run, List.foldl_append]
      change St.run (St.run ⟨false, [], [x], res⟩ (lateTurn r)) _ = _
      rw [hs, ih r _ (fun q hq => hr q (List.mem_cons_of_mem _ hq))]
      simp
  have h0 : St.new.run [.send true, .timeout, .frame first] = ⟨false, [], [first], [none]⟩ := by
    simp [St.run, St.step, St.new, h1]
  rw [St.run, List.foldl_append]
  change St.run (St.run St.new [.send true, .timeout, .frame first]) _ = _
  rw [h0, key replies first [none] h]
  rfl

/-- C66 fails likewise when a command that asked for no reply is answered. -/
theorem C66_unasked_fails (a b : List Char) (ha : items a = [a]) (hb : items b = [b]) :
    (St.new.run ([.send false, .frame a] ++ [.send true, .frame b, .put, .get])).results = [some a] := by
  simp [St.run, St.step, St.new, ha, hb]

/-- C66. The replies of a frame are its lines, in order, but for empty ones, whether or not the last line has an
end. -/
theorem C66_items (ls : List (List Char × Eol)) (last : List Char) (h : ∀ l ∈ ls, ∀ c ∈ l.1, isBreak c = false)
    (hl : ∀ c ∈ last, isBreak c = false) :
    items (ls.flatMap (fun l => l.1 ++ l.2.chars) ++ last) = (ls.map Prod.fst ++ [last]).filter (fun l => l ≠ []) := by
  unfold items
  rw [splitLines_join ls h last]
  have e : (fun l : List Char => !l.isEmpty) = (fun l => decide (l ≠ [])) := by
    funext l
    cases l <;> simp
  rw [e, List.filter_append, List.filter_append]
  congr 1
  by_cases hn : last = []
  · subst hn
    rw [splitLines_nil]
    simp
  · rw [splitLines_last last hl hn]

/-- Replies of one line are such items. -/
example : items "1.25\r\n".toList = ["1.25".toList] ∧ items "on".toList = ["on".toList] := by decide +kernel

/-- Two commands, each with its reply. -/
example : (St.new.run (turn ['a'] ++ turn ['b'])).results = [some ['a'], some ['b']]
    ∧ asked St.new (turn ['a'] ++ turn ['b']) = 2 := by decide

end Verif.Scpi
