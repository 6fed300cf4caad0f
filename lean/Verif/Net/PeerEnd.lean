/-!
C103: the life and end of a peer process: `PeerProgram.running` and `run` (`subprocess/program.py` 96–127 and
169–215) in the process, `shutdown_protocol` and `close_protocol` (`subprocess/__init__.py` 28–69) in its host.

What a message does is reduced to how its handling ends; what the program's `main` and its heartbeat do, to how they
end. (What arrives through the pipes is C75, the exchange of environments C89.) The process is over when `run`
returns or raises: `asyncio.run` then cancels what is left.
-/
namespace Verif.PeerEnd

/-- A message written to the process: how `process_json` ends. -/
inductive Item where
  | ok
  /-- it brings the peer's environment: `_peer_env_event` is set -/
  | env
  /-- it answers the program's first request -/
  | reply
  | raises
  deriving DecidableEq

/-- `io_task`, program.py 96–127. -/
inductive Io where
  | reading | done | failed
  deriving DecidableEq

/-- The task of `main`, and that of `heartbeat_task`. -/
inductive Job where
  | unborn | alive | returned | raised
  deriving DecidableEq

/-- Where `run` and `running` are. -/
inductive At where
  /-- program.py 186 -/
  | env
  /-- program.py 193 -/
  | greeting
  /-- program.py 214 -/
  | main
  /-- program.py 215 -/
  | io
  deriving DecidableEq

inductive End where
  | clean | error | killed
  deriving DecidableEq

/-- The host: `close_protocol` not yet called, waiting for the process, returned. -/
inductive Host where
  | busy | waiting | gone
  deriving DecidableEq

structure St where
  /-- everything written, and what of it was handled (not in the code) -/
  sent : List Item
  handled : List Item
  /-- what is in the pipe -/
  pipe : List Item
  /-- whether the end of the pipe was written -/
  eof : Bool
  io : Io
  /-- `_peer_env_event` -/
  env : Bool
  /-- whether the first request was answered -/
  reply : Bool
  main : Job
  beat : Job
  pos : At
  /-- `got_eof` -/
  gotEof : Bool
  /-- whether `cleanup` ran -/
  cleaned : Bool
  ended : Option End
  host : Host
  deriving DecidableEq

/-- A process just started, program.py 129–147. -/
def St.init : St :=
  ⟨[], [], [], false, .reading, false, false, .unborn, .unborn, .env, false, false, none, .busy⟩

inductive Ev where
  /-- the host writes a message -/
  | write (i : Item)
  /-- `io_task` goes on: one message, or the end -/
  | io
  /-- `main` ends; false: it raises -/
  | main (ok : Bool)
  /-- the heartbeat raises (a command of its queue did) -/
  | beatRaises
  /-- `run` goes on if what it waits for has come -/
  | run
  /-- the first request of the program times out -/
  | timeout
  /-- the host calls `close_protocol` -/
  | close
  /-- `poll_rate` is over in `shutdown_protocol` -/
  | tick
  /-- the host sees that the process exited -/
  | seen
  deriving DecidableEq

/-- program.py 107–127. -/
def St.doIo (s : St) : St :=
  if s.io = .reading then
    match s.pipe with
    | [] => if s.eof then { s with io := .done, gotEof := true } else s
    | i :: rest =>
      let s := { s with pipe := rest, handled := s.handled ++ [i] }
      match i with
      | .ok => s
      | .env => { s with env := true }
      | .reply => { s with reply := true }
      | .raises => { s with io := .failed }
  else s

/-- The `finally` of `running`, program.py 199–205: each task is cancelled and awaited in turn, and an exception of
any of them ends it. The reading task and the heartbeat swallow the cancellation, `main` does not. -/
def St.finish (s : St) (ok : Bool) : St :=
  if s.io = .failed then { s with ended := some .error }
  else
    let s := if s.io = .reading then { s with io := .done, gotEof := true } else s
    if s.main ≠ .returned then { s with ended := some .error }
    else if s.beat = .raised then { s with ended := some .error }
    else { s with beat := .returned, cleaned := true, ended := some (if ok then .clean else .error) }

/-- `running` and `run`, program.py 176–215. -/
def St.doRun (s : St) : St :=
  match s.pos with
  | .env => if s.env then { s with main := .alive, pos := .greeting } else s
  | .greeting => if s.reply then { s with beat := .alive, pos := .main } else s
  | .main =>
    match s.main with
    | .returned => { s with pos := .io }
    | .raised => s.finish false
    | _ => s
  | .io =>
    match s.io with
    | .reading => s
    | .done => s.finish true
    | .failed => s.finish false

/-- One event. Nothing happens in a process that ended. -/
def St.step (s : St) : Ev → St
  | .write i =>
    if s.host = .busy then { s with sent := s.sent ++ [i], pipe := s.pipe ++ [i] } else s
  | .io => if s.ended = none then s.doIo else s
  | .main ok =>
    if s.ended = none ∧ s.main = .alive then { s with main := if ok then .returned else .raised } else s
  | .beatRaises => if s.ended = none ∧ s.beat = .alive then { s with beat := .raised } else s
  | .run => if s.ended = none then s.doRun else s
  -- program.py 193, outside of the `try`
  | .timeout => if s.ended = none ∧ s.pos = .greeting ∧ s.reply = false then { s with ended := some .error } else s
  -- subprocess/__init__.py 68–69 and 35–37
  | .close =>
    if s.host = .busy then
      if s.ended = none then { s with eof := true, host := .waiting } else { s with host := .gone }
    else s
  -- subprocess/__init__.py 39–45: closing the transport kills a process that still runs
  | .tick => if s.host = .waiting ∧ s.ended = none then { s with ended := some .killed } else s
  | .seen => if s.host = .waiting ∧ s.ended ≠ none then { s with host := .gone } else s

def St.run (s : St) (es : List Ev) : St := es.foldl St.step s

theorem run_nil (s : St) : s.run [] = s := rfl
theorem run_cons (s : St) (e : Ev) (es : List Ev) : s.run (e :: es) = (s.step e).run es := rfl
theorem run_append (s : St) (es fs : List Ev) : s.run (es ++ fs) = (s.run es).run fs := by
  unfold St.run
  rw [List.foldl_append]

/-! ### What a clean end means -/

structure Inv (s : St) : Prop where
  parts : s.sent = s.handled ++ s.pipe
  drained : s.ended = none → s.io = .done → s.pipe = [] ∧ s.eof = true
  eof : s.eof = true → s.host ≠ .busy
  clean : s.ended = some .clean → s.pipe = [] ∧ s.eof = true ∧ s.cleaned = true ∧ s.main = .returned
  cleaned : s.cleaned = true → s.ended ≠ none ∧ s.main = .returned ∧ s.io = .done
  unborn : s.pos = .env → s.main = .unborn
  gone : s.host = .gone → s.ended ≠ none
  killed : s.ended = some .killed → s.host ≠ .busy
  greeted : s.reply = true → Item.reply ∈ s.handled
  known : s.env = true → Item.env ∈ s.handled
  shared : s.pos ≠ .env → s.env = true
  started : s.pos = .main ∨ s.pos = .io → s.reply = true
  joined : s.pos = .io → s.main = .returned
  good : s.io ≠ .failed → Item.raises ∉ s.handled

theorem inv_init : Inv St.init := by
  constructor <;> simp [St.init]


theorem inv_step (s : St) (h : Inv s) (e : Ev) : Inv (s.step e) := by
  obtain ⟨h1, h2, h3, h4, h5, h6, h7, h8, h9, h10, h11, h12, h13, h14⟩ := h
  cases e with
  | io =>
    unfold St.step St.doIo
    constructor <;> grind
  | run =>
    unfold St.step St.doRun St.finish
    constructor <;> grind
  | _ =>
    unfold St.step
    constructor <;> grind

theorem inv_run (es : List Ev) : ∀ s, Inv s → Inv (s.run es) := by
  induction es with
  | nil => intro s h; exact h
  | cons e es ih => intro s h; exact ih _ (inv_step s h e)

/-- A state that is reached. -/
def Reached (s : St) : Prop := ∃ es, s = St.init.run es

theorem Reached.inv {s : St} (h : Reached s) : Inv s := by
  obtain ⟨es, rfl⟩ := h
  exact inv_run es _ inv_init

/-- C103: whatever happens, messages are handled in the order in which they were written, none twice and none left
out. -/
theorem C103_order (es : List Ev) : (St.init.run es).handled <+: (St.init.run es).sent :=
  ⟨_, (inv_run es _ inv_init).parts.symm⟩

/-- C103: a process that ends of itself and without exception has handled everything that was written to it, its
environment and the answer to its request among it, without an exception; its program returned, and it cleaned
up. -/
theorem C103_clean (es : List Ev) (h : (St.init.run es).ended = some .clean) :
    (St.init.run es).handled = (St.init.run es).sent ∧ (St.init.run es).eof = true ∧
      (St.init.run es).main = .returned ∧ (St.init.run es).cleaned = true ∧
      Item.raises ∉ (St.init.run es).sent ∧ (St.init.run es).host ≠ .busy := by
  have hi := inv_run es _ inv_init
  obtain ⟨h1, h2, h3, h4⟩ := hi.clean h
  have hp := hi.parts
  rw [h1, List.append_nil] at hp
  refine ⟨hp.symm, h2, h4, h3, ?_, hi.eof h2⟩
  rw [hp]
  exact hi.good (by rw [(hi.cleaned h3).2.2]; simp)

/-- C103: a process that cleaned up has no task left: the one that reads has ended, the heartbeat and the program
have returned. -/
theorem C103_tasks (es : List Ev) (h : (St.init.run es).cleaned = true) :
    (St.init.run es).io = .done ∧ (St.init.run es).gotEof = true ∧ (St.init.run es).beat = .returned ∧
      (St.init.run es).main = .returned := by
  have key : ∀ (es : List Ev) (s : St),
      ((s.io = .done ↔ s.gotEof = true) ∧ (s.cleaned = true → s.ended ≠ none ∧ s.io = .done ∧ s.beat = .returned ∧ s.main = .returned)) →
      (((s.run es).io = .done ↔ (s.run es).gotEof = true) ∧
        ((s.run es).cleaned = true → (s.run es).ended ≠ none ∧ (s.run es).io = .done ∧ (s.run es).beat = .returned ∧
          (s.run es).main = .returned)) := by
    intro es
    induction es with
    | nil => intro s h; exact h
    | cons e es ih =>
      intro s h
      rw [run_cons]
      apply ih
      obtain ⟨ha, hb⟩ := h
      cases e <;> unfold St.step <;> (try unfold St.doIo) <;> (try unfold St.doRun) <;> (try unfold St.finish) <;>
        dsimp only <;> (repeat' split) <;> first | exact ⟨ha, hb⟩ | (simp_all; done) | grind
  obtain ⟨h1, h2⟩ := key es St.init (by simp [St.init])
  obtain ⟨-, h3, h4, h5⟩ := h2 h
  exact ⟨h3, h1.mp h3, h4, h5⟩

/-- C103: the host returns from closing only when the process has ended, and kills only what it closes. -/
theorem C103_host (es : List Ev) :
    ((St.init.run es).host = .gone → (St.init.run es).ended ≠ none) ∧
      ((St.init.run es).ended = some .killed → (St.init.run es).host ≠ .busy) :=
  ⟨(inv_run es _ inv_init).gone, (inv_run es _ inv_init).killed⟩

/-- C103: the heartbeat runs from the answer to the first request to the end of the program, unless it
raised. -/
theorem C103_beats (es : List Ev) (hp : (St.init.run es).pos = .main ∨ (St.init.run es).pos = .io)
    (he : (St.init.run es).ended = none) : (St.init.run es).beat = .alive ∨ (St.init.run es).beat = .raised := by
  have key : ∀ (es : List Ev) (s : St),
      (s.pos = .main ∨ s.pos = .io → s.ended = none → s.beat = .alive ∨ s.beat = .raised) →
      ((s.run es).pos = .main ∨ (s.run es).pos = .io → (s.run es).ended = none →
        (s.run es).beat = .alive ∨ (s.run es).beat = .raised) := by
    intro es
    induction es with
    | nil => intro s h; exact h
    | cons e es ih =>
      intro s h
      rw [run_cons]
      apply ih
      cases e <;> unfold St.step <;> (try unfold St.doIo) <;> (try unfold St.doRun) <;> (try unfold St.finish) <;> grind
  exact key es _ (by simp [St.init]) hp he

/-- C103: and it does return, from any state, whatever the process does: after one poll at the latest. -/
theorem C103_host_returns (s : St) (h : Reached s) :
    (s.run [.close, .tick, .seen]).host = .gone ∧ (s.run [.close, .tick, .seen]).ended ≠ none := by
  have hg := h.inv.gone
  simp only [run_cons, run_nil, St.step]
  cases hh : s.host <;> cases he : s.ended <;> simp_all

/-! ### A process ends of itself -/

/-- The host has closed the pipe, nothing went wrong, and the environment and the answer have come or are in the
pipe. -/
structure Good (s : St) : Prop where
  inv : Inv s
  alive : s.ended = none
  eof : s.eof = true
  io : s.io ≠ .failed
  main : s.main ≠ .raised
  beat : s.beat ≠ .raised
  env : s.env = true ∨ Item.env ∈ s.pipe
  reply : s.reply = true ∨ Item.reply ∈ s.pipe
  fine : Item.raises ∉ s.pipe
  seen : s.io = .done → s.gotEof = true
  born : s.pos ≠ .env → s.main ≠ .unborn

/-- What happens in an orderly process. -/
def Ev.orderly : Ev → Prop
  | .main ok => ok = true
  | .beatRaises => False
  | .timeout => False
  | .tick => False
  | _ => True

/-- What is left to do. -/
def left (s : St) : Nat :=
  if s.ended ≠ none then 0
  else s.pipe.length + (if s.io = .reading then 1 else 0) + (if s.main = .returned then 0 else 1) +
    (match s.pos with | .env => 4 | .greeting => 3 | .main => 2 | .io => 1)

/-- On the way to a clean end, or there. -/
def Fine (s : St) : Prop := Good s ∨ s.ended = some .clean

theorem io_left (s : St) (h2 : s.ended = none) (h3 : s.eof = true) (h9 : Item.raises ∉ s.pipe) :
    left (s.step .io) ≤ left s := by
  obtain ⟨sent, handled, pipe, eof, io, env, reply, main, beat, pos, gotEof, cleaned, ended, host⟩ := s
  dsimp only at h2 h3 h9
  subst h2 h3
  cases io <;> simp [St.step, St.doIo, left]
  cases pipe with
  | nil => simp
  | cons i rest => cases i <;> simp_all

theorem io_left_lt (s : St) (h2 : s.ended = none) (h3 : s.eof = true) (hr : s.io = .reading) :
    left (s.step .io) < left s := by
  obtain ⟨sent, handled, pipe, eof, io, env, reply, main, beat, pos, gotEof, cleaned, ended, host⟩ := s
  dsimp only at h2 h3 hr
  subst h2 h3 hr
  cases pipe with
  | nil => simp [St.step, St.doIo, left]
  | cons i rest => cases i <;> simp [St.step, St.doIo, left] <;> omega

theorem run_left (s : St) (h2 : s.ended = none) (hj : s.pos = .io → s.main = .returned)
    (hk : s.pos = .env → s.main = .unborn) : left (s.step .run) ≤ left s := by
  obtain ⟨sent, handled, pipe, eof, io, env, reply, main, beat, pos, gotEof, cleaned, ended, host⟩ := s
  dsimp only at h2 hj hk
  subst h2
  cases pos <;> cases main <;> cases io <;> cases env <;> cases reply <;> cases beat <;>
    simp_all [St.step, St.doRun, St.finish, left]

theorem fine_step (s : St) (h : Fine s) (e : Ev) (he : e.orderly) : Fine (s.step e) ∧ left (s.step e) ≤ left s := by
  rcases h with h | h
  · have hi := inv_step s h.inv e
    obtain ⟨h1, h2, h3, h4, h5, h6, h7, h8, h9, h10, h11⟩ := h
    have hb := h1.eof h3
    cases e with
    | io =>
      refine ⟨Or.inl ?_, ?_⟩
      · refine ⟨hi, ?_, ?_, ?_, ?_, ?_, ?_, ?_, ?_, ?_, ?_⟩ <;>
          (unfold St.step St.doIo; clear hi; grind)
      · exact io_left s h2 h3 h9
    | run =>
      have hj := h1.joined
      have hk := h1.unborn
      have hd := h1.drained
      refine ⟨?_, ?_⟩
      · by_cases hx : (s.step .run).ended = none
        · refine Or.inl ⟨hi, hx, ?_, ?_, ?_, ?_, ?_, ?_, ?_, ?_, ?_⟩ <;>
            (clear hi; unfold St.step St.doRun St.finish at hx ⊢; grind)
        · right
          clear hi; unfold St.step St.doRun St.finish at hx ⊢
          grind
      · exact run_left s h2 hj hk
    | main ok =>
      have hok : ok = true := he
      refine ⟨Or.inl ?_, ?_⟩
      · refine ⟨hi, ?_, ?_, ?_, ?_, ?_, ?_, ?_, ?_, ?_, ?_⟩ <;>
          (unfold St.step; clear hi; grind)
      · unfold St.step left; clear hi; grind
    | beatRaises => exact he.elim
    | timeout => exact he.elim
    | tick => exact he.elim
    | write i =>
      have : s.step (.write i) = s := by unfold St.step; grind
      rw [this]
      exact ⟨Or.inl ⟨h1, h2, h3, h4, h5, h6, h7, h8, h9, h10, h11⟩, Nat.le_refl _⟩
    | close =>
      have : s.step .close = s := by unfold St.step; grind
      rw [this]
      exact ⟨Or.inl ⟨h1, h2, h3, h4, h5, h6, h7, h8, h9, h10, h11⟩, Nat.le_refl _⟩
    | seen =>
      have : s.step .seen = s := by unfold St.step; grind
      rw [this]
      exact ⟨Or.inl ⟨h1, h2, h3, h4, h5, h6, h7, h8, h9, h10, h11⟩, Nat.le_refl _⟩
  · refine ⟨Or.inr ?_, ?_⟩
    · cases e <;> (unfold St.step; grind)
    · cases e <;> (unfold St.step left; grind)

theorem fine_run (es : List Ev) : ∀ s, Fine s → (∀ e ∈ es, e.orderly) → Fine (s.run es) ∧ left (s.run es) ≤ left s := by
  induction es with
  | nil => intro s h _; exact ⟨h, Nat.le_refl _⟩
  | cons e es ih =>
    intro s h he
    obtain ⟨h1, h2⟩ := fine_step s h e (he e List.mem_cons_self)
    obtain ⟨h3, h4⟩ := ih _ h1 (fun x hx => he x (List.mem_cons_of_mem _ hx))
    exact ⟨h3, Nat.le_trans h4 h2⟩

/-- An event that makes progress and stays possible until it happens. -/
theorem segment (P : St → Prop) (w : Ev)
    (hdo : ∀ s, Good s → P s → left (s.step w) < left s)
    (hkeep : ∀ s e, Good s → P s → e.orderly → e ≠ w → left (s.step e) < left s ∨ (Good (s.step e) ∧ P (s.step e)))
    (es : List Ev) : ∀ s, Good s → P s → (∀ e ∈ es, e.orderly) → w ∈ es → left (s.run es) < left s := by
  induction es with
  | nil => intro s _ _ _ hw; simp at hw
  | cons e es ih =>
    intro s h hp he hw
    have ho := he e List.mem_cons_self
    have hr : ∀ x ∈ es, x.orderly := fun x hx => he x (List.mem_cons_of_mem _ hx)
    obtain ⟨f1, f2⟩ := fine_step s (Or.inl h) e ho
    obtain ⟨-, f4⟩ := fine_run es _ f1 hr
    rw [run_cons]
    by_cases hew : e = w
    · subst hew
      exact Nat.lt_of_le_of_lt f4 (hdo s h hp)
    · rcases hkeep s e h hp ho hew with hk | ⟨hk1, hk2⟩
      · exact Nat.lt_of_le_of_lt f4 hk
      · have hw' : w ∈ es := by
          rcases List.mem_cons.mp hw with hx | hx
          · exact absurd hx.symm hew
          · exact hx
        exact Nat.lt_of_lt_of_le (ih _ hk1 hk2 hr hw') f2

/-- Reading goes on. -/
theorem reading_segment (es : List Ev) (s : St) (h : Good s) (hr : s.io = .reading) (he : ∀ e ∈ es, e.orderly)
    (hw : Ev.io ∈ es) : left (s.run es) < left s := by
  refine segment (fun s => s.io = .reading) .io ?_ ?_ es s h hr he hw
  · intro s h hr
    have h2 := h.alive
    exact io_left_lt s h2 h.eof hr
  · intro s e h hr ho hne
    obtain ⟨f1, f2⟩ := fine_step s (Or.inl h) e ho
    rcases f1 with f1 | f1
    · right
      refine ⟨f1, ?_⟩
      have h5 := h.main
      have h11 := h.born
      have := h.inv.joined
      cases e with
      | io => exact absurd rfl hne
      | run => have hx := f1.alive; unfold St.step St.doRun St.finish at hx ⊢; grind
      | _ => unfold St.step; grind
    · left
      have h2 := h.alive
      unfold left
      rw [f1, h2]
      simp [hr]
      omega

/-- `main` returns. -/
theorem main_segment (es : List Ev) (s : St) (h : Good s) (hr : s.main = .alive) (he : ∀ e ∈ es, e.orderly)
    (hw : Ev.main true ∈ es) : left (s.run es) < left s := by
  refine segment (fun s => s.main = .alive) (.main true) ?_ ?_ es s h hr he hw
  · intro s h hr
    have h2 := h.alive
    unfold St.step left
    grind
  · intro s e h hr ho hne
    have h2 := h.alive
    obtain ⟨f1, f2⟩ := fine_step s (Or.inl h) e ho
    rcases f1 with f1 | f1
    · right
      refine ⟨f1, ?_⟩
      have hk := h.inv.unborn
      have hj := h.inv.joined
      cases e with
      | main ok => have : ok = true := ho; subst this; exact absurd rfl hne
      | io => unfold St.step St.doIo; grind
      | run => have hx := f1.alive; unfold St.step St.doRun St.finish at hx ⊢; grind
      | _ => unfold St.step; grind
    · left
      unfold left
      rw [f1, h2]
      simp [hr]
      omega

/-- What `run` waits for has come. -/
def Ready (s : St) : Prop :=
  match s.pos with
  | .env => s.env = true
  | .greeting => s.reply = true
  | .main => s.main = .returned
  | .io => s.io = .done

/-- `run` goes on. -/
theorem run_segment (es : List Ev) (s : St) (h : Good s) (hr : Ready s) (he : ∀ e ∈ es, e.orderly)
    (hw : Ev.run ∈ es) : left (s.run es) < left s := by
  refine segment Ready .run ?_ ?_ es s h hr he hw
  · intro s h hr
    have h2 := h.alive
    have hk := h.inv.unborn
    have hj := h.inv.joined
    have h6 := h.beat
    unfold Ready at hr
    unfold St.step St.doRun St.finish left
    grind
  · intro s e h hr ho hne
    have h2 := h.alive
    obtain ⟨f1, f2⟩ := fine_step s (Or.inl h) e ho
    rcases f1 with f1 | f1
    · right
      refine ⟨f1, ?_⟩
      have h4 := h.io
      have h9 := h.fine
      unfold Ready at hr ⊢
      cases e with
      | run => exact absurd rfl hne
      | io => unfold St.step St.doIo; grind
      | _ => unfold St.step; grind
    · left
      unfold left
      rw [f1, h2]
      simp
      grind

/-- A schedule in segments, in each of which reading and `run` get their turn, and `main`, which ends when `got_eof`
is set, too if it was set before. -/
def Fair : St → List (List Ev) → Prop
  | _, [] => True
  | s, es :: rest => (∀ e ∈ es, e.orderly) ∧ Ev.io ∈ es ∧ Ev.run ∈ es ∧ (s.gotEof = true → Ev.main true ∈ es) ∧
      Fair (s.run es) rest

theorem fair_segment (es : List Ev) (s : St) (h : Good s) (he : ∀ e ∈ es, e.orderly) (h1 : Ev.io ∈ es)
    (h2 : Ev.run ∈ es) (h3 : s.gotEof = true → Ev.main true ∈ es) : left (s.run es) < left s := by
  cases hi : s.io with
  | reading => exact reading_segment es s h hi he h1
  | failed => exact absurd hi h.io
  | done =>
    obtain ⟨hp, -⟩ := h.inv.drained h.alive hi
    have hv : s.env = true := by have := h.env; rw [hp] at this; simpa using this
    have hr : s.reply = true := by have := h.reply; rw [hp] at this; simpa using this
    cases hpos : s.pos with
    | env => exact run_segment es s h (by unfold Ready; rw [hpos]; exact hv) he h2
    | greeting => exact run_segment es s h (by unfold Ready; rw [hpos]; exact hr) he h2
    | io => exact run_segment es s h (by unfold Ready; rw [hpos]; exact hi) he h2
    | main =>
      cases hm : s.main with
      | returned => exact run_segment es s h (by unfold Ready; rw [hpos]; exact hm) he h2
      | alive => exact main_segment es s h hm he (h3 (h.seen hi))
      | raised => exact absurd hm h.main
      | unborn => exact absurd hm (h.born (by rw [hpos]; simp))

/-- C103: a process whose pipe was closed after its environment and the answer to its first request, and whose
handlers, program and heartbeat do not raise, ends of itself and cleanly under every fair schedule, if it is not
killed before: after as many segments as it has messages left, and six more. -/
theorem C103_ends (segs : List (List Ev)) : ∀ (s : St), Good s → Fair s segs → s.pipe.length + 6 ≤ segs.length →
    (s.run segs.flatten).ended = some .clean := by
  have key : ∀ (segs : List (List Ev)) (s : St), Fine s → Fair s segs → left s ≤ segs.length →
      (s.run segs.flatten).ended = some .clean := by
    intro segs
    induction segs with
    | nil =>
      intro s h _ hl
      rcases h with h | h
      · exfalso
        have := h.alive
        unfold left at hl
        rw [this] at hl
        simp at hl
        grind
      · exact h
    | cons es rest ih =>
      intro s h hf hl
      obtain ⟨f1, f2, f3, f4, f5⟩ := hf
      rw [List.flatten_cons, run_append]
      obtain ⟨g1, g2⟩ := fine_run es s h f1
      apply ih _ g1 f5
      rcases h with h | h
      · have := fair_segment es s h f1 f2 f3 f4
        simp only [List.length_cons] at hl
        omega
      · have : left s = 0 := by unfold left; rw [h]; simp
        omega
  intro s h hf hl
  apply key segs s (Or.inl h) hf
  refine Nat.le_trans ?_ hl
  unfold left
  rw [h.alive]
  simp only [ne_eq, not_true_eq_false, if_false]
  grind

/-- C103: a program that raises ends the process with that exception, as soon as `run` gets its turn and without
waiting for the end of the pipe. -/
theorem C103_raised (s : St) (he : s.ended = none) (hp : s.pos = .main) (hm : s.main = .raised) (es : List Ev)
    (hk : Ev.tick ∉ es) (hr : Ev.run ∈ es) : (s.run es).ended = some .error := by
  have done : ∀ (es : List Ev) (s : St), s.ended = some .error → (s.run es).ended = some .error := by
    intro es
    induction es with
    | nil => intro s h; exact h
    | cons e es ih => intro s h; rw [run_cons]; apply ih; cases e <;> (unfold St.step; grind)
  induction es generalizing s with
  | nil => simp at hr
  | cons e es ih =>
    rw [run_cons]
    have hk' : Ev.tick ∉ es := fun h => hk (List.mem_cons_of_mem _ h)
    have hne : e ≠ .tick := fun h => hk (h ▸ List.mem_cons_self)
    by_cases h : e = .run
    · subst h
      apply done
      unfold St.step St.doRun St.finish
      grind
    · have hr' : Ev.run ∈ es := by
        rcases List.mem_cons.mp hr with hx | hx
        · exact absurd hx.symm h
        · exact hx
      have hs : (s.step e).ended = none ∧ (s.step e).pos = .main ∧ (s.step e).main = .raised := by
        cases e <;> (try exact absurd rfl hne) <;> (try exact absurd rfl h) <;>
          (unfold St.step; try unfold St.doIo) <;> grind
      exact ih _ hs.1 hs.2.1 hs.2.2 hk' hr'

/-! ### What fails -/

/-- C103 fails for a pipe that is closed before the environment came: the process does not end of itself, whatever
happens; the host has to kill it. -/
theorem C103_early_fails (s : St) (he : s.ended = none) (hp : s.pos = .env) (hv : s.env = false)
    (hn : Item.env ∉ s.pipe) (hh : s.host = .waiting) (es : List Ev) (hk : Ev.tick ∉ es) :
    (s.run es).ended = none ∧ (s.run es).host = .waiting := by
  suffices h : ∀ (es : List Ev) (s : St), s.ended = none → s.pos = .env → s.env = false → Item.env ∉ s.pipe →
      s.host = .waiting → Ev.tick ∉ es → (s.run es).ended = none ∧ (s.run es).host = .waiting from
    h es s he hp hv hn hh hk
  intro es
  induction es with
  | nil => intro s h1 _ _ _ h5 _; exact ⟨h1, h5⟩
  | cons e es ih =>
    intro s h1 h2 h3 h4 h5 h7
    rw [run_cons]
    have h8 : Ev.tick ∉ es := fun hm => h7 (List.mem_cons_of_mem _ hm)
    have h9 : e ≠ .tick := fun hm => h7 (hm ▸ List.mem_cons_self)
    refine ih _ ?_ ?_ ?_ ?_ ?_ h8 <;>
      (cases e <;> (try exact absurd rfl h9) <;> (unfold St.step; try unfold St.doIo; try unfold St.doRun) <;> grind)

/-- C103: the end of the pipe is noted exactly when the reading task is over, by itself or cancelled; while the
process runs, that is only after the host closed the pipe and everything in it was handled. A process that ended
with an error has stopped reading, unless it was for want of an answer to its first request. -/
theorem C103_noted (es : List Ev) :
    ((St.init.run es).gotEof = true ↔ (St.init.run es).io = .done) ∧
    ((St.init.run es).ended = some .error → (St.init.run es).io = .reading → (St.init.run es).pos = .greeting) ∧
    ((St.init.run es).gotEof = true → (St.init.run es).ended = none →
      (St.init.run es).eof = true ∧ (St.init.run es).handled = (St.init.run es).sent) := by
  have key : ∀ (es : List Ev) (s : St), (s.gotEof = true ↔ s.io = .done) ∧
      (s.ended = some .error → s.io = .reading → s.pos = .greeting) →
      ((s.run es).gotEof = true ↔ (s.run es).io = .done) ∧
      ((s.run es).ended = some .error → (s.run es).io = .reading → (s.run es).pos = .greeting) := by
    intro es
    induction es with
    | nil => intro s h; exact h
    | cons e es ih =>
      intro s h
      rw [run_cons]
      apply ih
      clear ih
      obtain ⟨h1, h2⟩ := h
      constructor <;> cases e <;> unfold St.step <;> dsimp only <;> (try unfold St.doIo) <;> (try unfold St.doRun) <;>
        (try unfold St.finish) <;> (repeat' split) <;> first | exact h1 | exact h2 | (simp_all; done) | grind
  obtain ⟨h, h'⟩ := key es St.init (by decide)
  refine ⟨h, h', fun hg he => ?_⟩
  have hi := inv_run es _ inv_init
  obtain ⟨h1, h2⟩ := hi.drained he (h.mp hg)
  exact ⟨h2, by rw [hi.parts, h1, List.append_nil]⟩

/-- C103 fails for a process whose handler raised: `got_eof` is never set, so that the program waits for ever if that
is what it waits for; and the end is never clean, whatever happens. -/
theorem C103_raise_fails (s : St) (he : s.ended = none) (hi : s.io = .failed) (hg : s.gotEof = false)
    (es : List Ev) :
    (s.run es).ended ≠ some .clean ∧ (s.run es).gotEof = false ∧ (s.run es).handled = s.handled ∧
      (s.cleaned = false → (s.run es).cleaned = false) := by
  have h : ∀ (es : List Ev) (s : St), s.ended ≠ some .clean → s.io = .failed → s.gotEof = false →
      (s.run es).ended ≠ some .clean ∧ (s.run es).gotEof = false ∧ (s.run es).handled = s.handled ∧
      (s.cleaned = false → (s.run es).cleaned = false) := by
    intro es
    induction es with
    | nil => intro s h1 _ h3; exact ⟨h1, h3, rfl, fun h => h⟩
    | cons e es ih =>
      intro s h1 h2 h3
      rw [run_cons]
      have hs : (s.step e).ended ≠ some .clean ∧ (s.step e).io = .failed ∧ (s.step e).gotEof = false ∧
          (s.step e).handled = s.handled ∧ (s.step e).cleaned = s.cleaned := by
        cases e <;> (unfold St.step; try unfold St.doIo; try unfold St.doRun St.finish) <;> grind
      obtain ⟨g1, g2, g3, g4, g5⟩ := hs
      obtain ⟨k1, k2, k3, k4⟩ := ih _ g1 g2 g3
      exact ⟨k1, k2, by rw [k3, g4], fun hc => k4 (by rw [g5]; exact hc)⟩
  exact h es s (by rw [he]; simp) hi hg

/-- And such a process ends only when its program does, or is killed. -/
theorem C103_stuck_fails (s : St) (he : s.ended = none) (hi : s.io = .failed) (hp : s.pos = .main)
    (hm : s.main = .alive) (es : List Ev) (hk : Ev.tick ∉ es) (hn : ∀ ok, Ev.main ok ∉ es) :
    (s.run es).ended = none := by
  have h : ∀ (es : List Ev) (s : St), s.ended = none → s.io = .failed → s.pos = .main → s.main = .alive →
      Ev.tick ∉ es → (∀ ok, Ev.main ok ∉ es) → (s.run es).ended = none := by
    intro es
    induction es with
    | nil => intro s h1 _ _ _ _ _; exact h1
    | cons e es ih =>
      intro s h1 h2 h3 h4 h5 h6
      rw [run_cons]
      have h7 : e ≠ .tick := fun hm => h5 (hm ▸ List.mem_cons_self)
      have h8 : ∀ ok, e ≠ .main ok := fun ok hm => h6 ok (hm ▸ List.mem_cons_self)
      refine ih _ ?_ ?_ ?_ ?_ (fun hm => h5 (List.mem_cons_of_mem _ hm)) (fun ok hm => h6 ok (List.mem_cons_of_mem _ hm)) <;>
        (cases e <;> (try exact absurd rfl h7) <;> (try exact absurd rfl (h8 _)) <;>
          (unfold St.step; try unfold St.doIo; try unfold St.doRun) <;> grind)
  exact h es s he hi hp hm hk hn

/-- C103 fails for a program or a heartbeat that raised: `cleanup` does not run, whatever happens. -/
theorem C103_cleanup_fails (s : St) (hc : s.cleaned = false) (hm : s.main = .raised ∨ s.beat = .raised)
    (hpos : s.pos = .main ∨ s.pos = .io) (es : List Ev) :
    (s.run es).cleaned = false ∧ ((s.run es).ended = some .clean → s.ended = some .clean) := by
  induction es generalizing s with
  | nil => exact ⟨hc, fun h => h⟩
  | cons e es ih =>
    rw [run_cons]
    have hs : (s.step e).cleaned = false ∧ ((s.step e).main = .raised ∨ (s.step e).beat = .raised) ∧
        ((s.step e).pos = .main ∨ (s.step e).pos = .io) ∧
        ((s.step e).ended = some .clean → s.ended = some .clean) := by
      cases e <;> (unfold St.step; try unfold St.doIo; try unfold St.doRun St.finish) <;> grind
    obtain ⟨g1, g2, g3, g4⟩ := hs
    obtain ⟨k1, k2⟩ := ih _ g1 g2 g3
    exact ⟨k1, fun h => g4 (k2 h)⟩

/-- C103 fails for a request that times out, as it does when the host closes instead of answering: the process ends
with an exception and without cleaning up. -/
theorem C103_unanswered_fails (s : St) (he : s.ended = none) (hc : s.cleaned = false) (hp : s.pos = .greeting)
    (hr : s.reply = false) (es : List Ev) :
    (s.run (.timeout :: es)).ended = some .error ∧ (s.run (.timeout :: es)).cleaned = false := by
  have hs : s.step .timeout = { s with ended := some .error } := by
    unfold St.step; dsimp only; rw [if_pos ⟨he, hp, hr⟩]
  rw [run_cons, hs]
  have h : ∀ (es : List Ev) (s : St), s.ended = some .error → s.cleaned = false →
      (s.run es).ended = some .error ∧ (s.run es).cleaned = false := by
    intro es
    induction es with
    | nil => intro s h1 h2; exact ⟨h1, h2⟩
    | cons e es ih =>
      intro s h1 h2
      rw [run_cons]
      refine ih _ ?_ ?_ <;> (cases e <;> unfold St.step <;> grind)
  exact h es _ rfl hc

/-- C103 fails for a process that needs longer than one poll to work off its pipe: it is killed with whatever is left
in it. -/
theorem C103_killed_fails (s : St) (he : s.ended = none) (hh : s.host = .waiting) (es : List Ev) :
    (s.run (.tick :: es)).ended = some .killed ∧ (s.run (.tick :: es)).handled = s.handled ∧
      (s.run (.tick :: es)).sent = s.sent := by
  have hs : s.step .tick = { s with ended := some .killed } := by
    unfold St.step; dsimp only; rw [if_pos ⟨hh, he⟩]
  rw [run_cons, hs]
  have h : ∀ (es : List Ev) (s : St), s.ended = some .killed → s.host ≠ .busy →
      (s.run es).ended = some .killed ∧ (s.run es).handled = s.handled ∧ (s.run es).sent = s.sent := by
    intro es
    induction es with
    | nil => intro s h1 _; exact ⟨h1, rfl, rfl⟩
    | cons e es ih =>
      intro s h1 h2
      rw [run_cons]
      have hx : (s.step e).ended = some .killed ∧ (s.step e).host ≠ .busy ∧ (s.step e).handled = s.handled ∧
          (s.step e).sent = s.sent := by
        cases e <;> (unfold St.step; grind)
      obtain ⟨g1, g2, g3, g4⟩ := hx
      obtain ⟨k1, k2, k3⟩ := ih _ g1 g2
      exact ⟨k1, by rw [k2, g3], by rw [k3, g4]⟩
  exact h es _ rfl (by rw [hh]; simp)

/-! ### Cases -/

/-- A process that gets its environment, an answer and two messages, and is closed. -/
def exLife : List Ev :=
  [.write .env, .io, .run, .write .reply, .write .ok, .io, .run, .write .ok, .close]

theorem exLife_good : Good (St.init.run exLife) := by
  refine ⟨inv_run _ _ inv_init, ?_, ?_, ?_, ?_, ?_, ?_, ?_, ?_, ?_, ?_⟩ <;> decide

theorem C103_cases :
    Good (St.init.run exLife) ∧
    Fair (St.init.run exLife) (List.replicate 8 [.io, .main true, .run]) ∧
    (St.init.run (exLife ++ [.io, .io, .io, .main true, .run, .run, .seen])).ended = some .clean ∧
    (St.init.run (exLife ++ [.io, .io, .io, .main true, .run, .run, .seen])).host = .gone ∧
    (St.init.run (exLife ++ [.io, .tick, .seen])).ended = some .killed ∧
    (St.init.run (exLife ++ [.io, .tick, .seen])).handled ≠ (St.init.run (exLife ++ [.io, .tick, .seen])).sent ∧
    (St.init.run [.write .ok, .close, .io, .io]).pos = .env ∧
    (St.init.run [.write .ok, .close, .io, .io]).gotEof = true ∧
    (St.init.run (exLife ++ [.main false, .run])).cleaned = false ∧
    (St.init.run [.write .env, .io, .run, .write .reply, .write .raises, .io, .run, .io]).io = .failed := by
  refine ⟨exLife_good, ?_, by decide, by decide, by decide, by decide, by decide, by decide, by decide, by decide⟩
  have ho : ∀ e ∈ [Ev.io, .main true, .run], e.orderly := by
    intro e he
    simp only [List.mem_cons, List.not_mem_nil, or_false] at he
    rcases he with rfl | rfl | rfl <;> simp [Ev.orderly]
  have : ∀ (n : Nat) (s : St), Fair s (List.replicate n [.io, .main true, .run]) := by
    intro n
    induction n with
    | zero => intro s; trivial
    | succ n ih => intro s; exact ⟨ho, by decide, by decide, fun _ => by decide, ih _⟩
  exact this 8 _

end Verif.PeerEnd
