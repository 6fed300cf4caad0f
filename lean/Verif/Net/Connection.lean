import Verif.Base

/-!
# Connections: the enable state and the outgoing queue (C48, C49)

`net/connection.py` 48-122 (construction), 172-221 (disabling and
initialisation), 246-256 (restart), 269-319 (processing), 341-383 (writers and
tasks).

Tasks are numbered in the order they are created. `alive` are the tasks that
are not done, `cancelled` those whose cancellation has been requested; asyncio
ends such a task at its next suspension (trusted). Simplifications: logging,
metrics and the transport are left out; `disable_extra` is counted.
-/

namespace Verif.Net

/-! ## The enable state -/

/-- The part of `Connection` that concerns its enable state. `extras` and
`periods` are ghost counters: the runs of `disable_extra`, and the times the
connection went from disabled to enabled (one for the construction). -/
structure Conn where
  enabled : Bool
  /-- `disabled_event` -/
  event : Bool
  initialized : Bool
  exited : Bool
  /-- `_tasks` -/
  listed : List Nat
  /-- `_conn_tasks` -/
  connTasks : List Nat
  alive : List Nat
  cancelled : List Nat
  next : Nat
  extras : Nat
  periods : Nat
deriving DecidableEq

/-- `_set_enabled` (`connection.py` 180-188). -/
def Conn.setEnabled (c : Conn) (b : Bool) : Conn :=
  ⟨b, !b, if b then c.initialized else false, c.exited, c.listed, c.connTasks, c.alive,
   c.cancelled, c.next, c.extras, if b && !c.enabled then c.periods + 1 else c.periods⟩

/-- `__init__` (`connection.py` 48-122). -/
def Conn.new : Conn :=
  Conn.setEnabled ⟨false, false, false, false, [], [], [], [], 0, 0, 0⟩ true

/-- `disable` (`connection.py` 190-204); `tasks` also drops the completed
connection-specific tasks (370-383). -/
def Conn.disable (c : Conn) : Conn :=
  if c.enabled then
    Conn.setEnabled
      ⟨c.enabled, c.event, c.initialized, c.exited, c.listed,
       c.connTasks.filter (· ∈ c.alive), c.alive,
       c.cancelled ++ (c.listed ++ c.connTasks).filter (· ∈ c.alive),
       c.next, c.extras + 1, c.periods⟩ false
  else c

/-- The tasks `process` starts (`connection.py` 283-307): `n` of them. -/
def Conn.process (c : Conn) (n : Nat) : Conn :=
  if c.enabled then
    ⟨c.enabled, c.event, c.initialized, false, (List.range n).map (c.next + ·), c.connTasks,
     c.alive ++ (List.range n).map (c.next + ·), c.cancelled, c.next + n, c.extras, c.periods⟩
  else c

/-- A connection-specific task (`tftp/base.py` 285). -/
def Conn.addTask (c : Conn) : Conn :=
  ⟨c.enabled, c.event, c.initialized, c.exited, c.listed, c.connTasks ++ [c.next],
   c.alive ++ [c.next], c.cancelled, c.next + 1, c.extras, c.periods⟩

/-- A task ends. -/
def Conn.finish (c : Conn) (t : Nat) : Conn :=
  ⟨c.enabled, c.event, c.initialized, c.exited, c.listed, c.connTasks,
   c.alive.filter (· ≠ t), c.cancelled, c.next, c.extras, c.periods⟩

/-- The end of `_async_init` (`connection.py` 212-221). -/
def Conn.asyncInit (c : Conn) (ok : Bool) : Conn :=
  let d := if ok then c else c.disable
  ⟨d.enabled, d.event, true, d.exited, d.listed, d.connTasks, d.alive, d.cancelled, d.next,
   d.extras, d.periods⟩

/-- The end of `process` (`connection.py` 318-319). -/
def Conn.exit (c : Conn) : Conn :=
  ⟨c.enabled, c.event, c.initialized, true, c.listed, c.connTasks, c.alive, c.cancelled,
   c.next, c.extras, c.periods⟩

/-- What happens to a connection. -/
inductive COp where
  | disable
  /-- `_handle_restart` after a successful restart (`connection.py` 253) -/
  | restarted
  | process (n : Nat)
  | addTask
  | finish (t : Nat)
  | asyncInit (ok : Bool)
  | exit

def COp.run (c : Conn) : COp → Conn
  | .disable => c.disable
  | .restarted => c.setEnabled true
  | .process n => c.process n
  | .addTask => c.addTask
  | .finish t => c.finish t
  | .asyncInit ok => c.asyncInit ok
  | .exit => c.exit

/-- The connection after a history. -/
def Conn.after (ops : List COp) : Conn := ops.foldl COp.run Conn.new

/-- The invariant behind C48. -/
theorem conn_inv (ops : List COp) (c : Conn) (h : c.event = !c.enabled)
    (hx : c.extras + (if c.enabled then 1 else 0) = c.periods) :
    (ops.foldl COp.run c).event = (!(ops.foldl COp.run c).enabled) ∧
    (ops.foldl COp.run c).extras + (if (ops.foldl COp.run c).enabled then 1 else 0)
      = (ops.foldl COp.run c).periods := by
  induction ops generalizing c with
  | nil => exact ⟨h, hx⟩
  | cons o ops ih =>
    have hd : ∀ c : Conn, c.event = !c.enabled →
        c.extras + (if c.enabled then 1 else 0) = c.periods →
        c.disable.event = (!c.disable.enabled) ∧
        c.disable.extras + (if c.disable.enabled then 1 else 0) = c.disable.periods := by
      intro c h hx
      unfold Conn.disable
      cases he : c.enabled with
      | false =>
        rw [he] at h hx
        exact ⟨by simp [he, h], by simpa [he] using hx⟩
      | true =>
        rw [he] at hx
        simp only [if_true] at hx
        simp [Conn.setEnabled, hx]
    apply ih
    · cases o with
      | disable => exact (hd c h hx).1
      | restarted => rfl
      | process n =>
        show (c.process n).event = !(c.process n).enabled
        unfold Conn.process; split <;> exact h
      | addTask => exact h
      | finish t => exact h
      | asyncInit ok =>
        cases ok with
        | true => exact h
        | false => exact (hd c h hx).1
      | exit => exact h
    · cases o with
      | disable => exact (hd c h hx).2
      | restarted =>
        show c.extras + (if true = true then 1 else 0)
          = if (true && !c.enabled) = true then c.periods + 1 else c.periods
        cases he : c.enabled with
        | false => rw [he] at hx; simp at hx ⊢; exact hx
        | true => rw [he] at hx; simp at hx ⊢; exact hx
      | process n =>
        show (c.process n).extras + (if (c.process n).enabled then 1 else 0)
          = (c.process n).periods
        have h1 : (c.process n).extras = c.extras ∧ (c.process n).enabled = c.enabled ∧
            (c.process n).periods = c.periods := by
          unfold Conn.process
          split <;> exact ⟨rfl, rfl, rfl⟩
        rw [h1.1, h1.2.1, h1.2.2]; exact hx
      | addTask => exact hx
      | finish t => exact hx
      | asyncInit ok =>
        cases ok with
        | true => exact hx
        | false => exact (hd c h hx).2
      | exit => exact hx

/-- C48: after every history, a connection is disabled exactly when its
disabled event is set. -/
theorem C48_consistent (ops : List COp) :
    (Conn.after ops).enabled = false ↔ (Conn.after ops).event = true := by
  rw [Conn.after, (conn_inv ops Conn.new rfl rfl).1]
  cases (List.foldl COp.run Conn.new ops).enabled <;> simp

/-- C48: the extra actions have run once in every enabled period that has
ended, and not in the one that has not. -/
theorem C48_extras (ops : List COp) :
    (Conn.after ops).extras + (if (Conn.after ops).enabled then 1 else 0)
      = (Conn.after ops).periods :=
  (conn_inv ops Conn.new rfl rfl).2

/-- C48: disabling twice is disabling once, whatever the state. -/
theorem C48_idempotent (c : Conn) :
    c.disable.disable = c.disable ∧ c.disable.enabled = false := by
  unfold Conn.disable
  cases he : c.enabled with
  | false => simp [he]
  | true => simp [Conn.setEnabled]

/-- A history in which a processing call starts its tasks only when no task
of the connection is running any more, other than ones already cancelled or
connection-specific. The manager does not keep to this (C52). -/
def Orderly : Conn → List COp → Prop
  | _, [] => True
  | c, o :: ops =>
    (match o with
     | .process _ => ∀ t ∈ c.alive, t ∈ c.cancelled ∨ t ∈ c.connTasks
     | .addTask => c.enabled = true
     | _ => True) ∧ Orderly (o.run c) ops

/-- Every task that is running and not cancelled is one the connection knows;
none is when it is disabled. -/
structure TInv (c : Conn) : Prop where
  known : ∀ t ∈ c.alive, t ∈ c.cancelled ∨ t ∈ c.listed ∨ t ∈ c.connTasks
  off : c.enabled = false → ∀ t ∈ c.alive, t ∈ c.cancelled

theorem TInv.disable {c : Conn} (h : TInv c) : TInv c.disable := by
  unfold Conn.disable
  cases he : c.enabled with
  | false => simpa [he] using h
  | true =>
    simp only [if_true, Conn.setEnabled]
    have hall : ∀ t ∈ c.alive,
        t ∈ c.cancelled ++ (c.listed ++ c.connTasks).filter (· ∈ c.alive) := by
      intro t ht
      rcases h.known t ht with hc | hl | hk
      · exact List.mem_append_left _ hc
      · apply List.mem_append_right
        rw [List.mem_filter]
        exact ⟨List.mem_append_left _ hl, by simpa using ht⟩
      · apply List.mem_append_right
        rw [List.mem_filter]
        exact ⟨List.mem_append_right _ hk, by simpa using ht⟩
    exact ⟨fun t ht => Or.inl (hall t ht), fun _ => hall⟩

theorem tinv_run (ops : List COp) (c : Conn) (h : TInv c) (ho : Orderly c ops) :
    TInv (ops.foldl COp.run c) := by
  induction ops generalizing c with
  | nil => exact h
  | cons o ops ih =>
    obtain ⟨h0, hr⟩ := ho
    refine ih _ ?_ hr
    cases o with
    | disable => exact h.disable
    | restarted => exact ⟨h.known, fun hf => (by cases hf)⟩
    | process n =>
      show TInv (c.process n)
      unfold Conn.process
      cases he : c.enabled with
      | false => simpa [he] using h
      | true =>
        simp only [if_true]
        refine ⟨?_, fun hf => (by cases hf)⟩
        intro t ht
        rcases List.mem_append.mp ht with ht | ht
        · rcases h0 t ht with hc | hk
          · exact Or.inl hc
          · exact Or.inr (Or.inr hk)
        · exact Or.inr (Or.inl ht)
    | addTask =>
      refine ⟨?_, fun hf => ?_⟩
      · intro t ht
        rcases List.mem_append.mp ht with ht | ht
        · rcases h.known t ht with hc | hl | hk
          · exact Or.inl hc
          · exact Or.inr (Or.inl hl)
          · exact Or.inr (Or.inr (List.mem_append_left _ hk))
        · exact Or.inr (Or.inr (List.mem_append_right _ ht))
      · have : c.enabled = false := hf
        rw [h0] at this; cases this
    | finish t =>
      have hsub : ∀ x, x ∈ c.alive.filter (· ≠ t) → x ∈ c.alive :=
        fun x hx => (List.mem_filter.mp hx).1
      exact ⟨fun x hx => h.known x (hsub x hx), fun hf x hx => h.off hf x (hsub x hx)⟩
    | asyncInit ok =>
      cases ok with
      | true => exact ⟨h.known, h.off⟩
      | false => exact ⟨h.disable.known, h.disable.off⟩
    | exit => exact ⟨h.known, h.off⟩

/-- C48: after every orderly history that leaves the connection disabled,
each task of the connection that is still running has been cancelled. -/
theorem C48_tasks_partial (ops : List COp) (ho : Orderly Conn.new ops)
    (hd : (Conn.after ops).enabled = false) :
    ∀ t ∈ (Conn.after ops).alive, t ∈ (Conn.after ops).cancelled :=
  (tinv_run ops Conn.new ⟨fun t ht => (by cases ht), fun _ t ht => (by cases ht)⟩ ho).off hd

/-- An orderly history with two enabled periods. -/
def orderlyOps : List COp :=
  [.process 5, .asyncInit true, .addTask, .disable, .finish 0, .disable, .finish 1, .finish 2,
   .finish 3, .finish 4, .finish 5, .exit, .restarted, .process 4, .disable]

example : Orderly Conn.new orderlyOps := by
  simp only [orderlyOps, Orderly]
  decide +kernel

example : (Conn.after orderlyOps).alive = [6, 7, 8, 9] ∧
    (Conn.after orderlyOps).extras = 2 ∧ (Conn.after orderlyOps).enabled = false := by
  decide +kernel

/-- C48, the part about tasks is false of the code when `process` is called
on a connection that is being processed: the tasks of the first call are
forgotten, and disabling the connection does not cancel them. -/
theorem C48_tasks_fails (c : Conn) (he : c.enabled = true) (n m : Nat)
    (hf : ∀ t ∈ c.cancelled ++ c.connTasks, t < c.next) :
    ∀ k, k < n →
      (c.next + k) ∈ ((c.process n).process m).disable.alive ∧
      (c.next + k) ∉ ((c.process n).process m).disable.cancelled ∧
      ((c.process n).process m).disable.enabled = false := by
  intro k hk
  have h1 : (c.process n).enabled = true := by
    unfold Conn.process; rw [if_pos he]; exact he
  have h2 : ((c.process n).process m).enabled = true := by
    rw [Conn.process, if_pos h1]; exact h1
  have hk' : k ∈ List.range n := List.mem_range.mpr hk
  refine ⟨?_, ?_, ?_⟩
  · rw [Conn.disable, if_pos h2]
    show _ ∈ ((c.process n).process m).alive
    rw [Conn.process, if_pos h1, Conn.process, if_pos he]
    exact List.mem_append_left _ (List.mem_append_right _ (List.mem_map.mpr ⟨k, hk', rfl⟩))
  · rw [Conn.disable, if_pos h2]
    show _ ∉ ((c.process n).process m).cancelled ++ _
    rw [Conn.process, if_pos h1, Conn.process, if_pos he]
    dsimp only
    intro hm
    rcases List.mem_append.mp hm with hm | hm
    · have := hf _ (List.mem_append_left _ hm); omega
    · have hm := (List.mem_filter.mp hm).1
      rcases List.mem_append.mp hm with hm | hm
      · obtain ⟨j, _, hj⟩ := List.mem_map.mp hm
        omega
      · have := hf _ (List.mem_append_right _ hm); omega
  · exact (C48_idempotent _).2

/-- Two overlapping processing calls of five tasks each, reached from a new
connection. -/
example : (Conn.after [.process 5, .process 5, .disable]).cancelled = [5, 6, 7, 8, 9] ∧
    (Conn.after [.process 5, .process 5, .disable]).alive = List.range 10 := by
  decide +kernel

/-- C48: an initialisation that fails leaves the connection disabled and yet
marked as initialised, because the flag is set after `disable` has cleared it. -/
theorem C48_initialized_fails (c : Conn) :
    (c.asyncInit false).enabled = false ∧ (c.asyncInit false).initialized = true :=
  ⟨(C48_idempotent c).2, rfl⟩

/-- C48: a connection counts as initialised only after an initialisation, and no longer once it has been disabled. -/
theorem C48_initialized (ops : List COp) :
    ((Conn.after ops).initialized = true → ∃ ok, .asyncInit ok ∈ ops) ∧
    ((Conn.after ops).enabled = true → (Conn.after (ops ++ [.disable])).initialized = false) := by
  constructor
  · have key : ∀ (ops : List COp) (c : Conn), (∀ ok, .asyncInit ok ∉ ops) → c.initialized = false →
        (ops.foldl COp.run c).initialized = false := by
      intro ops
      induction ops with
      | nil => intro c _ h; exact h
      | cons o ops ih =>
        intro c hn h
        refine ih _ (fun ok hok => hn ok (List.mem_cons_of_mem _ hok)) ?_
        cases o with
        | disable => simp only [COp.run, Conn.disable]; split <;> simp [Conn.setEnabled, h]
        | restarted => simp [COp.run, Conn.setEnabled, h]
        | process n => simp only [COp.run, Conn.process]; split <;> exact h
        | addTask => exact h
        | finish t => exact h
        | asyncInit ok => exact absurd List.mem_cons_self (hn ok)
        | exit => exact h
    intro hi
    by_cases hn : ∀ ok, COp.asyncInit ok ∉ ops
    · have := key ops Conn.new hn rfl
      rw [Conn.after, this] at hi
      cases hi
    · exact Classical.byContradiction fun hx => hn fun ok hok => hx ⟨ok, hok⟩
  · intro he
    rw [Conn.after, List.foldl_append]
    change (Conn.disable (Conn.after ops)).initialized = false
    rw [Conn.disable, if_pos he]
    simp [Conn.setEnabled]

/-- C48: a task of the connection's own stays in its list as long as it runs, through every disabling and restart, so
that each disabling cancels it. -/
theorem C48_own_tasks (before after : List COp) :
    let t := (Conn.after before).next
    let c := Conn.after (before ++ .addTask :: after)
    t ∈ c.alive → t ∈ c.connTasks ∧ (c.enabled = true → t ∈ c.disable.cancelled) := by
  intro t c
  have key : ∀ (ops : List COp) (d : Conn), (t ∈ d.alive → t ∈ d.connTasks) → t < d.next →
      (t ∈ (ops.foldl COp.run d).alive → t ∈ (ops.foldl COp.run d).connTasks) := by
    intro ops
    induction ops with
    | nil => intro d h _; exact h
    | cons o ops ih =>
      intro d h hlt
      have hd : ∀ d : Conn, (t ∈ d.alive → t ∈ d.connTasks) → (t ∈ d.disable.alive → t ∈ d.disable.connTasks) ∧
          d.disable.next = d.next := by
        intro d h
        unfold Conn.disable
        split
        · refine ⟨fun ha => ?_, rfl⟩
          simp only [Conn.setEnabled] at ha ⊢
          exact List.mem_filter.mpr ⟨h ha, by simpa using ha⟩
        · exact ⟨h, rfl⟩
      cases o with
      | disable => exact ih _ (hd d h).1 (by show t < d.disable.next; rw [(hd d h).2]; exact hlt)
      | restarted => exact ih _ h hlt
      | process n =>
        refine ih _ ?_ ?_
        · simp only [COp.run, Conn.process]
          split
          · intro ha
            simp only [List.mem_append, List.mem_map, List.mem_range] at ha
            rcases ha with ha | ⟨k, -, hk⟩
            · exact h ha
            · omega
          · exact h
        · simp only [COp.run, Conn.process]
          split
          · simp only; omega
          · exact hlt
      | addTask =>
        refine ih _ ?_ ?_
        · simp only [COp.run, Conn.addTask, List.mem_append, List.mem_singleton]
          rintro (ha | ha)
          · exact .inl (h ha)
          · omega
        · simp only [COp.run, Conn.addTask]; omega
      | finish u =>
        refine ih _ ?_ hlt
        simp only [COp.run, Conn.finish, List.mem_filter]
        exact fun ha => h ha.1
      | asyncInit ok =>
        cases ok
        · refine ih _ ?_ ?_
          · simp only [COp.run, Conn.asyncInit]; exact (hd d h).1
          · simp only [COp.run, Conn.asyncInit]
            show t < d.disable.next
            rw [(hd d h).2]; exact hlt
        · exact ih _ h hlt
      | exit => exact ih _ h hlt
  have hc : c = after.foldl COp.run ((Conn.after before).addTask) := by
    show (before ++ COp.addTask :: after).foldl COp.run Conn.new = _
    rw [List.foldl_append, List.foldl_cons]
    rfl
  intro ha
  have hm : t ∈ c.connTasks := by
    rw [hc] at ha ⊢
    exact key after _ (by simp [Conn.addTask, t]) (by simp [Conn.addTask, t]) ha
  refine ⟨hm, fun he => ?_⟩
  unfold Conn.disable
  rw [if_pos he]
  simp only [Conn.setEnabled, List.mem_append, List.mem_filter]
  exact .inr ⟨.inr hm, by simpa using ha⟩

/-- A write to the `enabled` channel of the environment, which shares the
primitive (`connection.py` 88-94) and can be forced by a command. -/
def Conn.writeChannel (c : Conn) (b : Bool) : Conn :=
  ⟨b, c.event, c.initialized, c.exited, c.listed, c.connTasks, c.alive, c.cancelled, c.next,
   c.extras, c.periods⟩

/-- C48: a forced write to the `enabled` channel breaks the agreement between
the state and the event. Written false it also makes a later `disable` do
nothing, so that the event is never set and no task is cancelled. -/
theorem C48_forced_fails (ops : List COp) (he : (Conn.after ops).enabled = true) :
    ((Conn.after ops).writeChannel false).enabled = false ∧
    ((Conn.after ops).writeChannel false).disable.event = false ∧
    ((Conn.after ops).writeChannel false).disable.cancelled = (Conn.after ops).cancelled := by
  refine ⟨rfl, ?_, rfl⟩
  show (Conn.after ops).event = false
  cases hv : (Conn.after ops).event with
  | false => rfl
  | true =>
    have := (C48_consistent ops).mpr hv
    rw [he] at this; cases this

/-! ## The outgoing queue -/

/-- One outgoing queue with its writer (`connection.py` 341-367): the
messages waiting, the one the writer has taken and is sending, and what has
been handed to the transport. -/
structure Out (μ : Type) where
  enabled : Bool
  /-- the writer task is running -/
  writer : Bool
  queue : List μ
  flight : Option μ
  sent : List μ

/-- What happens to an outgoing queue. -/
inductive OOp (μ : Type) where
  /-- `send_text` / `send_binary` (164-170) -/
  | send (m : μ)
  /-- the writer's `queue.get()` returns (348, 362) -/
  | fetch
  /-- the writer's send completes (352-353, 366-367) -/
  | deliver
  /-- the writer's send raises: the task ends, the connection stays enabled -/
  | sendRaises
  /-- `disable` (190-204): the writer is cancelled, also in the middle of a send -/
  | disable
  /-- a restart and the next processing call -/
  | start

variable {μ : Type}

def OOp.run (s : Out μ) : OOp μ → Out μ
  | .send m => ⟨s.enabled, s.writer, s.queue ++ [m], s.flight, s.sent⟩
  | .fetch =>
    match s.writer, s.flight, s.queue with
    | true, none, m :: q => ⟨s.enabled, s.writer, q, some m, s.sent⟩
    | _, _, _ => s
  | .deliver =>
    match s.flight with
    | some m => ⟨s.enabled, s.writer, s.queue, none, s.sent ++ [m]⟩
    | none => s
  | .sendRaises =>
    match s.flight with
    | some _ => ⟨s.enabled, false, s.queue, none, s.sent⟩
    | none => s
  | .disable => if s.enabled then ⟨false, false, s.queue, none, s.sent⟩ else s
  | .start => if s.enabled then s else ⟨true, true, s.queue, s.flight, s.sent⟩

/-- The messages enqueued, in order. -/
def sends : List (OOp μ) → List μ
  | [] => []
  | .send m :: ops => m :: sends ops
  | _ :: ops => sends ops

/-- What the queue still owes. -/
def Out.held (s : Out μ) : List μ := s.sent ++ s.flight.toList ++ s.queue

theorem sends_cons (o : OOp μ) (ops : List (OOp μ)) :
    sends (o :: ops) = sends [o] ++ sends ops := by
  cases o <;> rfl

theorem out_step (o : OOp μ) (s : Out μ) :
    (o.run s).held.Sublist (s.held ++ sends [o]) ∧
    (s.sent <+: (o.run s).sent) := by
  cases o with
  | send m =>
    constructor
    · simp [OOp.run, Out.held, sends, List.append_assoc]
    · exact List.prefix_refl _
  | fetch =>
    simp only [OOp.run, sends, List.append_nil]
    split
    · rename_i h1 h2 h3
      constructor
      · simp [Out.held, h2, h3]
      · exact List.prefix_refl _
    · exact ⟨List.Sublist.refl _, List.prefix_refl _⟩
  | deliver =>
    simp only [OOp.run, sends, List.append_nil]
    split
    · rename_i m h
      constructor
      · simp [Out.held, h]
      · exact List.prefix_append _ _
    · exact ⟨List.Sublist.refl _, List.prefix_refl _⟩
  | sendRaises =>
    simp only [OOp.run, sends, List.append_nil]
    split
    · constructor
      · simp [Out.held]
      · exact List.prefix_refl _
    · exact ⟨List.Sublist.refl _, List.prefix_refl _⟩
  | disable =>
    simp only [OOp.run, sends, List.append_nil]
    split
    · constructor
      · simp [Out.held]
      · exact List.prefix_refl _
    · exact ⟨List.Sublist.refl _, List.prefix_refl _⟩
  | start =>
    simp only [OOp.run, sends, List.append_nil]
    split
    · exact ⟨List.Sublist.refl _, List.prefix_refl _⟩
    · exact ⟨List.Sublist.refl _, List.prefix_refl _⟩

theorem out_run (ops : List (OOp μ)) (s : Out μ) :
    (ops.foldl OOp.run s).held.Sublist (s.held ++ sends ops) ∧
    s.sent <+: (ops.foldl OOp.run s).sent := by
  induction ops generalizing s with
  | nil => simp [sends]
  | cons o ops ih =>
    obtain ⟨h1, h2⟩ := out_step o s
    obtain ⟨h3, h4⟩ := ih (o.run s)
    refine ⟨?_, h2.trans h4⟩
    rw [sends_cons, ← List.append_assoc]
    exact h3.trans (h1.append (List.Sublist.refl _))

/-- A queue before the first processing call. -/
def Out.new : Out μ := ⟨false, false, [], none, []⟩

/-- C49: after every history, with any number of restarts, failed sends and
interrupted sends, what has been sent is a part of what was enqueued, in that
order and each occurrence at most once; so is what has been sent followed by
what is still held. -/
theorem C49_order (ops : List (OOp μ)) :
    (ops.foldl OOp.run Out.new).sent.Sublist (sends ops) ∧
    ((ops.foldl OOp.run Out.new).sent ++ (ops.foldl OOp.run Out.new).queue).Sublist
      (sends ops) := by
  have h := (out_run ops Out.new).1
  simp only [Out.new, Out.held, Option.toList_none, List.append_nil, List.nil_append] at h
  constructor
  · exact ((List.sublist_append_left _ _).trans (List.sublist_append_left _ _)).trans h
  · refine List.Sublist.trans ?_ h
    exact (List.sublist_append_left _ _).append (List.Sublist.refl _)

/-- The history does not interrupt a send. -/
def Uninterrupted : Out μ → List (OOp μ) → Prop
  | _, [] => True
  | s, o :: ops =>
    (match o with
     | .disable => s.flight = none
     | .sendRaises => s.flight = none
     | _ => True) ∧ Uninterrupted (o.run s) ops

/-- C49: if no send is interrupted, nothing is lost: what has been sent, what
is being sent and what is waiting are together exactly what was enqueued. -/
theorem C49_exact (ops : List (OOp μ)) (s : Out μ) (hu : Uninterrupted s ops) :
    (ops.foldl OOp.run s).held = s.held ++ sends ops := by
  induction ops generalizing s with
  | nil => simp [sends]
  | cons o ops ih =>
    obtain ⟨h0, hr⟩ := hu
    show (ops.foldl OOp.run (o.run s)).held = _
    rw [ih _ hr, sends_cons, ← List.append_assoc]
    congr 1
    cases o with
    | send m => simp [OOp.run, Out.held, sends, List.append_assoc]
    | fetch =>
      simp only [OOp.run, sends, List.append_nil]
      split
      · rename_i h1 h2 h3
        simp [Out.held, h2, h3]
      · rfl
    | deliver =>
      simp only [OOp.run, sends, List.append_nil]
      split
      · rename_i m h
        simp [Out.held, h]
      · rfl
    | sendRaises =>
      have h0 : s.flight = none := h0
      simp [OOp.run, sends, h0]
    | disable =>
      have h0 : s.flight = none := h0
      simp only [OOp.run, sends, List.append_nil]
      split
      · simp [Out.held, h0]
      · rfl
    | start =>
      simp only [OOp.run, sends, List.append_nil]
      split <;> simp [Out.held]

/-- The writer's turns: a send completes, then the next message is taken. -/
def turns : Nat → List (OOp μ)
  | 0 => []
  | n + 1 => .deliver :: .fetch :: turns n

theorem turns_sent (q : List μ) (e : Bool) (f : Option μ) (sent : List μ) :
    ((turns (q.length + 1)).foldl OOp.run ⟨e, true, q, f, sent⟩).sent
      = sent ++ f.toList ++ q ∧
    ((turns (q.length + 1)).foldl OOp.run ⟨e, true, q, f, sent⟩).queue = [] := by
  induction q generalizing f sent with
  | nil =>
    cases f with
    | none => simp [turns, OOp.run]
    | some m => simp [turns, OOp.run]
  | cons m q ih =>
    rw [List.length_cons, turns, List.foldl_cons, List.foldl_cons]
    have hstep : OOp.run (OOp.run (⟨e, true, m :: q, f, sent⟩ : Out μ) .deliver) .fetch
        = ⟨e, true, q, some m, sent ++ f.toList⟩ := by
      cases f <;> simp [OOp.run]
    rw [hstep]
    have h := ih (some m) (sent ++ f.toList)
    simp only [Option.toList_some, List.append_assoc, List.singleton_append] at h ⊢
    exact h

/-- C49: while the connection stays enabled and its writer runs, everything
that has been enqueued is sent once the writer has had as many turns as there
are messages waiting, and one more. -/
theorem C49_progress (ops : List (OOp μ)) (hu : Uninterrupted Out.new ops)
    (hw : (ops.foldl OOp.run Out.new).writer = true) :
    ((turns ((ops.foldl OOp.run Out.new).queue.length + 1)).foldl OOp.run
      (ops.foldl OOp.run Out.new)).sent = sends ops := by
  have h := C49_exact ops Out.new hu
  generalize ops.foldl OOp.run Out.new = s at h hw
  obtain ⟨e, w, q, f, sent⟩ := s
  simp only at hw
  subst hw
  rw [(turns_sent q e f sent).1]
  simpa [Out.held, Out.new] using h

/-- A history with a restart between two sends. -/
def sampleOps : List (OOp Nat) :=
  [.send 1, .start, .fetch, .send 2, .deliver, .disable, .send 3, .start, .fetch]

example : Uninterrupted Out.new sampleOps ∧
    (sampleOps.foldl OOp.run Out.new).writer = true := by
  refine ⟨?_, by decide +kernel⟩
  simp [sampleOps, Uninterrupted, OOp.run, Out.new]

example : sends sampleOps = [1, 2, 3] ∧ (sampleOps.foldl OOp.run Out.new).sent = [1] := by
  decide +kernel

/-- C49: a message whose send is interrupted by `disable` is lost. It has left
the queue, and no later history sends it unless it is enqueued again. -/
theorem C49_interrupted_fails (s : Out μ) (m : μ) (he : s.enabled = true)
    (_hf : s.flight = some m) (hn : m ∉ s.sent ∧ m ∉ s.queue)
    (ops : List (OOp μ)) (ho : m ∉ sends ops) :
    m ∉ (ops.foldl OOp.run (OOp.run s .disable)).sent := by
  have h := (out_run ops (OOp.run s .disable)).1
  have hr : OOp.run s .disable = ⟨false, false, s.queue, none, s.sent⟩ := by
    simp [OOp.run, he]
  rw [hr] at h ⊢
  intro hm
  have hmem := h.subset (List.mem_append_left _ (List.mem_append_left _ hm))
  simp only [Out.held, Option.toList_none, List.append_nil, List.mem_append] at hmem
  rcases hmem with (h1 | h1) | h1
  · exact hn.1 h1
  · exact hn.2 h1
  · exact ho h1

/-- The interrupted state is reached by a new connection. -/
example : let s := ([.send 7, .start, .fetch] : List (OOp Nat)).foldl OOp.run Out.new
    s.enabled = true ∧ s.flight = some 7 ∧ s.sent = [] ∧ s.queue = [] := by
  decide +kernel

/-- C49: after a send that raises, the connection is still enabled and nothing
is sent any more, however long it stays enabled and whatever is enqueued. -/
theorem C49_writer_dies_fails (s : Out μ) (m : μ) (he : s.enabled = true)
    (hf : s.flight = some m) (ops : List (OOp μ))
    (ho : ∀ o ∈ ops, ∀ (_ : o = .disable), False) :
    (ops.foldl OOp.run (OOp.run s .sendRaises)).enabled = true ∧
    (ops.foldl OOp.run (OOp.run s .sendRaises)).sent = s.sent := by
  have hr : OOp.run s .sendRaises = ⟨s.enabled, false, s.queue, none, s.sent⟩ := by
    simp [OOp.run, hf]
  rw [hr, he]
  have key : ∀ (ops : List (OOp μ)) (q : List μ), (∀ o ∈ ops, ∀ (_ : o = .disable), False) →
      (ops.foldl OOp.run ⟨true, false, q, none, s.sent⟩).enabled = true ∧
      (ops.foldl OOp.run ⟨true, false, q, none, s.sent⟩).sent = s.sent := by
    intro ops
    induction ops with
    | nil => intro q _; exact ⟨rfl, rfl⟩
    | cons o ops ih =>
      intro q ho
      have ho' := fun o' (h : o' ∈ ops) => ho o' (List.mem_cons_of_mem _ h)
      cases o with
      | send x => exact ih (q ++ [x]) ho'
      | fetch => exact ih q ho'
      | deliver => exact ih q ho'
      | sendRaises => exact ih q ho'
      | disable => exact (ho .disable List.mem_cons_self rfl).elim
      | start => exact ih q ho'
  exact key ops s.queue ho

/-- Two writers on one queue, as two overlapping processing calls give
(C52): each has its own message in flight. -/
structure Out2 (μ : Type) where
  queue : List μ
  flight1 : Option μ
  flight2 : Option μ
  sent : List μ

/-- Either writer takes a message or completes its send. -/
def Out2.fetch1 (s : Out2 μ) : Out2 μ :=
  match s.flight1, s.queue with
  | none, m :: q => ⟨q, some m, s.flight2, s.sent⟩
  | _, _ => s

def Out2.fetch2 (s : Out2 μ) : Out2 μ :=
  match s.flight2, s.queue with
  | none, m :: q => ⟨q, s.flight1, some m, s.sent⟩
  | _, _ => s

def Out2.deliver1 (s : Out2 μ) : Out2 μ :=
  ⟨s.queue, none, s.flight2, s.sent ++ s.flight1.toList⟩

def Out2.deliver2 (s : Out2 μ) : Out2 μ :=
  ⟨s.queue, s.flight1, none, s.sent ++ s.flight2.toList⟩

/-- C49: with two overlapping processing calls, the order is false of the
code: any two successive messages can be sent the wrong way round. -/
theorem C49_two_writers_fails (a b : μ) (q sent : List μ) :
    (Out2.deliver1 (Out2.deliver2 (Out2.fetch2 (Out2.fetch1
      ⟨a :: b :: q, none, none, sent⟩)))).sent = sent ++ [b, a] := by
  simp [Out2.fetch1, Out2.fetch2, Out2.deliver1, Out2.deliver2]

end Verif.Net
