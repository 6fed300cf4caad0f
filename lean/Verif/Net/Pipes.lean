import Verif.Event.Parse
import Mathlib.Data.List.Induction

/-!
C75: the pipes between a host and a process it runs: `RuntimepySubprocessProtocol`
(subprocess/protocol.py 55–113), the queues of `spawn_exec`/`spawn_shell` (subprocess/__init__.py 47–148),
`service_queues` (subprocess/peer.py 239–259) and `handle_stdout`/`handle_stderr`
(subprocess/interface.py 214–247).

Message framing is that of `Message/Framing`, event parsing that of `Event/Parse`. The queues are serviced
one chunk at a time, in any order: `service_queues` is one such order, and more data may arrive while it
waits for a handler. What the handler of a message does, and the update of a channel by an event, are left
out, as is the width of the counters (C59).
-/
namespace Verif.Net.Pipes

open Verif.Wire Verif.Message Verif.Event

variable {J : Type}

structure W (J : Type) where
  /-- `stdout_queue`, `stderr_queue` -/
  out : Option (List Bytes)
  err : Option (List Bytes)
  proc : Proc
  rx : Rx
  /-- the environment of the peer, once exchanged -/
  env : Option Names
  /-- messages handed to `process_json`, events handed to `ingest` -/
  msgs : List J
  evs : List Parsed
  /-- messages and bytes of `stdout_metrics` and `stderr_metrics` -/
  outCount : Nat × Nat
  errCount : Nat × Nat
  /-- the task `_poll` is running (peer.py 56–74) -/
  polling : Bool

/-- When the process has just been started, protocol.py 55–77. -/
def W.new (k : IntKind) (o : ByteOrder) : W J := ⟨none, none, Proc.new k o, Rx.new, none, [], [], (0, 0), (0, 0), true⟩

inductive Op where
  /-- `pipe_data_received` -/
  | data (fd : Nat) (b : Bytes)
  /-- `pipe_connection_lost` -/
  | lost (fd : Nat)
  /-- `process_exited` -/
  | exited
  /-- `spawn_exec` gives the protocol its queues, __init__.py 108–109 -/
  | assign (out err : Bool)
  /-- `service_queues` handles the next chunk of a queue -/
  | takeOut
  | takeErr
  /-- `_set_peer_env`, interface.py 105–133 -/
  | meet (e : Names)
  /-- the task `_poll` is cancelled, peer.py 86–88 -/
  | cancel

def put (q : Option (List Bytes)) (b : Bytes) : Option (List Bytes) := q.map (· ++ [b])

/-- The messages up to the first that does not load. -/
def okPrefix : List (Except PyErr J) → List J × Bool
  | [] => ([], true)
  | .ok j :: l => (j :: (okPrefix l).1, (okPrefix l).2)
  | .error _ :: _ => ([], false)

def count (c : Nat × Nat) (d : Bytes) : Nat × Nat := (c.1 + 1, c.2 + d.length)

/-- `handle_stdout`, interface.py 240–247; an exception ends the task. -/
def handleOut (loads : Bytes → Except PyErr J) (w : W J) (d : Bytes) : W J :=
  if d = [] then w
  else
    match w.proc.messages loads d with
    | (q, rs, e) =>
      { w with
        proc := q
        msgs := w.msgs ++ (okPrefix rs).1
        outCount := count w.outCount d
        polling := (okPrefix rs).2 && e.isNone }

/-- `handle_stderr`, interface.py 220–238; an exception ends the task. -/
def handleErr (w : W J) (d : Bytes) : W J :=
  if d = [] then w
  else
    match w.env with
    | none => { w with errCount := count w.errCount d }
    | some env =>
      { w with
        rx := (w.rx.parse env d none).p
        evs := w.evs ++ (w.rx.parse env d none).evs
        errCount := count w.errCount d
        polling := (w.rx.parse env d none).err.isNone }

/-- Each with the exception raised to the event loop, if any. -/
def step (loads : Bytes → Except PyErr J) (w : W J) : Op → W J × Option PyErr
  | .data fd b =>
    if fd = 1 ∧ w.out.isSome then ({ w with out := put w.out b }, none)
    else if w.err.isSome then
      if fd = 2 then ({ w with err := put w.err b }, none) else (w, some .assertion)
    else (w, none)
  | .lost fd =>
    if fd = 1 then ({ w with out := put w.out [] }, none)
    else if fd = 2 then ({ w with err := put w.err [] }, none)
    else (w, none)
  | .exited => ({ w with out := put w.out [], err := put w.err [] }, none)
  | .assign o e => ({ w with out := if o then some [] else none, err := if e then some [] else none }, none)
  | .takeOut =>
    if w.polling then
      match w.out with
      | some (d :: q) => (handleOut loads { w with out := some q } d, none)
      | _ => (w, none)
    else (w, none)
  | .takeErr =>
    if w.polling then
      match w.err with
      | some (d :: q) => (handleErr { w with err := some q } d, none)
      | _ => (w, none)
    else (w, none)
  | .meet e => (if w.env.isNone then { w with env := some e } else w, none)
  | .cancel => ({ w with polling := false }, none)

def run (loads : Bytes → Except PyErr J) (w : W J) (ops : List Op) : W J :=
  ops.foldl (fun w o => (step loads w o).1) w

/-- What `close_protocol` finds in the queues, __init__.py 66–88. -/
def leftover (w : W J) : Nat × Nat := ((w.out.getD []).flatten.length, (w.err.getD []).flatten.length)

/-- The chunks a pipe delivered. -/
def chunks (fd : Nat) (ops : List Op) : List Bytes :=
  ops.filterMap fun o => match o with
    | .data f b => if f = fd then some b else none
    | _ => none

def Op.isAssign : Op → Bool
  | .assign _ _ => true
  | _ => false

/-! ### Chunks taken from the queues -/

theorem proc_err (p : Proc) (d : Bytes) : (p.deliver d none).2.2 = none := by
  rw [Proc.deliver, if_neg (by simp)]
  exact consume_ok _

theorem proc_stop (p : Proc) (d : Bytes) : (p.deliver d none).1.round = .stop := by
  rw [Proc.deliver, if_neg (by simp)]
  exact drained _

theorem okPrefix_prefix (l : List (Except PyErr J)) : ∃ n, (okPrefix l).1.map .ok = l.take n := by
  induction l with
  | nil => exact ⟨0, rfl⟩
  | cons x l ih =>
    cases x with
    | error e => exact ⟨0, rfl⟩
    | ok j => obtain ⟨n, hn⟩ := ih; exact ⟨n + 1, by simp [okPrefix, hn]⟩

theorem okPrefix_all (l : List (Except PyErr J)) (h : (okPrefix l).2 = true) : (okPrefix l).1.map .ok = l := by
  induction l with
  | nil => rfl
  | cons x l ih =>
    cases x with
    | error e => cases h
    | ok j => simp [okPrefix, ih h]

theorem okPrefix_ok (l : List (Except PyErr J)) (h : ∀ x ∈ l, ∃ j, x = .ok j) : (okPrefix l).2 = true := by
  induction l with
  | nil => rfl
  | cons x l ih =>
    obtain ⟨j, rfl⟩ := h x List.mem_cons_self
    exact ih (fun y hy => h y (List.mem_cons_of_mem _ hy))

/-- Both queues have just been assigned. -/
def W.ready (k : IntKind) (o : ByteOrder) (env : Option Names) : W J :=
  ⟨some [], some [], Proc.new k o, Rx.new, env, [], [], (0, 0), (0, 0), true⟩

def full (l : List Bytes) : List Bytes := l.filter (· ≠ [])

theorem full_append (a b : List Bytes) : full (a ++ b) = full a ++ full b := List.filter_append ..

theorem full_flatten (l : List Bytes) : (full l).flatten = l.flatten := by
  induction l with
  | nil => rfl
  | cons x l ih =>
    by_cases hx : x = []
    · simp only [full, hx, List.filter_cons, ne_eq, not_true_eq_false, decide_false, Bool.false_eq_true, if_false,
        List.flatten_cons, List.nil_append] at ih ⊢
      exact ih
    · simp only [full, List.filter_cons, ne_eq, hx, not_false_eq_true, decide_true, if_true, List.flatten_cons] at ih ⊢
      rw [ih]

theorem full_cons (d : Bytes) (l : List Bytes) : full (d :: l) = if d = [] then full l else d :: full l := by
  by_cases hd : d = [] <;> simp [full, hd]

theorem chunks_snoc (fd : Nat) (ops : List Op) (o : Op) : chunks fd (ops ++ [o]) = chunks fd ops ++ chunks fd [o] := by
  simp [chunks, List.filterMap_append]

def all (l : List Bytes) : List (Bytes × Option Nat) := l.map fun c => (c, none)

theorem deliverAll_err (p : Proc) (l : List Bytes) : (p.deliverAll (all l)).2.2 = none := by
  induction l generalizing p with
  | nil => rfl
  | cons d l ih =>
    simp only [all, List.map_cons, Proc.deliverAll]
    have := proc_err p d
    generalize p.deliver d none = r at this
    obtain ⟨q, ms, e⟩ := r
    dsimp only at this
    subst this
    exact ih q

theorem deliverAll_snoc (p : Proc) (l : List Bytes) (d : Bytes) :
    (p.deliverAll (all (l ++ [d]))).1 = ((p.deliverAll (all l)).1.deliver d none).1 ∧
    (p.deliverAll (all (l ++ [d]))).2.1 = (p.deliverAll (all l)).2.1 ++ ((p.deliverAll (all l)).1.deliver d none).2.1 := by
  induction l generalizing p with
  | nil =>
    simp only [all, List.nil_append, List.map_cons, List.map_nil, Proc.deliverAll]
    have := proc_err p d
    generalize p.deliver d none = r at this
    obtain ⟨q, ms, e⟩ := r
    dsimp only at this
    subst this
    simp
  | cons x l ih =>
    simp only [all, List.cons_append, List.map_cons, Proc.deliverAll]
    have := proc_err p x
    generalize p.deliver x none = r at this
    obtain ⟨q, ms, e⟩ := r
    dsimp only at this
    subst this
    obtain ⟨h1, h2⟩ := ih q
    dsimp only
    simp only [all] at h1 h2
    rw [h1, h2]
    exact ⟨rfl, by rw [List.append_assoc]⟩

theorem parseAll_snoc (env : Names) (p : Rx) (l : List Bytes) (d : Bytes) (h : (p.parseAll env (all l)).2.2 = none) :
    (p.parseAll env (all (l ++ [d]))).1 = ((p.parseAll env (all l)).1.parse env d none).p ∧
    (p.parseAll env (all (l ++ [d]))).2.1 = (p.parseAll env (all l)).2.1 ++ ((p.parseAll env (all l)).1.parse env d none).evs ∧
    (p.parseAll env (all (l ++ [d]))).2.2 = ((p.parseAll env (all l)).1.parse env d none).err := by
  induction l generalizing p with
  | nil =>
    simp only [all, List.nil_append, List.map_cons, List.map_nil, Rx.parseAll]
    cases he : (p.parse env d none).err <;> simp
  | cons x l ih =>
    simp only [all, List.cons_append, List.map_cons, Rx.parseAll] at h ⊢
    cases he : (p.parse env x none).err with
    | some e => rw [he] at h; cases h
    | none =>
      rw [he] at h
      dsimp only at h ⊢
      obtain ⟨h1, h2, h3⟩ := ih _ h
      simp only [all] at h1 h2 h3
      rw [h1, h2, h3]
      exact ⟨rfl, by rw [List.append_assoc], rfl⟩

theorem okPrefix_append (a b : List (Except PyErr J)) (h : (okPrefix a).2 = true) :
    (okPrefix (a ++ b)).1 = (okPrefix a).1 ++ (okPrefix b).1 ∧ (okPrefix (a ++ b)).2 = (okPrefix b).2 := by
  induction a with
  | nil => exact ⟨rfl, rfl⟩
  | cons x a ih =>
    cases x with
    | error e => cases h
    | ok j =>
      obtain ⟨h1, h2⟩ := ih h
      exact ⟨by simp [okPrefix, h1], h2⟩

/-- Standard output in terms of the chunks handled so far. -/
structure Out (loads : Bytes → Except PyErr J) (w0 : W J) (ops : List Op) (w : W J) (tk : List Bytes) : Prop where
  queue : ∃ q, w.out = some q ∧ tk ++ full q = full (chunks 1 ops)
  cnt : w.outCount = (w0.outCount.1 + tk.length, w0.outCount.2 + tk.flatten.length)
  msgs : w.msgs = w0.msgs ++ (okPrefix ((w0.proc.deliverAll (all tk)).2.1.map loads)).1
  live : w.polling = true → w.proc = (w0.proc.deliverAll (all tk)).1 ∧
    (okPrefix ((w0.proc.deliverAll (all tk)).2.1.map loads)).2 = true

/-- Standard error in terms of the chunks handled so far, once the peer's environment is known. -/
structure Err (env : Names) (w0 : W J) (ops : List Op) (w : W J) (te : List Bytes) : Prop where
  queue : ∃ q, w.err = some q ∧ te ++ full q = full (chunks 2 ops)
  known : w.env = some env
  cnt : w.errCount = (w0.errCount.1 + te.length, w0.errCount.2 + te.flatten.length)
  evs : w.evs = w0.evs ++ (w0.rx.parseAll env (all te)).2.1
  live : w.polling = true → w.rx = (w0.rx.parseAll env (all te)).1 ∧ (w0.rx.parseAll env (all te)).2.2 = none

theorem handleErr_out (w : W J) (d : Bytes) :
    (handleErr w d).out = w.out ∧ (handleErr w d).outCount = w.outCount ∧ (handleErr w d).msgs = w.msgs ∧
    (handleErr w d).proc = w.proc ∧ (handleErr w d).err = w.err ∧ (handleErr w d).env = w.env := by
  unfold handleErr
  split
  · simp
  · split <;> simp

theorem handleOut_err (loads : Bytes → Except PyErr J) (w : W J) (d : Bytes) :
    (handleOut loads w d).err = w.err ∧ (handleOut loads w d).errCount = w.errCount ∧ (handleOut loads w d).evs = w.evs ∧
    (handleOut loads w d).rx = w.rx ∧ (handleOut loads w d).out = w.out ∧ (handleOut loads w d).env = w.env := by
  unfold handleOut
  split <;> simp

theorem put_some (q : List Bytes) (b : Bytes) : put (some q) b = some (q ++ [b]) := rfl

theorem full_snoc_nil (q : List Bytes) : full (q ++ [[]]) = full q := by simp [full]

theorem out_step (loads : Bytes → Except PyErr J) (w0 : W J) (ops : List Op) (w : W J) (tk : List Bytes) (o : Op)
    (ho : o.isAssign = false) (h : Out loads w0 ops w tk) : ∃ tk', Out loads w0 (ops ++ [o]) (step loads w o).1 tk' := by
  obtain ⟨⟨q, hq, hto⟩, h2, h3, h4⟩ := h
  -- steps that leave everything but the queue
  have keep : ∀ w' : W J, (∃ q', w'.out = some q' ∧ full q' = full q ++ full (chunks 1 [o])) → w'.outCount = w.outCount →
      w'.msgs = w.msgs → (w'.polling = true → w.polling = true ∧ w'.proc = w.proc) → Out loads w0 (ops ++ [o]) w' tk := by
    rintro w' ⟨q', e1, e1'⟩ e2 e3 e4
    refine ⟨⟨q', e1, ?_⟩, by rw [e2, h2], by rw [e3, h3], fun hp => ?_⟩
    · rw [chunks_snoc, full_append, ← hto, e1', List.append_assoc]
    · obtain ⟨p1, p2⟩ := e4 hp
      rw [p2]
      exact h4 p1
  have nil : ∀ x, chunks 1 [x] = [] → full q = full q ++ full (chunks 1 [x]) := by
    intro x hx; rw [hx]; simp [full]
  cases o with
  | data fd b =>
    simp only [step, hq, Option.isSome_some, and_true]
    by_cases hfd : fd = 1
    · subst hfd
      rw [if_pos rfl]
      exact ⟨tk, keep _ ⟨q ++ [b], by rw [put_some], by rw [full_append]; simp [chunks]⟩ rfl rfl (fun hp => ⟨hp, rfl⟩)⟩
    · have hc : chunks 1 [Op.data fd b] = [] := by simp [chunks, hfd]
      rw [if_neg hfd]
      refine ⟨tk, keep _ ⟨q, ?_, nil _ hc⟩ ?_ ?_ ?_⟩
      all_goals split <;> (try split) <;> simp [hq]
  | lost fd =>
    have hc : chunks 1 [Op.lost fd] = [] := rfl
    simp only [step]
    by_cases hfd : fd = 1
    · rw [if_pos hfd]
      exact ⟨tk, keep _ ⟨q ++ [[]], by rw [hq, put_some], by rw [full_snoc_nil]; exact nil _ hc⟩ rfl rfl (fun hp => ⟨hp, rfl⟩)⟩
    · rw [if_neg hfd]
      refine ⟨tk, keep _ ⟨q, ?_, nil _ hc⟩ ?_ ?_ ?_⟩
      all_goals split <;> simp [hq]
  | exited =>
    exact ⟨tk, keep _ ⟨q ++ [[]], by simp only [step]; rw [hq, put_some], by rw [full_snoc_nil]; exact nil _ rfl⟩ rfl rfl (fun hp => ⟨hp, rfl⟩)⟩
  | assign a b => cases ho
  | meet e =>
    refine ⟨tk, keep _ ⟨q, ?_, nil _ rfl⟩ ?_ ?_ ?_⟩
    all_goals simp only [step]; split <;> simp [hq]
  | cancel => exact ⟨tk, keep _ ⟨q, hq, nil _ rfl⟩ rfl rfl (fun hp => by cases hp)⟩
  | takeErr =>
    simp only [step]
    by_cases hp : w.polling = true
    · rw [if_pos hp]
      split
      · rename_i d r he
        obtain ⟨a1, a2, a3, a4, -, -⟩ := handleErr_out { w with err := some r } d
        exact ⟨tk, keep _ ⟨q, by rw [a1]; exact hq, nil _ rfl⟩ a2 a3 (fun _ => ⟨hp, a4⟩)⟩
      · exact ⟨tk, keep _ ⟨q, hq, nil _ rfl⟩ rfl rfl (fun hp => ⟨hp, rfl⟩)⟩
    · rw [if_neg hp]
      exact ⟨tk, keep _ ⟨q, hq, nil _ rfl⟩ rfl rfl (fun hp => ⟨hp, rfl⟩)⟩
  | takeOut =>
    simp only [step]
    by_cases hp : w.polling = true
    · rw [if_pos hp, hq]
      cases q with
      | nil => exact ⟨tk, keep _ ⟨[], hq, nil _ rfl⟩ rfl rfl (fun hp => ⟨hp, rfl⟩)⟩
      | cons d q =>
        dsimp only
        by_cases hd : d = []
        · subst hd
          have : handleOut loads { w with out := some q } [] = { w with out := some q } := by
            unfold handleOut; rw [if_pos rfl]
          rw [this]
          exact ⟨tk, keep _ ⟨q, rfl, by rw [full_cons, if_pos rfl]; simp [chunks, full]⟩ rfl rfl (fun hp => ⟨hp, rfl⟩)⟩
        · obtain ⟨l1, l2⟩ := h4 hp
          obtain ⟨s1, s2⟩ := deliverAll_snoc w0.proc tk d
          have s3 := deliverAll_err w0.proc (tk ++ [d])
          have e := proc_err (w0.proc.deliverAll (all tk)).1 d
          refine ⟨tk ++ [d], ?_⟩
          have hw : handleOut loads { w with out := some q } d =
              { w with
                out := some q
                proc := (w0.proc.deliverAll (all (tk ++ [d]))).1
                msgs := w.msgs ++ (okPrefix (((w0.proc.deliverAll (all tk)).1.deliver d none).2.1.map loads)).1
                outCount := count w.outCount d
                polling := (okPrefix (((w0.proc.deliverAll (all tk)).1.deliver d none).2.1.map loads)).2 } := by
            unfold handleOut
            rw [if_neg hd]
            simp only [Proc.messages]
            rw [l1, s1]
            generalize (w0.proc.deliverAll (all tk)).1.deliver d none = r at e
            obtain ⟨q', ms, e'⟩ := r
            dsimp only at e
            subst e
            simp
          rw [hw]
          obtain ⟨o1, o2⟩ := okPrefix_append _ (((w0.proc.deliverAll (all tk)).1.deliver d none).2.1.map loads) l2
          refine ⟨⟨q, rfl, ?_⟩, ?_, ?_, ?_⟩
          · rw [chunks_snoc, full_append, ← hto, full_cons, if_neg hd]
            simp [chunks, full]
          · simp only [count]
            rw [h2]
            simp [Nat.add_assoc]
          · dsimp only
            rw [s2, List.map_append, o1, h3, List.append_assoc]
          · intro hp'
            refine ⟨rfl, ?_⟩
            rw [s2, List.map_append, o2]
            exact hp'
    · rw [if_neg hp]
      exact ⟨tk, keep _ ⟨q, hq, nil _ rfl⟩ rfl rfl (fun hp => ⟨hp, rfl⟩)⟩

theorem err_step (loads : Bytes → Except PyErr J) (env : Names) (w0 : W J) (ops : List Op) (w : W J) (te : List Bytes) (o : Op)
    (ho : o.isAssign = false) (h : Err env w0 ops w te) : ∃ te', Err env w0 (ops ++ [o]) (step loads w o).1 te' := by
  obtain ⟨⟨q, hq, hte⟩, hk, h2, h3, h4⟩ := h
  have keep : ∀ w' : W J, (∃ q', w'.err = some q' ∧ full q' = full q ++ full (chunks 2 [o])) → w'.env = w.env →
      w'.errCount = w.errCount → w'.evs = w.evs → (w'.polling = true → w.polling = true ∧ w'.rx = w.rx) →
      Err env w0 (ops ++ [o]) w' te := by
    rintro w' ⟨q', e1, e1'⟩ e5 e2 e3 e4
    refine ⟨⟨q', e1, ?_⟩, by rw [e5, hk], by rw [e2, h2], by rw [e3, h3], fun hp => ?_⟩
    · rw [chunks_snoc, full_append, ← hte, e1', List.append_assoc]
    · obtain ⟨p1, p2⟩ := e4 hp
      rw [p2]
      exact h4 p1
  have nil : ∀ x, chunks 2 [x] = [] → full q = full q ++ full (chunks 2 [x]) := by
    intro x hx; rw [hx]; simp [full]
  cases o with
  | data fd b =>
    simp only [step, hq, Option.isSome_some, if_true]
    by_cases hfd : fd = 2
    · subst hfd
      rw [if_neg (by simp), if_pos rfl]
      exact ⟨te, keep _ ⟨q ++ [b], by rw [put_some], by rw [full_append]; simp [chunks]⟩ rfl rfl rfl (fun hp => ⟨hp, rfl⟩)⟩
    · have hc : chunks 2 [Op.data fd b] = [] := by simp [chunks, hfd]
      rw [if_neg hfd]
      refine ⟨te, keep _ ⟨q, ?_, nil _ hc⟩ ?_ ?_ ?_ ?_⟩
      all_goals split <;> simp [hq]
  | lost fd =>
    have hc : chunks 2 [Op.lost fd] = [] := rfl
    simp only [step]
    by_cases hfd : fd = 2
    · subst hfd
      rw [if_neg (by simp), if_pos rfl]
      exact ⟨te, keep _ ⟨q ++ [[]], by rw [hq, put_some], by rw [full_snoc_nil]; exact nil _ hc⟩ rfl rfl rfl (fun hp => ⟨hp, rfl⟩)⟩
    · rw [if_neg hfd]
      refine ⟨te, keep _ ⟨q, ?_, nil _ hc⟩ ?_ ?_ ?_ ?_⟩
      all_goals split <;> simp [hq]
  | exited =>
    exact ⟨te, keep _ ⟨q ++ [[]], by simp only [step]; rw [hq, put_some], by rw [full_snoc_nil]; exact nil _ rfl⟩ rfl rfl rfl (fun hp => ⟨hp, rfl⟩)⟩
  | assign a b => cases ho
  | meet e =>
    have : (step loads w (.meet e)).1 = w := by simp [step, hk]
    rw [this]
    exact ⟨te, keep _ ⟨q, hq, nil _ rfl⟩ rfl rfl rfl (fun hp => ⟨hp, rfl⟩)⟩
  | cancel => exact ⟨te, keep _ ⟨q, hq, nil _ rfl⟩ rfl rfl rfl (fun hp => by cases hp)⟩
  | takeOut =>
    simp only [step]
    by_cases hp : w.polling = true
    · rw [if_pos hp]
      split
      · rename_i d r he
        obtain ⟨a1, a2, a3, a4, -, a6⟩ := handleOut_err loads { w with out := some r } d
        exact ⟨te, keep _ ⟨q, by rw [a1]; exact hq, nil _ rfl⟩ a6 a2 a3 (fun _ => ⟨hp, a4⟩)⟩
      · exact ⟨te, keep _ ⟨q, hq, nil _ rfl⟩ rfl rfl rfl (fun hp => ⟨hp, rfl⟩)⟩
    · rw [if_neg hp]
      exact ⟨te, keep _ ⟨q, hq, nil _ rfl⟩ rfl rfl rfl (fun hp => ⟨hp, rfl⟩)⟩
  | takeErr =>
    simp only [step]
    by_cases hp : w.polling = true
    · rw [if_pos hp, hq]
      cases q with
      | nil => exact ⟨te, keep _ ⟨[], hq, nil _ rfl⟩ rfl rfl rfl (fun hp => ⟨hp, rfl⟩)⟩
      | cons d q =>
        dsimp only
        by_cases hd : d = []
        · subst hd
          have : handleErr { w with err := some q } [] = { w with err := some q } := by
            unfold handleErr; rw [if_pos rfl]
          rw [this]
          exact ⟨te, keep _ ⟨q, rfl, by rw [full_cons, if_pos rfl]; simp [chunks, full]⟩ rfl rfl rfl (fun hp => ⟨hp, rfl⟩)⟩
        · obtain ⟨l1, l2⟩ := h4 hp
          obtain ⟨s1, s2, s3⟩ := parseAll_snoc env w0.rx te d l2
          refine ⟨te ++ [d], ?_⟩
          have hw : handleErr { w with err := some q } d =
              { w with
                err := some q
                rx := (w0.rx.parseAll env (all (te ++ [d]))).1
                evs := w.evs ++ ((w0.rx.parseAll env (all te)).1.parse env d none).evs
                errCount := count w.errCount d
                polling := (w0.rx.parseAll env (all (te ++ [d]))).2.2.isNone } := by
            unfold handleErr
            rw [if_neg hd]
            simp only [hk]
            rw [l1, s1, s3]
          rw [hw]
          refine ⟨⟨q, rfl, ?_⟩, hk, ?_, ?_, ?_⟩
          · rw [chunks_snoc, full_append, ← hte, full_cons, if_neg hd]
            simp [chunks, full]
          · simp only [count]
            rw [h2]
            simp [Nat.add_assoc]
          · dsimp only
            rw [s2, h3, List.append_assoc]
          · intro hp'
            exact ⟨rfl, Option.isNone_iff_eq_none.mp hp'⟩
    · rw [if_neg hp]
      exact ⟨te, keep _ ⟨q, hq, nil _ rfl⟩ rfl rfl rfl (fun hp => ⟨hp, rfl⟩)⟩

theorem out_run (loads : Bytes → Except PyErr J) (w0 : W J) (h0 : w0.out = some []) (hp : w0.polling = true) (ops : List Op)
    (hops : ∀ o ∈ ops, o.isAssign = false) : ∃ tk, Out loads w0 ops (run loads w0 ops) tk := by
  induction ops using List.reverseRecOn with
  | nil => exact ⟨[], ⟨⟨[], h0, rfl⟩, rfl, by simp [run, all, Proc.deliverAll, okPrefix], fun _ => ⟨rfl, rfl⟩⟩⟩
  | append_singleton ops o ih =>
    obtain ⟨tk, h⟩ := ih (fun x hx => hops x (List.mem_append_left _ hx))
    have := out_step loads w0 ops _ tk o (hops o (by simp)) h
    rw [run, List.foldl_append]
    exact this

theorem err_run (loads : Bytes → Except PyErr J) (env : Names) (w0 : W J) (h0 : w0.err = some []) (he : w0.env = some env)
    (ops : List Op) (hops : ∀ o ∈ ops, o.isAssign = false) : ∃ te, Err env w0 ops (run loads w0 ops) te := by
  induction ops using List.reverseRecOn with
  | nil => exact ⟨[], ⟨⟨[], h0, rfl⟩, he, rfl, by simp [run, all, Rx.parseAll], fun _ => ⟨rfl, rfl⟩⟩⟩
  | append_singleton ops o ih =>
    obtain ⟨te, h⟩ := ih (fun x hx => hops x (List.mem_append_left _ hx))
    have := err_step loads env w0 ops _ te o (hops o (by simp)) h
    rw [run, List.foldl_append]
    exact this

end Verif.Net.Pipes
