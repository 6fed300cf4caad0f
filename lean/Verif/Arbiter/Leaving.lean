/-!
C104: leaving an application: `_entry` and `app` of `BaseConnectionArbiter` (`net/arbiter/base.py` 344–380 and
434–463), with the `AsyncExitStack` that peers, tasks and applications enter their contexts on.

What `_main` (base.py 246–342, C55 and C82) does is reduced to a sequence of steps, each of which may raise: entering
a context, or anything else. What a task of a server or the connection manager does on its own is reduced to what
awaiting it gives.
-/
namespace Verif.Leaving

/-- Where an exception comes from. -/
inductive Exc where
  | enter (c : Nat)
  | exit (c : Nat)
  | act (k : Nat)
  /-- `disable` of connection `i` -/
  | disable (i : Nat)
  /-- task `i` -/
  | task (i : Nat)
  deriving DecidableEq

/-- What leaving a context does with an exception: pass it on, raise one of its own, or swallow it. -/
inductive Exit where
  | quiet | raises | swallows
  deriving DecidableEq

/-- A context: `running_program` of a peer (base.py 239), `running` of the task manager (base.py 321), or one that an
application enters. -/
structure Ctx where
  id : Nat
  /-- whether entering it works -/
  enters : Bool
  exit : Exit
  deriving DecidableEq

/-- A step of `_main`. -/
inductive Step where
  | enter (c : Ctx)
  /-- anything else; false: it raises -/
  | act (k : Nat) (ok : Bool)
  deriving DecidableEq

/-- A connection: whether it is enabled, and whether its `disable` raises (`disable_extra`, net/connection.py 197). -/
structure Conn where
  enabled : Bool
  raises : Bool
  deriving DecidableEq

/-- What awaiting a cancelled task gives, base.py 455–457. `stopped`: `CancelledError` or `KeyboardInterrupt`. -/
inductive Fate where
  | stopped | returned | raised
  deriving DecidableEq

/-- The task of a server, or that of the manager. -/
structure Task where
  done : Bool
  /-- whether `cancel` was called on it -/
  cancelled : Bool
  fate : Fate
  deriving DecidableEq

/-- What is observed, in order. -/
inductive Note where
  | entered (c : Nat)
  | exited (c : Nat)
  | disabled (i : Nat)
  /-- `stop_sig` was set -/
  | stop
  /-- task `i` was cancelled and awaited -/
  | over (i : Nat)
  deriving DecidableEq

structure App where
  conns : List Conn
  /-- `_servers + [conns]`, base.py 451 -/
  tasks : List Task
  stop : Bool
  log : List Note
  deriving DecidableEq

/-- `_main`: the contexts on the stack, last first, what was observed, and how it ends. -/
def body (result : Int) : List Step → List Ctx → List Ctx × List Note × Except Exc Int
  | [], stack => (stack, [], .ok result)
  | .act k ok :: rest, stack => if ok then body result rest stack else (stack, [], .error (.act k))
  | .enter c :: rest, stack =>
    if c.enters then
      let (s, l, r) := body result rest (c :: stack)
      (s, .entered c.id :: l, r)
    else (stack, [], .error (.enter c.id))

/-- `AsyncExitStack.__aexit__` (contextlib): every context is left, the last first, with the exception there is at
that point. -/
def unwind : List Ctx → Option Exc → List Note × Option Exc
  | [], e => ([], e)
  | c :: rest, e =>
    let (l, r) := unwind rest (match c.exit with | .quiet => e | .raises => some (.exit c.id) | .swallows => none)
    (.exited c.id :: l, r)

/-- base.py 368–369: the connections from the `i`-th on; the exception of `disable` ends the loop.
`Connection.disable`, net/connection.py 191–206: nothing for a disabled one, and the state is set last. -/
def disableAll (i : Nat) : List Conn → List Conn × List Note × Option Exc
  | [] => ([], [], none)
  | c :: rest =>
    if c.enabled then
      if c.raises then (c :: rest, [], some (.disable i))
      else
        let (cs, l, e) := disableAll (i + 1) rest
        ({ c with enabled := false } :: cs, .disabled i :: l, e)
    else
      let (cs, l, e) := disableAll (i + 1) rest
      (c :: cs, l, e)

/-- The exception of a result. -/
def err : Except Exc Int → Option Exc
  | .ok _ => none
  | .error e => some e

/-- What `_main` returned, or the -1 that stands before it did, base.py 355 and 358–365. -/
def value : Except Exc Int → Int
  | .ok r => r
  | .error _ => -1

/-- `_entry`, base.py 344–380. -/
def App.entry (a : App) (steps : List Step) (result : Int) : App × Except Exc Int :=
  let (stack, l1, r) := body result steps []
  let (l2, e) := unwind stack (err r)
  let (cs, l3, e') := disableAll 0 a.conns
  match e' with
  -- an exception in `finally` replaces what there was
  | some x => ({ a with conns := cs, log := a.log ++ l1 ++ l2 ++ l3 }, .error x)
  | none =>
    let a := { a with conns := cs, stop := true, log := a.log ++ l1 ++ l2 ++ l3 ++ [.stop] }
    match e with
    | some x => (a, .error x)
    | none => (a, .ok (value r))

/-- base.py 453–457: the tasks from the `i`-th on. -/
def cancelAll (i : Nat) : List Task → List Task × List Note × Option Exc
  | [] => ([], [], none)
  | t :: rest =>
    if t.done then
      let (ts, l, e) := cancelAll (i + 1) rest
      (t :: ts, l, e)
    else
      let t := { t with done := true, cancelled := true }
      match t.fate with
      | .raised => (t :: rest, [.over i], some (.task i))
      | _ =>
        let (ts, l, e) := cancelAll (i + 1) rest
        (t :: ts, .over i :: l, e)

/-- `app`, base.py 434–463. -/
def App.leave (a : App) (steps : List Step) (result : Int) : App × Except Exc Int :=
  match a.entry steps result with
  | (a, .error e) => (a, .error e)
  | (a, .ok r) =>
    let (ts, l, e) := cancelAll 0 a.tasks
    let a := { a with tasks := ts, log := a.log ++ l }
    match e with
    | some x => (a, .error x)
    | none => (a, .ok r)

/-! ### Contexts -/

/-- The contexts left, in order. -/
def exits : List Note → List Nat
  | [] => []
  | .exited c :: l => c :: exits l
  | _ :: l => exits l

/-- The contexts entered, in order. -/
def enters : List Note → List Nat
  | [] => []
  | .entered c :: l => c :: enters l
  | _ :: l => enters l

theorem exits_append (l m : List Note) : exits (l ++ m) = exits l ++ exits m := by
  induction l with
  | nil => rfl
  | cons n l ih => cases n <;> simp [exits, ih]

theorem enters_append (l m : List Note) : enters (l ++ m) = enters l ++ enters m := by
  induction l with
  | nil => rfl
  | cons n l ih => cases n <;> simp [enters, ih]

theorem body_spec (r : Int) (steps : List Step) : ∀ stack,
    exits (body r steps stack).2.1 = [] ∧
    (body r steps stack).1.map Ctx.id = (enters (body r steps stack).2.1).reverse ++ stack.map Ctx.id := by
  induction steps with
  | nil => intro stack; exact ⟨rfl, rfl⟩
  | cons s steps ih =>
    intro stack
    cases s with
    | act k ok =>
      cases ok
      · exact ⟨rfl, rfl⟩
      · exact ih stack
    | enter c =>
      by_cases h : c.enters = true
      · obtain ⟨h1, h2⟩ := ih (c :: stack)
        simp only [body, h, if_true, exits, enters, h1, h2]
        exact ⟨trivial, by simp⟩
      · simp [body, h, exits, enters]

theorem unwind_spec (stack : List Ctx) : ∀ e,
    exits (unwind stack e).1 = stack.map Ctx.id ∧ enters (unwind stack e).1 = [] := by
  induction stack with
  | nil => intro e; exact ⟨rfl, rfl⟩
  | cons c stack ih =>
    intro e
    simp only [unwind, exits, enters, (ih _).1, (ih _).2, List.map_cons]
    exact ⟨trivial, trivial⟩

theorem disableAll_notes (cs : List Conn) : ∀ i,
    exits (disableAll i cs).2.1 = [] ∧ enters (disableAll i cs).2.1 = [] := by
  induction cs with
  | nil => intro i; exact ⟨rfl, rfl⟩
  | cons c cs ih =>
    intro i
    unfold disableAll
    split
    · split
      · exact ⟨rfl, rfl⟩
      · exact ih _
    · exact ih _

theorem cancelAll_notes (ts : List Task) : ∀ i,
    exits (cancelAll i ts).2.1 = [] ∧ enters (cancelAll i ts).2.1 = [] := by
  induction ts with
  | nil => intro i; exact ⟨rfl, rfl⟩
  | cons t ts ih =>
    intro i
    unfold cancelAll
    split
    · exact ih _
    · dsimp only
      split
      · exact ⟨rfl, rfl⟩
      · exact ih _

/-- The log of `_entry`, in parts. -/
theorem entry_log (a : App) (steps : List Step) (r : Int) :
    (a.entry steps r).1.log = a.log ++ (body r steps []).2.1 ++ (unwind (body r steps []).1 (err (body r steps []).2.2)).1
      ++ (disableAll 0 a.conns).2.1 ++ (if (disableAll 0 a.conns).2.2 = none then [.stop] else []) := by
  unfold App.entry
  dsimp only
  cases h : (disableAll 0 a.conns).2.2 with
  | some x => simp
  | none =>
    simp only
    split <;> simp

theorem leave_log (a : App) (steps : List Step) (r : Int) :
    ∃ l, (a.leave steps r).1.log = (a.entry steps r).1.log ++ l ∧ exits l = [] ∧ enters l = [] := by
  unfold App.leave
  cases h : a.entry steps r with
  | mk b o =>
    cases o with
    | error e => exact ⟨[], by simp, rfl, rfl⟩
    | ok v =>
      obtain ⟨h1, h2⟩ := cancelAll_notes b.tasks 0
      refine ⟨(cancelAll 0 b.tasks).2.1, ?_, h1, h2⟩
      dsimp only
      split <;> rfl

/-- C104: whatever raises, every context that was entered is left, once, the last first. -/
theorem C104_contexts (a : App) (steps : List Step) (r : Int) (hl : a.log = []) :
    exits (a.leave steps r).1.log = (enters (a.leave steps r).1.log).reverse := by
  obtain ⟨l, h, h1, h2⟩ := leave_log a steps r
  obtain ⟨b1, b2⟩ := body_spec r steps []
  obtain ⟨u1, u2⟩ := unwind_spec (body r steps []).1 (err (body r steps []).2.2)
  obtain ⟨d1, d2⟩ := disableAll_notes a.conns 0
  rw [h, entry_log, hl]
  have h3 : exits (if (disableAll 0 a.conns).2.2 = none then [Note.stop] else []) = [] := by split <;> rfl
  have h4 : enters (if (disableAll 0 a.conns).2.2 = none then [Note.stop] else []) = [] := by split <;> rfl
  simp only [exits_append, enters_append, h1, h2, b1, u1, u2, d1, d2, h3, h4, b2]
  simp [exits, enters]

/-- What `_main` enters when nothing raises. -/
def Step.ctx : Step → Option Nat
  | .enter c => some c.id
  | _ => none

/-- Whether a step works. -/
def Step.works : Step → Bool
  | .enter c => c.enters
  | .act _ ok => ok

theorem body_works (r : Int) (steps : List Step) (h : ∀ s ∈ steps, s.works = true) : ∀ stack,
    enters (body r steps stack).2.1 = steps.filterMap Step.ctx ∧ (body r steps stack).2.2 = .ok r := by
  induction steps with
  | nil => intro stack; exact ⟨rfl, rfl⟩
  | cons s steps ih =>
    intro stack
    have h1 := h s List.mem_cons_self
    have h2 : ∀ s ∈ steps, s.works = true := fun x hx => h x (List.mem_cons_of_mem _ hx)
    cases s with
    | act k ok =>
      have : ok = true := h1
      subst this
      exact ih h2 stack
    | enter c =>
      have : c.enters = true := h1
      obtain ⟨i1, i2⟩ := ih h2 (c :: stack)
      simp only [body, this, if_true, enters, i1, i2]
      exact ⟨rfl, trivial⟩

/-! ### Connections and the stop signal -/

theorem disableAll_ok (cs : List Conn) (h : ∀ c ∈ cs, c.enabled = true → c.raises = false) : ∀ i,
    (disableAll i cs).1 = cs.map (fun c => { c with enabled := false }) ∧ (disableAll i cs).2.2 = none := by
  induction cs with
  | nil => intro i; exact ⟨rfl, rfl⟩
  | cons c cs ih =>
    intro i
    have h2 : ∀ c ∈ cs, c.enabled = true → c.raises = false := fun x hx => h x (List.mem_cons_of_mem _ hx)
    obtain ⟨i1, i2⟩ := ih h2 (i + 1)
    obtain ⟨en, ra⟩ := c
    cases en with
    | true =>
      have : ra = false := h _ List.mem_cons_self rfl
      subst this
      simp [disableAll, i1, i2]
    | false => simp [disableAll, i1, i2]

/-- The connections and the stop signal are left by `app` as by `_entry`. -/
theorem leave_entry (a : App) (steps : List Step) (r : Int) :
    (a.leave steps r).1.conns = (a.entry steps r).1.conns ∧ (a.leave steps r).1.stop = (a.entry steps r).1.stop := by
  unfold App.leave
  cases h : a.entry steps r with
  | mk b o =>
    cases o with
    | error e => exact ⟨rfl, rfl⟩
    | ok v => dsimp only; split <;> exact ⟨rfl, rfl⟩

/-- C104: whatever the application does, its connections are disabled and the stop signal is set in the end, if
disabling them does not raise. -/
theorem C104_stopped_partial (a : App) (steps : List Step) (r : Int)
    (h : ∀ c ∈ a.conns, c.enabled = true → c.raises = false) :
    (∀ c ∈ (a.leave steps r).1.conns, c.enabled = false) ∧ (a.leave steps r).1.conns.length = a.conns.length ∧
      (a.leave steps r).1.stop = true := by
  obtain ⟨e1, e2⟩ := leave_entry a steps r
  obtain ⟨d1, d2⟩ := disableAll_ok a.conns h 0
  have h1 : (a.entry steps r).1.conns = a.conns.map (fun c => { c with enabled := false }) ∧
      (a.entry steps r).1.stop = true := by
    unfold App.entry
    dsimp only
    rw [d2]
    dsimp only
    split <;> exact ⟨d1, rfl⟩
  rw [e1, e2, h1.1, h1.2]
  refine ⟨?_, by simp, rfl⟩
  intro c hc
  obtain ⟨d, -, rfl⟩ := List.mem_map.mp hc
  rfl

/-! ### Order -/

/-- What kind of thing is observed: contexts, connections, the signal, tasks. -/
def Note.rank : Note → Nat
  | .entered _ => 0
  | .exited _ => 1
  | .disabled _ => 2
  | .stop => 3
  | .over _ => 4

theorem body_rank (r : Int) (steps : List Step) : ∀ stack, ∀ n ∈ (body r steps stack).2.1, n.rank = 0 := by
  induction steps with
  | nil => intro stack n hn; simp [body] at hn
  | cons s steps ih =>
    intro stack n hn
    cases s with
    | act k ok =>
      cases ok
      · simp [body] at hn
      · exact ih stack n (by simpa [body] using hn)
    | enter c =>
      by_cases h : c.enters = true
      · simp only [body, h, if_true] at hn
        rcases List.mem_cons.mp hn with rfl | hn
        · rfl
        · exact ih _ n hn
      · simp [body, h] at hn

theorem unwind_rank (stack : List Ctx) : ∀ e, ∀ n ∈ (unwind stack e).1, n.rank = 1 := by
  induction stack with
  | nil => intro e n hn; simp [unwind] at hn
  | cons c stack ih =>
    intro e n hn
    simp only [unwind] at hn
    rcases List.mem_cons.mp hn with rfl | hn
    · rfl
    · exact ih _ n hn

theorem disableAll_rank (cs : List Conn) : ∀ i, ∀ n ∈ (disableAll i cs).2.1, n.rank = 2 := by
  induction cs with
  | nil => intro i n hn; simp [disableAll] at hn
  | cons c cs ih =>
    intro i n hn
    unfold disableAll at hn
    split at hn
    · split at hn
      · simp at hn
      · rcases List.mem_cons.mp hn with rfl | hn
        · rfl
        · exact ih _ n hn
    · exact ih _ n hn

theorem cancelAll_rank (ts : List Task) : ∀ i, ∀ n ∈ (cancelAll i ts).2.1, n.rank = 4 := by
  induction ts with
  | nil => intro i n hn; simp [cancelAll] at hn
  | cons t ts ih =>
    intro i n hn
    unfold cancelAll at hn
    split at hn
    · exact ih _ n hn
    · dsimp only at hn
      split at hn
      · simp at hn; subst hn; rfl
      · rcases List.mem_cons.mp hn with rfl | hn
        · rfl
        · exact ih _ n hn

theorem sorted_const (l : List Note) (k : Nat) (h : ∀ n ∈ l, n.rank = k) :
    l.Pairwise (fun m n => m.rank ≤ n.rank) := by
  induction l with
  | nil => exact List.Pairwise.nil
  | cons n l ih =>
    refine List.Pairwise.cons ?_ (ih (fun m hm => h m (List.mem_cons_of_mem _ hm)))
    intro m hm
    rw [h n List.mem_cons_self, h m (List.mem_cons_of_mem _ hm)]
    exact Nat.le_refl _

/-- C104: in every application, contexts are left (so that periodic tasks and peers have stopped) before any
connection is disabled, connections are disabled before the signal is set, and the signal is set before any server is
cancelled. -/
theorem C104_order (a : App) (steps : List Step) (r : Int) (hl : a.log = []) :
    (a.leave steps r).1.log.Pairwise (fun m n => m.rank ≤ n.rank) := by
  have hs : ∀ n ∈ (if (disableAll 0 a.conns).2.2 = none then [Note.stop] else []), n.rank = 3 := by
    intro n hn
    split at hn
    · simp at hn; subst hn; rfl
    · simp at hn
  have he : ∃ l, (a.leave steps r).1.log = (a.entry steps r).1.log ++ l ∧ ∀ n ∈ l, n.rank = 4 := by
    unfold App.leave
    cases h : a.entry steps r with
    | mk b o =>
      cases o with
      | error e => exact ⟨[], by simp, by simp⟩
      | ok v =>
        refine ⟨(cancelAll 0 b.tasks).2.1, ?_, cancelAll_rank _ _⟩
        dsimp only
        split <;> rfl
  obtain ⟨l, h1, h2⟩ := he
  rw [h1, entry_log, hl, List.nil_append]
  have b := body_rank r steps []
  have u := unwind_rank (body r steps []).1 (err (body r steps []).2.2)
  have d := disableAll_rank a.conns 0
  refine List.pairwise_append.mpr ⟨List.pairwise_append.mpr ⟨List.pairwise_append.mpr ⟨List.pairwise_append.mpr
    ⟨sorted_const _ _ b, sorted_const _ _ u, ?_⟩, sorted_const _ _ d, ?_⟩, sorted_const _ _ hs, ?_⟩, sorted_const _ _ h2, ?_⟩
  · intro m hm n hn
    rw [b m hm]; omega
  · intro m hm n hn
    rw [d n hn]
    rcases List.mem_append.mp hm with hm | hm
    · rw [b m hm]; omega
    · rw [u m hm]; omega
  · intro m hm n hn
    rw [hs n hn]
    rcases List.mem_append.mp hm with hm | hm
    · rcases List.mem_append.mp hm with hm | hm
      · rw [b m hm]; omega
      · rw [u m hm]; omega
    · rw [d m hm]; omega
  · intro m hm n hn
    rw [h2 n hn]
    cases m <;> simp [Note.rank]

/-! ### Tasks -/

theorem cancelAll_ok (ts : List Task) : ∀ i, (cancelAll i ts).2.2 = none →
    (∀ t ∈ (cancelAll i ts).1, t.done = true) ∧ (cancelAll i ts).1.length = ts.length ∧
      (∀ t ∈ ts, t.done = false → t.fate ≠ .raised) := by
  induction ts with
  | nil => intro i _; exact ⟨by simp [cancelAll], rfl, by simp⟩
  | cons t ts ih =>
    intro i h
    obtain ⟨dn, cn, ft⟩ := t
    cases dn with
    | true =>
      simp only [cancelAll, if_true] at h ⊢
      obtain ⟨h1, h2, h3⟩ := ih _ h
      refine ⟨?_, by simp [h2], ?_⟩
      · intro t ht
        rcases List.mem_cons.mp ht with rfl | ht
        · rfl
        · exact h1 t ht
      · intro t ht hd
        rcases List.mem_cons.mp ht with rfl | ht
        · simp at hd
        · exact h3 t ht hd
    | false =>
      have key : ∀ f : Fate, f ≠ .raised → (cancelAll (i + 1) ts).2.2 = none →
          (∀ t ∈ (({ done := true, cancelled := true, fate := f } : Task) :: (cancelAll (i + 1) ts).1), t.done = true) ∧
          (({ done := true, cancelled := true, fate := f } : Task) :: (cancelAll (i + 1) ts).1).length = ts.length + 1 ∧
          (∀ t ∈ (({ done := false, cancelled := cn, fate := f } : Task) :: ts), t.done = false → t.fate ≠ .raised) := by
        intro f hf hn
        obtain ⟨h1, h2, h3⟩ := ih _ hn
        refine ⟨?_, by simp [h2], ?_⟩
        · intro t ht
          rcases List.mem_cons.mp ht with rfl | ht
          · rfl
          · exact h1 t ht
        · intro t ht hd
          rcases List.mem_cons.mp ht with rfl | ht
          · exact hf
          · exact h3 t ht hd
      cases ft with
      | raised => simp [cancelAll] at h
      | stopped => exact key .stopped (by simp) h
      | returned => exact key .returned (by simp) h

theorem cancelAll_total (ts : List Task) (h : ∀ t ∈ ts, t.done = false → t.fate ≠ .raised) : ∀ i,
    (cancelAll i ts).2.2 = none := by
  induction ts with
  | nil => intro i; rfl
  | cons t ts ih =>
    intro i
    have h2 : ∀ t ∈ ts, t.done = false → t.fate ≠ .raised := fun x hx => h x (List.mem_cons_of_mem _ hx)
    obtain ⟨dn, cn, ft⟩ := t
    cases dn with
    | true => exact ih h2 _
    | false =>
      cases ft with
      | raised => exact absurd rfl (h _ List.mem_cons_self rfl)
      | stopped => exact ih h2 _
      | returned => exact ih h2 _

/-- C104: when `app` returns, every server and the manager are over, and the signal is set. -/
theorem C104_tasks (a b : App) (steps : List Step) (r v : Int) (h : a.leave steps r = (b, .ok v)) :
    (∀ t ∈ b.tasks, t.done = true) ∧ b.stop = true ∧ (∀ c ∈ b.conns, c.enabled = false) := by
  have h1 : (∀ t ∈ b.tasks, t.done = true) ∧ (disableAll 0 a.conns).2.2 = none := by
    unfold App.leave at h
    cases he : a.entry steps r with
    | mk c o =>
      rw [he] at h
      cases o with
      | error e => simp at h
      | ok w =>
        dsimp only at h
        cases hc : (cancelAll 0 c.tasks).2.2 with
        | some x => rw [hc] at h; simp at h
        | none =>
          rw [hc] at h
          simp only [Prod.mk.injEq] at h
          refine ⟨?_, ?_⟩
          · rw [← h.1]
            exact (cancelAll_ok c.tasks 0 hc).1
          · unfold App.entry at he
            dsimp only at he
            cases hd : (disableAll 0 a.conns).2.2 with
            | none => rfl
            | some x => rw [hd] at he; simp at he
  have h2 : ∀ c ∈ a.conns, c.enabled = true → c.raises = false := by
    have : ∀ (cs : List Conn) i, (disableAll i cs).2.2 = none → ∀ c ∈ cs, c.enabled = true → c.raises = false := by
      intro cs
      induction cs with
      | nil => intro i _; simp
      | cons d cs ih =>
        intro i hn c hc hen
        obtain ⟨en, ra⟩ := d
        cases en with
        | true =>
          cases ra with
          | true => simp [disableAll] at hn
          | false =>
            rcases List.mem_cons.mp hc with rfl | hc
            · rfl
            · exact ih _ hn c hc hen
        | false =>
          rcases List.mem_cons.mp hc with rfl | hc
          · simp at hen
          · exact ih _ hn c hc hen
    exact this _ _ h1.2
  obtain ⟨s1, -, s3⟩ := C104_stopped_partial a steps r h2
  rw [h] at s1 s3
  exact ⟨h1.1, s3, s1⟩

/-- C104: an application in which nothing raises returns what its stages gave, and every context its steps name was
entered. -/
theorem C104_result (a : App) (steps : List Step) (r : Int) (hl : a.log = [])
    (hs : ∀ s ∈ steps, s.works = true) (hx : ∀ c, Step.enter c ∈ steps → c.exit ≠ .raises)
    (hc : ∀ c ∈ a.conns, c.enabled = true → c.raises = false)
    (ht : ∀ t ∈ a.tasks, t.done = false → t.fate ≠ .raised) :
    (a.leave steps r).2 = .ok r ∧ enters (a.leave steps r).1.log = steps.filterMap Step.ctx := by
  have hstack : ∀ (steps : List Step) (stack : List Ctx), (∀ s ∈ steps, s.works = true) →
      (∀ c, Step.enter c ∈ steps → c.exit ≠ .raises) → (∀ c ∈ stack, c.exit ≠ .raises) →
      ∀ c ∈ (body r steps stack).1, c.exit ≠ .raises := by
    intro steps
    induction steps with
    | nil => intro stack _ _ h c hc; exact h c hc
    | cons s steps ih =>
      intro stack h1 h2 h3
      have hr : ∀ s ∈ steps, s.works = true := fun x hx => h1 x (List.mem_cons_of_mem _ hx)
      have hr2 : ∀ c, Step.enter c ∈ steps → c.exit ≠ .raises := fun x hx => h2 x (List.mem_cons_of_mem _ hx)
      cases s with
      | act k ok =>
        have : ok = true := h1 _ List.mem_cons_self
        subst this
        exact ih stack hr hr2 h3
      | enter d =>
        have : d.enters = true := h1 _ List.mem_cons_self
        simp only [body, this, if_true]
        refine ih (d :: stack) hr hr2 ?_
        intro c hc
        rcases List.mem_cons.mp hc with rfl | hc
        · exact h2 _ List.mem_cons_self
        · exact h3 c hc
  have hun : ∀ stack : List Ctx, (∀ c ∈ stack, c.exit ≠ .raises) → (unwind stack none).2 = none := by
    intro stack
    induction stack with
    | nil => intro _; rfl
    | cons c stack ih =>
      intro h
      have := h c List.mem_cons_self
      have h2 := ih (fun d hd => h d (List.mem_cons_of_mem _ hd))
      unfold unwind
      cases hq : c.exit with
      | raises => exact absurd hq this
      | quiet => exact h2
      | swallows => exact h2
  obtain ⟨w1, w2⟩ := body_works r steps hs []
  obtain ⟨d1, d2⟩ := disableAll_ok a.conns hc 0
  have hu : (unwind (body r steps []).1 (err (body r steps []).2.2)).2 = none := by
    rw [w2]
    exact hun _ (hstack steps [] hs hx (by simp))
  have he : (a.entry steps r).2 = .ok r ∧ (a.entry steps r).1.tasks = a.tasks := by
    unfold App.entry
    dsimp only
    rw [d2, hu, w2]
    exact ⟨rfl, rfl⟩
  constructor
  · unfold App.leave
    cases hq : a.entry steps r with
    | mk b o =>
      rw [hq] at he
      obtain ⟨e1, e2⟩ := he
      dsimp only at e1 e2
      subst e1
      dsimp only
      rw [e2, cancelAll_total a.tasks ht 0]
  · obtain ⟨l, h, h1, h2⟩ := leave_log a steps r
    obtain ⟨u1, u2⟩ := unwind_spec (body r steps []).1 (err (body r steps []).2.2)
    obtain ⟨k1, k2⟩ := disableAll_notes a.conns 0
    rw [h, entry_log, hl]
    simp [enters_append, h2, u2, k2, w1, d2, enters]

theorem cancelAll_map (ts : List Task) : ∀ i, (cancelAll i ts).2.2 = none →
    (cancelAll i ts).1 = ts.map (fun t => if t.done then t else { t with done := true, cancelled := true }) := by
  induction ts with
  | nil => intro i _; rfl
  | cons t ts ih =>
    intro i h
    obtain ⟨dn, cn, ft⟩ := t
    cases dn with
    | true => simp only [cancelAll, if_true, List.map_cons] at h ⊢; rw [ih _ h]
    | false =>
      cases ft with
      | raised => simp [cancelAll] at h
      | stopped => have h' : (cancelAll (i + 1) ts).2.2 = none := h; simp [cancelAll, ih _ h']
      | returned => have h' : (cancelAll (i + 1) ts).2.2 = none := h; simp [cancelAll, ih _ h']

/-- C104: exactly the tasks that were not over are cancelled. -/
theorem C104_cancelled (a b : App) (steps : List Step) (r v : Int) (h : a.leave steps r = (b, .ok v)) :
    b.tasks = a.tasks.map (fun t => if t.done then t else { t with done := true, cancelled := true }) := by
  unfold App.leave at h
  cases he : a.entry steps r with
  | mk c o =>
    rw [he] at h
    cases o with
    | error e => simp at h
    | ok w =>
      have ht : c.tasks = a.tasks := by
        have : (a.entry steps r).1.tasks = a.tasks := by
          unfold App.entry
          dsimp only
          split
          · rfl
          · split <;> rfl
        rw [he] at this
        exact this
      dsimp only at h
      cases hc : (cancelAll 0 c.tasks).2.2 with
      | some x => rw [hc] at h; simp at h
      | none =>
        rw [hc] at h
        simp only [Prod.mk.injEq] at h
        rw [← h.1, ← ht]
        exact cancelAll_map c.tasks 0 hc

/-! ### What fails -/

/-- An exception of `_main` or of a context leaves the tasks as they are. -/
theorem raised_kept (a : App) (steps : List Step) (r : Int) (x : Exc)
    (h : (unwind (body r steps []).1 (err (body r steps []).2.2)).2 = some x) :
    (a.leave steps r).1.tasks = a.tasks ∧ ∃ y, (a.leave steps r).2 = .error y := by
  have he : (a.entry steps r).1.tasks = a.tasks ∧ ∃ y, (a.entry steps r).2 = .error y := by
    unfold App.entry
    dsimp only
    rw [h]
    cases (disableAll 0 a.conns).2.2 with
    | some z => exact ⟨rfl, z, rfl⟩
    | none => exact ⟨rfl, x, rfl⟩
  unfold App.leave
  cases hq : a.entry steps r with
  | mk b o =>
    rw [hq] at he
    obtain ⟨e1, y, e2⟩ := he
    dsimp only at e1 e2
    subst e2
    exact ⟨e1, y, rfl⟩

theorem body_raises (r : Int) (steps : List Step) : ∀ stack,
    (∃ s ∈ steps, s.works = false) → (∀ c, Step.enter c ∈ steps → c.exit ≠ .swallows) →
    (∀ c ∈ stack, c.exit ≠ .swallows) →
    (err (body r steps stack).2.2).isSome = true ∧ ∀ c ∈ (body r steps stack).1, c.exit ≠ .swallows := by
  induction steps with
  | nil => intro stack h; obtain ⟨s, hs, -⟩ := h; simp at hs
  | cons s steps ih =>
    intro stack h1 h2 h3
    have h4 : ∀ c, Step.enter c ∈ steps → c.exit ≠ .swallows := fun x hx => h2 x (List.mem_cons_of_mem _ hx)
    by_cases hw : s.works = true
    · have h5 : ∃ s ∈ steps, s.works = false := by
        obtain ⟨t, ht, hf⟩ := h1
        rcases List.mem_cons.mp ht with rfl | ht
        · rw [hw] at hf; simp at hf
        · exact ⟨t, ht, hf⟩
      cases s with
      | act k ok =>
        have : ok = true := hw
        subst this
        exact ih stack h5 h4 h3
      | enter d =>
        have : d.enters = true := hw
        simp only [body, this, if_true]
        refine ih (d :: stack) h5 h4 ?_
        intro c hc
        rcases List.mem_cons.mp hc with rfl | hc
        · exact h2 _ List.mem_cons_self
        · exact h3 c hc
    · cases s with
      | act k ok =>
        have : ok = false := by simpa [Step.works] using hw
        subst this
        exact ⟨rfl, h3⟩
      | enter d =>
        have : d.enters = false := by simpa [Step.works] using hw
        simp only [body, this]
        exact ⟨rfl, h3⟩

theorem unwind_raises (stack : List Ctx) : ∀ e, e.isSome = true → (∀ c ∈ stack, c.exit ≠ .swallows) →
    (unwind stack e).2.isSome = true := by
  induction stack with
  | nil => intro e h _; exact h
  | cons c stack ih =>
    intro e h hs
    unfold unwind
    dsimp only
    refine ih _ ?_ (fun d hd => hs d (List.mem_cons_of_mem _ hd))
    cases hq : c.exit with
    | quiet => exact h
    | raises => rfl
    | swallows => exact absurd hq (hs c List.mem_cons_self)

/-- C104 fails for an application of which any step raises, unless one of its contexts swallows exceptions: no server
and not the manager is cancelled. -/
theorem C104_raise_fails (a : App) (steps : List Step) (r : Int) (hs : ∃ s ∈ steps, s.works = false)
    (hn : ∀ c, Step.enter c ∈ steps → c.exit ≠ .swallows) :
    (a.leave steps r).1.tasks = a.tasks ∧ ∃ y, (a.leave steps r).2 = .error y := by
  obtain ⟨b1, b2⟩ := body_raises r steps [] hs hn (by simp)
  obtain ⟨x, hx⟩ := Option.isSome_iff_exists.mp (unwind_raises _ _ b1 b2)
  exact raised_kept a steps r x hx

/-- C104 fails for a connection whose `disable` raises: the connections after it stay enabled, the stop signal is not
set, and no server is cancelled, whatever the application did. -/
theorem C104_disable_fails (a : App) (steps : List Step) (r : Int) (before after : List Conn) (c : Conn)
    (hc : a.conns = before ++ c :: after) (hb : ∀ d ∈ before, d.enabled = true → d.raises = false)
    (he : c.enabled = true) (hr : c.raises = true) :
    (a.leave steps r).2 = .error (.disable before.length) ∧ (a.leave steps r).1.stop = a.stop ∧
      (a.leave steps r).1.tasks = a.tasks ∧
      (a.leave steps r).1.conns = before.map (fun d => { d with enabled := false }) ++ c :: after := by
  have hd : ∀ (before : List Conn) i, (∀ d ∈ before, d.enabled = true → d.raises = false) →
      (disableAll i (before ++ c :: after)).1 = before.map (fun d => { d with enabled := false }) ++ c :: after ∧
      (disableAll i (before ++ c :: after)).2.2 = some (.disable (i + before.length)) := by
    intro before
    induction before with
    | nil => intro i _; simp [disableAll, he, hr]
    | cons d ds ih =>
      intro i h
      obtain ⟨h1, h2⟩ := ih (i + 1) (fun x hx => h x (List.mem_cons_of_mem _ hx))
      obtain ⟨en, ra⟩ := d
      cases en with
      | true =>
        have : ra = false := h _ List.mem_cons_self rfl
        subst this
        simp only [List.cons_append, disableAll, if_true, List.map_cons, h1, h2]
        refine ⟨by simp, ?_⟩
        simp
        omega
      | false =>
        simp only [List.cons_append, disableAll, List.map_cons, h1, h2]
        refine ⟨by simp, ?_⟩
        simp
        omega
  obtain ⟨h1, h2⟩ := hd before 0 hb
  rw [← hc] at h1 h2
  have hen : a.entry steps r = ((a.entry steps r).1, .error (.disable before.length)) ∧
      (a.entry steps r).1.stop = a.stop ∧ (a.entry steps r).1.tasks = a.tasks ∧
      (a.entry steps r).1.conns = (disableAll 0 a.conns).1 := by
    unfold App.entry
    dsimp only
    rw [h2]
    simp
  obtain ⟨g1, g2, g3, g4⟩ := hen
  unfold App.leave
  rw [g1]
  exact ⟨rfl, g2, g3, by rw [← h1]; exact g4⟩

/-- C104 fails for a task that raises when it is cancelled: the ones after it are neither cancelled nor awaited, and
what the application gave is lost. -/
theorem C104_cancel_fails (a b : App) (steps : List Step) (r v : Int) (he : a.entry steps r = (b, .ok v))
    (before after : List Task) (t : Task) (ht : b.tasks = before ++ t :: after)
    (hb : ∀ s ∈ before, s.done = false → s.fate ≠ .raised) (hd : t.done = false) (hf : t.fate = .raised) :
    (a.leave steps r).2 = .error (.task before.length) ∧
      ∃ front, front.length = before.length + 1 ∧ (a.leave steps r).1.tasks = front ++ after := by
  have hc : ∀ (before : List Task) i, (∀ s ∈ before, s.done = false → s.fate ≠ .raised) →
      (cancelAll i (before ++ t :: after)).2.2 = some (.task (i + before.length)) ∧
      ∃ front, front.length = before.length + 1 ∧ (cancelAll i (before ++ t :: after)).1 = front ++ after := by
    intro before
    induction before with
    | nil =>
      intro i _
      obtain ⟨dn, cn, ft⟩ := t
      dsimp only at hd hf
      subst hd hf
      exact ⟨rfl, [{ done := true, cancelled := true, fate := .raised }], rfl, rfl⟩
    | cons s ss ih =>
      intro i h
      obtain ⟨h1, front, h2, h3⟩ := ih (i + 1) (fun x hx => h x (List.mem_cons_of_mem _ hx))
      have ha : i + 1 + ss.length = i + (s :: ss).length := by simp; omega
      rw [ha] at h1
      obtain ⟨dn, cn, ft⟩ := s
      cases dn with
      | true =>
        refine ⟨h1, { done := true, cancelled := cn, fate := ft } :: front, by simp [h2], ?_⟩
        simp only [List.cons_append, cancelAll, if_true, h3]
      | false =>
        cases ft with
        | raised => exact absurd rfl (h _ List.mem_cons_self rfl)
        | stopped =>
          refine ⟨h1, { done := true, cancelled := true, fate := .stopped } :: front, by simp [h2], ?_⟩
          simp [cancelAll, h3]
        | returned =>
          refine ⟨h1, { done := true, cancelled := true, fate := .returned } :: front, by simp [h2], ?_⟩
          simp [cancelAll, h3]
  obtain ⟨h1, front, h2, h3⟩ := hc before 0 hb
  rw [← ht] at h1 h3
  unfold App.leave
  rw [he]
  dsimp only
  rw [h1]
  simp only [Nat.zero_add]
  exact ⟨trivial, front, h2, h3⟩

/-- C104 fails for a context that swallows an exception: `app` returns -1 as if nothing had been raised. -/
theorem C104_swallowed_fails (a : App) (steps : List Step) (r : Int) (k : Nat) (c : Ctx) (hc : c.exit = .swallows)
    (hn : c.enters = true) (hconn : ∀ c ∈ a.conns, c.enabled = true → c.raises = false)
    (ht : ∀ t ∈ a.tasks, t.done = false → t.fate ≠ .raised) :
    (a.leave (.enter c :: .act k false :: steps) r).2 = .ok (-1) := by
  obtain ⟨d1, d2⟩ := disableAll_ok a.conns hconn 0
  have he : (a.entry (.enter c :: .act k false :: steps) r).2 = .ok (-1) ∧
      (a.entry (.enter c :: .act k false :: steps) r).1.tasks = a.tasks := by
    unfold App.entry
    simp [body, hn, unwind, hc, d2, err, value]
  unfold App.leave
  cases hq : a.entry (.enter c :: .act k false :: steps) r with
  | mk b o =>
    rw [hq] at he
    obtain ⟨e1, e2⟩ := he
    dsimp only at e1 e2
    subst e1
    dsimp only
    rw [e2, cancelAll_total a.tasks ht 0]

/-! ### Cases -/

/-- Two peers, periodic tasks, two connections, a server and the manager. -/
def exApp : App :=
  ⟨[⟨true, false⟩, ⟨false, false⟩, ⟨true, false⟩], [⟨false, false, .stopped⟩, ⟨false, false, .stopped⟩], false, []⟩
def exSteps : List Step :=
  [.enter ⟨0, true, .quiet⟩, .enter ⟨1, true, .quiet⟩, .act 0 true, .enter ⟨2, true, .quiet⟩, .act 1 true]

theorem C104_cases :
    (exApp.leave exSteps 0).2 = .ok 0 ∧
    (exApp.leave exSteps 0).1.log = [.entered 0, .entered 1, .entered 2, .exited 2, .exited 1, .exited 0,
      .disabled 0, .disabled 2, .stop, .over 0, .over 1] ∧
    (exApp.leave [.enter ⟨0, true, .raises⟩, .enter ⟨1, false, .quiet⟩] 0).2 = .error (.exit 0) ∧
    (exApp.leave [.enter ⟨0, true, .raises⟩, .enter ⟨1, false, .quiet⟩] 0).1.log =
      [.entered 0, .exited 0, .disabled 0, .disabled 2, .stop] ∧
    (exApp.leave [.enter ⟨0, true, .raises⟩, .enter ⟨1, false, .quiet⟩] 0).1.tasks = exApp.tasks ∧
    ({ exApp with conns := [⟨true, false⟩, ⟨true, true⟩, ⟨true, false⟩] }.leave exSteps 0).1.stop = false ∧
    ({ exApp with tasks := [⟨false, false, .raised⟩, ⟨false, false, .stopped⟩] }.leave exSteps 0).2 =
      .error (.task 0) := by
  refine ⟨by rfl, by decide, by rfl, by decide, by decide, by decide, by rfl⟩

end Verif.Leaving
