import Verif.Base

/-!
# The command queue (C56)

`AsyncCommandProcessingMixin` of `mixins/async_command.py` 31-63. A command is
an opaque value of type `γ`. A handler is anything: it may enqueue further
commands while it runs, and it may raise. Others may enqueue as well while it
is awaited.
-/

namespace Verif.CommandQueue

variable {γ : Type}

/-! ## Any number of processors -/

/-- The queue, with what was taken from it so far, and the count behind
`Queue.join`. -/
structure Q (γ : Type) where
  queue : List γ
  taken : List γ
  unfinished : Int

/-- What happens to the queue. -/
inductive Op (γ : Type) where
  /-- `_handle_command` (45-50) -/
  | put (c : γ)
  /-- a processor's `get_nowait` (55-56); it does nothing on an empty queue -/
  | take
  /-- a handler returns (63) -/
  | done
  /-- a handler raises: line 63 is not reached -/
  | raised

def Op.run (s : Q γ) : Op γ → Q γ
  | .put c => ⟨s.queue ++ [c], s.taken, s.unfinished + 1⟩
  | .take =>
    match s.queue with
    | [] => s
    | c :: q => ⟨q, s.taken ++ [c], s.unfinished⟩
  | .done => ⟨s.queue, s.taken, s.unfinished - 1⟩
  | .raised => s

/-- The commands enqueued in a history. -/
def puts : List (Op γ) → List γ
  | [] => []
  | .put c :: ops => c :: puts ops
  | _ :: ops => puts ops

theorem run_spec (ops : List (Op γ)) (s : Q γ) :
    (ops.foldl Op.run s).taken ++ (ops.foldl Op.run s).queue
      = s.taken ++ s.queue ++ puts ops ∧
    s.taken <+: (ops.foldl Op.run s).taken := by
  induction ops generalizing s with
  | nil => simp [puts]
  | cons o ops ih =>
    obtain ⟨h1, h2⟩ := ih (o.run s)
    rw [List.foldl_cons, h1]
    cases o with
    | put c => exact ⟨by simp [Op.run, puts], h2⟩
    | take =>
      simp only [Op.run, puts] at h2 ⊢
      cases hq : s.queue with
      | nil => rw [hq] at h2; simp only at h2 ⊢; rw [hq]; exact ⟨rfl, h2⟩
      | cons c q =>
        rw [hq] at h2
        simp only at h2 ⊢
        exact ⟨by simp, (List.prefix_append _ _).trans h2⟩
    | done => exact ⟨rfl, h2⟩
    | raised => exact ⟨rfl, h2⟩

/-- C56: in every history, with any number of processors at work, the commands
taken up so far followed by those still queued are exactly the commands
enqueued, in order: none is taken twice, skipped, lost or overtaken, whichever
handlers raise. -/
theorem C56_order (ops : List (Op γ)) :
    (ops.foldl Op.run ⟨[], [], 0⟩).taken ++ (ops.foldl Op.run ⟨[], [], 0⟩).queue = puts ops := by
  have := (run_spec ops ⟨[], [], 0⟩).1
  simpa using this

/-- C56: a command once taken up is never put back: what has been taken only
grows at its end. -/
theorem C56_not_retried (ops more : List (Op γ)) :
    (ops.foldl Op.run ⟨[], [], 0⟩).taken <+: ((ops ++ more).foldl Op.run ⟨[], [], 0⟩).taken := by
  rw [List.foldl_append]
  exact (run_spec more _).2

example : (([.put 1, .put 2, .take, .raised, .put 3, .take, .done] : List (Op Nat)).foldl Op.run
    ⟨[], [], 0⟩) = ⟨[3], [1, 2], 2⟩ := rfl

/-! ## One call of `process_command_queue` -/

/-- `Call q new handled rest raised`: a call on the queue `q`, during which
`new` is enqueued, handles the commands `handled`, leaves `rest`, and raises or
not (`async_command.py` 52-63). -/
inductive Call : List γ → List γ → List γ → List γ → Bool → Prop where
  /-- the queue is empty -/
  | empty : Call [] [] [] [] false
  /-- a handler returns; `new` came in while it ran -/
  | step {c : γ} {q new new' handled rest : List γ} {r : Bool} :
      Call (q ++ new) new' handled rest r →
      Call (c :: q) (new ++ new') (c :: handled) rest r
  /-- a handler raises; the exception leaves the loop -/
  | raise {c : γ} {q new : List γ} : Call (c :: q) new [c] (q ++ new) true

/-- C56: a call handles a first part of what is queued or comes in while it
runs, in order and each once. Without an exception it leaves nothing behind;
with one, the command that raised was the last it handled and everything
behind it is kept, in order. -/
theorem C56_call {q new handled rest : List γ} {r : Bool} (h : Call q new handled rest r) :
    handled ++ rest = q ++ new ∧ (r = false → rest = []) ∧ (r = true → handled ≠ []) := by
  induction h with
  | empty => exact ⟨rfl, fun _ => rfl, fun h => (by cases h)⟩
  | step _ ih =>
    obtain ⟨h1, h2, h3⟩ := ih
    refine ⟨?_, h2, fun _ => by simp⟩
    rw [List.cons_append, h1]
    simp
  | raise => exact ⟨by simp, fun h => (by cases h), fun _ => by simp⟩

/-- Calls one after the other, with commands enqueued in between. -/
inductive Calls : List γ → List γ → List γ → List γ → Prop where
  | nil {q : List γ} : Calls q [] [] q
  | put {q new handled rest : List γ} {c : γ} :
      Calls (q ++ [c]) new handled rest → Calls q (c :: new) handled rest
  | call {q new handled q' new' handled' rest : List γ} {r : Bool} :
      Call q new handled q' r → Calls q' new' handled' rest →
      Calls q (new ++ new') (handled ++ handled') rest

/-- C56: over any number of calls, failing or not, every command is handled at
most once and in order, and those not handled are still queued. -/
theorem C56_calls {q new handled rest : List γ} (h : Calls q new handled rest) :
    handled ++ rest = q ++ new := by
  induction h with
  | nil => simp
  | put _ ih => rw [ih]; simp
  | call hc _ ih =>
    rw [List.append_assoc, ih, ← List.append_assoc, (C56_call hc).1, List.append_assoc]

/-- A call in which the second of three commands raises. -/
example : Call [1, 2, 3] [4] [1, 2] [3, 4] true :=
  Call.step (new := []) (new' := [4]) (q := [2, 3]) (Call.raise (q := [3]) (new := [4]))

/-- The loop when no handler enqueues anything: `raises c` tells whether the
handler of `c` raises. The commands handled, those left, and whether it
raised. -/
def drain (raises : γ → Bool) : List γ → List γ × List γ × Bool
  | [] => ([], [], false)
  | c :: q =>
    if raises c then ([c], q, true)
    else
      let r := drain raises q
      (c :: r.1, r.2)

/-- The executable loop is a call. -/
theorem drain_call (raises : γ → Bool) (q : List γ) :
    Call q [] (drain raises q).1 (drain raises q).2.1 (drain raises q).2.2 := by
  induction q with
  | nil => exact Call.empty
  | cons c q ih =>
    unfold drain
    split
    · have := Call.raise (c := c) (q := q) (new := [])
      simpa using this
    · refine Call.step (new := []) (new' := []) ?_
      simpa using ih

/-- C56: when no handler raises and nothing comes in, one call handles the
whole queue, in order; it always ends. -/
theorem C56_drains (raises : γ → Bool) (q : List γ) (h : ∀ c ∈ q, raises c = false) :
    drain raises q = (q, [], false) := by
  induction q with
  | nil => rfl
  | cons c q ih =>
    simp only [drain, h c List.mem_cons_self, Bool.false_eq_true, if_false]
    rw [ih (fun x hx => h x (List.mem_cons_of_mem _ hx))]

/-- C56: the first handler that raises stops the call right there. -/
theorem C56_raises (raises : γ → Bool) (before after : List γ) (c : γ)
    (hb : ∀ x ∈ before, raises x = false) (hc : raises c = true) :
    drain raises (before ++ c :: after) = (before ++ [c], after, true) := by
  induction before with
  | nil => simp [drain, hc]
  | cons x xs ih =>
    simp only [List.cons_append, drain, hb x List.mem_cons_self, Bool.false_eq_true, if_false]
    rw [ih (fun y hy => hb y (List.mem_cons_of_mem _ hy))]

/-- C56: a handler that raises leaves the queue's unfinished count one too
high for good: once everything has been taken up and every handler has ended,
`Queue.join` still waits for as many commands as have raised. -/
theorem C56_join_fails (ops : List (Op γ)) :
    (ops.foldl Op.run ⟨[], [], 0⟩).unfinished =
      (puts ops).length - ((ops.filter (fun o => match o with | .done => true | _ => false)).length : Int) := by
  have gen : ∀ (ops : List (Op γ)) (s : Q γ), (ops.foldl Op.run s).unfinished =
      s.unfinished + (puts ops).length
        - ((ops.filter (fun o => match o with | .done => true | _ => false)).length : Int) := by
    intro ops
    induction ops with
    | nil => intro s; simp [puts]
    | cons o ops ih =>
      intro s
      rw [List.foldl_cons, ih]
      cases o with
      | put c => simp [Op.run, puts]; omega
      | take =>
        simp only [Op.run, puts, List.filter_cons]
        cases s.queue <;> simp
      | done => simp [Op.run, puts]; omega
      | raised => simp [Op.run, puts]
  rw [gen]
  simp

end Verif.CommandQueue
