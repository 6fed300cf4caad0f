/-!
C72: incoming messages of a connection (`_process_read`, net/connection.py 315–335, over the queues of
net/tcp/protocol.py 23–46 and net/udp/protocol.py 22–35).
-/
namespace Verif.Net.Incoming

variable {μ : Type}

/-- What the reading task is doing: waiting at the queue, inside `process_text`, `process_binary` or
`process_datagram`, or over. -/
inductive Reader (μ : Type) where
  | waiting
  | handling (m : μ)
  | over
  deriving DecidableEq

/-- The reading side. `queue` is the queue of the current protocol object; `finished` are the messages
whose handler ran to its end, `handled` those it was given at all. -/
structure In (μ : Type) where
  enabled : Bool
  queue : List μ
  reader : Reader μ
  handled : List μ
  finished : List μ
  deriving DecidableEq

/-- A connection whose `process` has just started its tasks. -/
def In.new : In μ := ⟨true, [], .waiting, [], []⟩

/-- Events: data arrives (`data_received`, `datagram_received`); the reading task goes on; its handler
ends with a result, or with an exception; the connection is disabled from elsewhere (the peer closed
it, a stop signal, the application); `process` is run again on the disabled connection, which restarts
it. -/
inductive Op (μ : Type) where
  | arrive (m : μ)
  | take
  | done (ok : Bool)
  | raised
  | disable
  | restart
  deriving DecidableEq

/-- One event. A handler that returns false disables the connection (334–335). An exception leaves
`_process_read`; `process` waits for all tasks, nothing disables the connection (297–301). `disable`
cancels the reading task wherever it waits (188–203). `restart` installs a new protocol object with a
queue of its own (net/tcp/connection.py 106–122, net/udp/connection.py 125–141), only when disabled. -/
def step (s : In μ) : Op μ → In μ
  | .arrive m => { s with queue := s.queue ++ [m] }
  | .take =>
    match s.reader, s.queue with
    | .waiting, m :: q => { s with queue := q, reader := .handling m, handled := s.handled ++ [m] }
    | _, _ => s
  | .done ok =>
    match s.reader with
    | .handling m =>
      if ok then { s with reader := if s.enabled then .waiting else .over, finished := s.finished ++ [m] }
      else { s with reader := .over, enabled := false, finished := s.finished ++ [m] }
    | _ => s
  | .raised =>
    match s.reader with
    | .handling _ => { s with reader := .over }
    | _ => s
  | .disable => if s.enabled then { s with enabled := false, reader := .over } else s
  | .restart => if s.enabled then s else { s with enabled := true, queue := [], reader := .waiting }

def run (s : In μ) (ops : List (Op μ)) : In μ := ops.foldl step s

theorem run_cons (s : In μ) (o : Op μ) (ops : List (Op μ)) : run s (o :: ops) = run (step s o) ops := rfl

theorem run_append (s : In μ) (a b : List (Op μ)) : run s (a ++ b) = run (run s a) b := by
  simp [run]

/-- The messages that arrive in a history. -/
def arrivals : List (Op μ) → List μ
  | [] => []
  | .arrive m :: ops => m :: arrivals ops
  | _ :: ops => arrivals ops

theorem arrivals_append (a b : List (Op μ)) : arrivals (a ++ b) = arrivals a ++ arrivals b := by
  induction a with
  | nil => rfl
  | cons o a ih => cases o <;> simp [arrivals, ih]

theorem arrivals_cons (o : Op μ) (ops : List (Op μ)) : arrivals (o :: ops) = arrivals [o] ++ arrivals ops :=
  arrivals_append [o] ops

/-- Nothing invents or repeats a message: what was handled and what still waits is, in order, among
what arrived. -/
theorem step_sub (s : In μ) (o : Op μ) (arr : List μ) (h : List.Sublist (s.handled ++ s.queue) arr) :
    List.Sublist ((step s o).handled ++ (step s o).queue) (arr ++ arrivals [o]) := by
  have keep : List.Sublist (s.handled ++ s.queue) (arr ++ []) := by simpa using h
  cases o with
  | arrive m =>
    simp only [step, arrivals]
    rw [← List.append_assoc]
    exact h.append (List.Sublist.refl _)
  | take =>
    simp only [step, arrivals]
    cases hr : s.reader with
    | waiting =>
      cases hq : s.queue with
      | nil => simpa [hq] using keep
      | cons m q => simpa [hq] using keep
    | handling m => exact keep
    | over => exact keep
  | done ok =>
    simp only [step, arrivals]
    cases hr : s.reader with
    | handling m => cases ok <;> exact keep
    | waiting => exact keep
    | over => exact keep
  | raised =>
    simp only [step, arrivals]
    cases hr : s.reader <;> exact keep
  | disable =>
    simp only [step, arrivals]
    split <;> exact keep
  | restart =>
    simp only [step, arrivals]
    split
    · exact keep
    · refine List.Sublist.trans ?_ keep
      simp

theorem run_sub (s : In μ) (ops : List (Op μ)) (arr : List μ) (h : List.Sublist (s.handled ++ s.queue) arr) :
    List.Sublist ((run s ops).handled ++ (run s ops).queue) (arr ++ arrivals ops) := by
  induction ops generalizing s arr with
  | nil => simpa [run, arrivals] using h
  | cons o ops ih =>
    rw [run_cons, arrivals_cons, ← List.append_assoc]
    exact ih _ _ (step_sub s o arr h)

/-- C72. Over every history, across disconnections and restarts: the messages handled are, in order
and each at most once, messages that arrived. -/
theorem C72_order (ops : List (Op μ)) :
    List.Sublist (run In.new ops).handled (arrivals ops) := by
  have := run_sub In.new ops [] (by simp [In.new])
  rw [List.nil_append] at this
  exact (List.sublist_append_left _ _).trans this

/-- Histories in which handlers return true and the connection is not disabled. -/
def Undisturbed (ops : List (Op μ)) : Prop :=
  ∀ o ∈ ops, o ≠ .disable ∧ o ≠ .raised ∧ o ≠ .done false

structure Steady (s : In μ) (arr : List μ) : Prop where
  enabled : s.enabled = true
  reader : s.reader ≠ .over
  all : s.handled ++ s.queue = arr
  done : s.handled = s.finished ++ (match s.reader with | .handling m => [m] | _ => [])

theorem step_steady (s : In μ) (o : Op μ) (arr : List μ) (h : Steady s arr)
    (ho : o ≠ .disable ∧ o ≠ .raised ∧ o ≠ .done false) : Steady (step s o) (arr ++ arrivals [o]) := by
  obtain ⟨h1, h2, h3, h4⟩ := h
  have keep : Steady s (arr ++ []) := ⟨h1, h2, by simpa using h3, h4⟩
  cases o with
  | arrive m =>
    exact ⟨h1, h2, by simp [step, arrivals, ← h3], h4⟩
  | take =>
    simp only [step, arrivals]
    cases hr : s.reader with
    | handling m => simpa [hr] using keep
    | over => exact absurd hr h2
    | waiting =>
      cases hq : s.queue with
      | nil => exact keep
      | cons m q =>
        refine ⟨h1, by simp, ?_, ?_⟩
        · dsimp only
          rw [← h3, hq]
          simp
        · rw [hr] at h4
          simpa using h4
  | done ok =>
    simp only [step, arrivals]
    cases ok with
    | false => exact absurd rfl ho.2.2
    | true =>
      cases hr : s.reader with
      | over => exact absurd hr h2
      | waiting => exact keep
      | handling m =>
        rw [hr] at h4
        simp only [if_true, h1]
        exact ⟨rfl, by simp, by simpa using h3, by simpa using h4⟩
  | raised => exact absurd rfl ho.2.1
  | disable => exact absurd rfl ho.1
  | restart =>
    simp only [step, arrivals, h1, if_true]
    exact keep

theorem run_steady (s : In μ) (ops : List (Op μ)) (arr : List μ) (h : Steady s arr) (ho : Undisturbed ops) :
    Steady (run s ops) (arr ++ arrivals ops) := by
  induction ops generalizing s arr with
  | nil => simpa [run, arrivals] using h
  | cons o ops ih =>
    rw [run_cons, arrivals_cons, ← List.append_assoc]
    exact ih _ _ (step_steady s o arr h (ho o List.mem_cons_self)) (fun p hp => ho p (List.mem_cons_of_mem _ hp))

theorem new_steady : Steady (In.new : In μ) [] := ⟨rfl, by simp [In.new], rfl, rfl⟩

/-- C72. As long as handlers succeed and nothing disables the connection every message is handled or
still queued, in order, none twice. -/
theorem C72_exact_partial (ops : List (Op μ)) (ho : Undisturbed ops) :
    (run In.new ops).handled ++ (run In.new ops).queue = arrivals ops := by
  simpa using (run_steady In.new ops [] new_steady ho).all

/-- Letting the reader handle what waits. -/
def drain : Nat → List (Op μ)
  | 0 => [.done true]
  | n + 1 => .done true :: .take :: drain n

theorem drain_ok (n : Nat) : Undisturbed (drain n : List (Op μ)) := by
  induction n with
  | zero => intro o ho; simp [drain] at ho; subst ho; simp
  | succ n ih =>
    intro o ho
    simp only [drain, List.mem_cons] at ho
    rcases ho with rfl | rfl | ho
    · simp
    · simp
    · exact ih o ho

theorem arrivals_drain (n : Nat) : arrivals (drain n : List (Op μ)) = [] := by
  induction n with
  | zero => rfl
  | succ n ih => simpa [drain, arrivals] using ih

theorem drain_queue (n : Nat) (s : In μ) (arr : List μ) (h : Steady s arr) (hn : s.queue.length = n) :
    (run s (drain n)).queue = [] ∧ (run s (drain n)).reader = .waiting := by
  induction n generalizing s with
  | zero =>
    have hq : s.queue = [] := List.length_eq_zero_iff.mp hn
    have h1 := h.enabled
    have h2 := h.reader
    simp only [drain, run, List.foldl_cons, List.foldl_nil, step]
    cases hr : s.reader with
    | over => exact absurd hr h2
    | waiting => exact ⟨hq, hr⟩
    | handling m => simp [h1, hq]
  | succ n ih =>
    rw [drain, run_cons, run_cons]
    have s1 := step_steady s (.done true) arr h (by simp)
    have s2 := step_steady _ .take _ s1 (by simp)
    refine ih _ ?_ ?_
    · simpa [arrivals] using s2
    · have hq1 : (step s (.done true)).queue = s.queue ∧ (step s (.done true)).reader = .waiting := by
        have h1 := h.enabled
        have h2 := h.reader
        simp only [step]
        cases hr : s.reader with
        | over => exact absurd hr h2
        | waiting => exact ⟨rfl, hr⟩
        | handling m => simp [h1]
      generalize step s (.done true) = t at *
      cases hq : s.queue with
      | nil => rw [hq] at hn; cases hn
      | cons m q =>
        have hl : q.length = n := by rw [hq] at hn; simpa using hn
        simp [step, hq1.1, hq1.2, hq, hl]

/-- C72. Every message is handled to its end: from every undisturbed history the reader, left to run
with succeeding handlers, finishes everything that arrived, in order. -/
theorem C72_progress_partial (ops : List (Op μ)) (ho : Undisturbed ops) :
    (run In.new (ops ++ drain (run In.new ops).queue.length)).finished = arrivals ops := by
  have h := run_steady In.new ops [] new_steady ho
  rw [List.nil_append] at h
  rw [run_append]
  generalize run In.new ops = s at *
  obtain ⟨q1, q2⟩ := drain_queue _ s _ h rfl
  have h' := run_steady s (drain s.queue.length) _ h (drain_ok _)
  rw [arrivals_drain, List.append_nil] at h'
  have e1 := h'.all
  have e2 := h'.done
  rw [q1, List.append_nil] at e1
  rw [q2] at e2
  rw [← e1, e2]
  simp

/-- C72 in full fails: a handler that raises ends the reading task but not the connection. Whatever
happens short of disabling it, it stays enabled and handles nothing any more, and everything that
arrives piles up. A restart does not happen either, since the connection is not disabled. -/
theorem C72_raised_fails (s : In μ) (m : μ) (hs : s.reader = .handling m) (he : s.enabled = true)
    (ops : List (Op μ)) (ho : .disable ∉ ops) :
    (run s (.raised :: ops)).enabled = true ∧ (run s (.raised :: ops)).handled = s.handled ∧
      (run s (.raised :: ops)).queue = s.queue ++ arrivals ops := by
  rw [run_cons]
  have h0 : step s .raised = ⟨s.enabled, s.queue, .over, s.handled, s.finished⟩ := by
    simp [step, hs]
  rw [h0]
  have key : ∀ (ops : List (Op μ)) (q f : List μ), .disable ∉ ops →
      (run ⟨true, q, .over, s.handled, f⟩ ops).enabled = true ∧
      (run ⟨true, q, .over, s.handled, f⟩ ops).handled = s.handled ∧
      (run ⟨true, q, .over, s.handled, f⟩ ops).queue = q ++ arrivals ops := by
    intro ops
    induction ops with
    | nil => intro q f _; simp [run, arrivals]
    | cons o ops ih =>
      intro q f ho
      have ho' : .disable ∉ ops := fun h => ho (List.mem_cons_of_mem _ h)
      rw [run_cons, arrivals_cons]
      cases o with
      | arrive x =>
        have := ih (q ++ [x]) f ho'
        simpa [step, arrivals] using this
      | take => simpa [step, arrivals] using ih q f ho'
      | done ok => simpa [step, arrivals] using ih q f ho'
      | raised => simpa [step, arrivals] using ih q f ho'
      | disable => exact absurd List.mem_cons_self ho
      | restart => simpa [step, arrivals] using ih q f ho'
  rw [he]
  exact key ops s.queue s.finished ho

/-- C72 in full fails: messages still queued when the connection is disabled (the peer sent them and
then closed the connection, for instance) are never handled, whatever happens later, restarts
included: whatever is handled afterwards arrived afterwards. -/
theorem C72_disabled_fails (s : In μ) (he : s.enabled = true) (ops : List (Op μ)) :
    ∃ later, (run s (.disable :: ops)).handled = s.handled ++ later ∧ List.Sublist later (arrivals ops) := by
  rw [run_cons]
  have h0 : step s .disable = ⟨false, s.queue, .over, s.handled, s.finished⟩ := by simp [step, he]
  rw [h0]
  -- before a restart nothing is handled; after it the queue is a new one
  have key : ∀ (ops : List (Op μ)) (t : In μ) (arr : List μ),
      (∃ later, t.handled = s.handled ++ later ∧
        ((t.enabled = false ∧ t.reader = .over ∧ List.Sublist later arr) ∨ List.Sublist (later ++ t.queue) arr)) →
      ∃ later, (run t ops).handled = s.handled ++ later ∧ List.Sublist later (arr ++ arrivals ops) := by
    intro ops
    induction ops with
    | nil =>
      rintro t arr ⟨later, e, h⟩
      refine ⟨later, e, ?_⟩
      rw [arrivals, List.append_nil]
      rcases h with ⟨_, _, h⟩ | h
      · exact h
      · exact (List.sublist_append_left _ _).trans h
    | cons o ops ih =>
      rintro t arr ⟨later, e, h⟩
      rw [run_cons, arrivals_cons, ← List.append_assoc]
      refine ih _ _ ?_
      rcases h with ⟨h1, h2, h3⟩ | h
      · have hl : List.Sublist later (arr ++ arrivals [o]) := h3.trans (List.sublist_append_left _ _)
        cases o with
        | arrive m => exact ⟨later, e, .inl ⟨h1, h2, hl⟩⟩
        | take => exact ⟨later, by simp [step, h2, e], .inl ⟨by simp [step, h2, h1], by simp [step, h2], hl⟩⟩
        | done ok => exact ⟨later, by simp [step, h2, e], .inl ⟨by simp [step, h2, h1], by simp [step, h2], hl⟩⟩
        | raised => exact ⟨later, by simp [step, h2, e], .inl ⟨by simp [step, h2, h1], by simp [step, h2], hl⟩⟩
        | disable => exact ⟨later, by simp [step, h1, e], .inl ⟨by simp [step, h1], by simp [step, h1, h2], hl⟩⟩
        | restart => exact ⟨later, by simp [step, h1, e], .inr (by simpa [step, h1] using hl)⟩
      · have keep : List.Sublist (later ++ t.queue) (arr ++ []) := by simpa using h
        cases o with
        | arrive m =>
          refine ⟨later, e, .inr ?_⟩
          simp only [step, arrivals]
          rw [← List.append_assoc]
          exact h.append (List.Sublist.refl _)
        | take =>
          simp only [step, arrivals]
          cases hr : t.reader with
          | waiting =>
            cases hq : t.queue with
            | nil => exact ⟨later, e, .inr keep⟩
            | cons m q =>
              refine ⟨later ++ [m], by simp [e], .inr ?_⟩
              rw [hq] at keep
              simpa using keep
          | handling m => exact ⟨later, e, .inr keep⟩
          | over => exact ⟨later, e, .inr keep⟩
        | done ok =>
          simp only [step, arrivals]
          cases hr : t.reader with
          | handling m => cases ok <;> exact ⟨later, e, .inr keep⟩
          | waiting => exact ⟨later, e, .inr keep⟩
          | over => exact ⟨later, e, .inr keep⟩
        | raised =>
          simp only [step, arrivals]
          cases hr : t.reader <;> exact ⟨later, e, .inr keep⟩
        | disable =>
          simp only [step, arrivals]
          split <;> exact ⟨later, e, .inr keep⟩
        | restart =>
          simp only [step, arrivals]
          split
          · exact ⟨later, e, .inr keep⟩
          · refine ⟨later, e, .inr ?_⟩
            refine List.Sublist.trans ?_ keep
            simp
  have := key ops ⟨false, s.queue, .over, s.handled, s.finished⟩ []
    ⟨[], by simp, .inl ⟨rfl, rfl, List.Sublist.refl _⟩⟩
  simpa using this

/-- C72 in full fails: the message being handled when the connection is disabled is not finished;
it would have been without the `disable`. -/
theorem C72_interrupted_fails (s : In μ) (m : μ) (hs : s.reader = .handling m) (he : s.enabled = true) (ok : Bool) :
    (run s [.disable, .done ok]).finished = s.finished ∧ (run s [.done ok]).finished = s.finished ++ [m] := by
  cases ok <;> simp [run, step, he, hs]

/-- The same history with more handled and finished before. -/
def In.shift (s : In μ) (h f : List μ) : In μ := { s with handled := h ++ s.handled, finished := f ++ s.finished }

theorem step_shift (s : In μ) (h f : List μ) (o : Op μ) : step (s.shift h f) o = (step s o).shift h f := by
  obtain ⟨e, q, r, hd, fi⟩ := s
  cases o with
  | arrive m => rfl
  | take => cases r <;> cases q <;> simp [step, In.shift]
  | done ok => cases r <;> cases ok <;> cases e <;> simp [step, In.shift]
  | raised => cases r <;> rfl
  | disable => cases e <;> rfl
  | restart => cases e <;> rfl

theorem run_shift (s : In μ) (h f : List μ) (ops : List (Op μ)) : run (s.shift h f) ops = (run s ops).shift h f := by
  induction ops generalizing s with
  | nil => rfl
  | cons o ops ih => rw [run_cons, run_cons, step_shift, ih]

/-- C72. A restarted connection is as good as a new one: undisturbed from then on, it handles everything that arrives
after the restart, to its end and in order. -/
theorem C72_restart (s : In μ) (he : s.enabled = false) (ops : List (Op μ)) (ho : Undisturbed ops) :
    (run s (.restart :: ops)).enabled = true ∧
    (run s (.restart :: ops)).handled ++ (run s (.restart :: ops)).queue = s.handled ++ arrivals ops ∧
    (run s (.restart :: ops ++ drain (run s (.restart :: ops)).queue.length)).finished = s.finished ++ arrivals ops := by
  have h0 : step s .restart = (In.new : In μ).shift s.handled s.finished := by
    simp [step, he, In.new, In.shift]
  have h1 : ∀ os, run s (.restart :: os) = (run In.new os).shift s.handled s.finished := by
    intro os; rw [run_cons, h0, run_shift]
  rw [List.cons_append, h1, h1]
  have hs := run_steady In.new ops [] new_steady ho
  refine ⟨hs.enabled, ?_, ?_⟩
  · simp only [In.shift, List.append_assoc]
    rw [C72_exact_partial ops ho]
  · show s.finished ++ (run In.new (ops ++ drain (run In.new ops).queue.length)).finished = _
    rw [C72_progress_partial ops ho]

/-- C72. A handler that returns false ends the reading: its message counts as handled to its end, and nothing is handled
any more before a restart. -/
theorem C72_refused (s : In μ) (m : μ) (hs : s.reader = .handling m) (ops : List (Op μ)) (ho : .restart ∉ ops) :
    (run s (.done false :: ops)).handled = s.handled ∧ (run s (.done false :: ops)).finished = s.finished ++ [m] ∧
    (run s (.done false :: ops)).enabled = false := by
  rw [run_cons]
  have h0 : step s (.done false) = ⟨false, s.queue, .over, s.handled, s.finished ++ [m]⟩ := by simp [step, hs]
  rw [h0]
  have key : ∀ (ops : List (Op μ)) (q h f : List μ), .restart ∉ ops →
      (run (⟨false, q, .over, h, f⟩ : In μ) ops).handled = h ∧ (run (⟨false, q, .over, h, f⟩ : In μ) ops).finished = f ∧
      (run (⟨false, q, .over, h, f⟩ : In μ) ops).enabled = false := by
    intro ops
    induction ops with
    | nil => intros; exact ⟨rfl, rfl, rfl⟩
    | cons o ops ih =>
      intro q h f ho
      have ho' : .restart ∉ ops := fun h => ho (List.mem_cons_of_mem _ h)
      rw [run_cons]
      cases o with
      | arrive m => exact ih (q ++ [m]) h f ho'
      | take => exact ih q h f ho'
      | done ok => exact ih q h f ho'
      | raised => exact ih q h f ho'
      | disable => exact ih q h f ho'
      | restart => exact absurd List.mem_cons_self ho
  exact key ops _ _ _ ho

/-- Cases: two messages handled, a third interrupted by the peer closing while a fourth waits; the
connection restarts and goes on. And a raising handler. -/
theorem C72_cases :
    let ops : List (Op Nat) := [.arrive 1, .arrive 2, .take, .done true, .take, .done true, .arrive 3, .arrive 4,
      .take, .disable, .restart, .arrive 5, .take, .done true]
    (run In.new ops).handled = [1, 2, 3, 5] ∧ (run In.new ops).finished = [1, 2, 5] ∧
    arrivals ops = [1, 2, 3, 4, 5] ∧
    run In.new [.arrive 1, .take, .raised, .arrive 2, .take, .restart, .arrive 3, .take] =
      (⟨true, [2, 3], .over, [1], []⟩ : In Nat) := by decide

end Verif.Net.Incoming
