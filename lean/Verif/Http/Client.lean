import Verif.Http.Header
/-!
C71: requests made over an HTTP connection and the responses they get (`request` and
`process_binary`, net/tcp/http/__init__.py 131–199).
-/
namespace Verif.Http.Client
open Verif Verif.Http Verif.Text

/-- The connection's side of requests. A request is known by a number; a response by the number of the
request the peer answered with it. `waiting` are the tasks blocked at the semaphore, first come first
served; `active` is the task awaiting `responses.get()`; `queue` is the response queue of size one and
`held` a `put` waiting for room in it, which also keeps `process_binary` from going on; `outstanding`
are the requests the peer has still to answer, in order; `served` counts requests of the peer answered
here; `broken` says that processing has ended with an exception. -/
structure St where
  waiting : List Nat
  active : Option Nat
  expecting : Bool
  queue : Option Nat
  held : Option Nat
  outstanding : List Nat
  results : List (Nat × Nat)
  served : Nat
  broken : Bool
  deriving DecidableEq

/-- `init`, 66–80. -/
def start : St := ⟨[], none, false, none, none, [], [], 0, false⟩

/-- What can happen: a task calls `request`; the next task waiting at the semaphore goes on; the peer's
next response arrives; a waiting `put` goes on; the active task takes its response; a task waiting at
the semaphore, or the active one, is cancelled (a timeout, for instance); a request of the peer
arrives. -/
inductive Op where
  | request (i : Nat)
  | acquire
  | response
  | push
  | take
  | cancelWaiting (i : Nat)
  | cancelActive
  | peer
  deriving DecidableEq

/-- `request` inside the semaphore up to `responses.get()`, 137–142. -/
def begin (s : St) (i : Nat) : St :=
  { s with active := some i, expecting := true, outstanding := s.outstanding ++ [i] }

/-- One event. Arrivals are handled by `process_binary`, 174–199: the header is parsed as a response
only when one is expected, as a request otherwise; parsing the one as the other raises (see
`C71_response_unparsed` and `C71_request_unparsed` below). Nothing is processed while a `put` waits or
after an exception. -/
def step (s : St) : Op → St
  | .request i =>
    if s.active = none ∧ s.waiting = [] then begin s i else { s with waiting := s.waiting ++ [i] }
  | .acquire =>
    match s.active, s.waiting with
    | none, i :: ws => begin { s with waiting := ws } i
    | _, _ => s
  | .response =>
    if s.broken = true ∨ s.held ≠ none then s
    else
      match s.outstanding with
      | [] => s
      | r :: rs =>
        if s.expecting then
          match s.queue with
          | none => { s with outstanding := rs, queue := some r }
          | some _ => { s with outstanding := rs, held := some r }
        else { s with outstanding := rs, broken := true }
  | .push =>
    match s.held, s.queue with
    | some r, none => { s with held := none, queue := some r }
    | _, _ => s
  | .take =>
    match s.active, s.queue with
    | some i, some r =>
      { s with results := s.results ++ [(i, r)], queue := none, active := none, expecting := false }
    | _, _ => s
  | .cancelWaiting i => { s with waiting := s.waiting.erase i }
  | .cancelActive => { s with active := none }
  | .peer =>
    if s.broken = true ∨ s.held ≠ none then s
    else if s.expecting then { s with broken := true }
    else { s with served := s.served + 1 }

def run (s : St) (ops : List Op) : St := ops.foldl step s

theorem run_cons (s : St) (o : Op) (ops : List Op) : run s (o :: ops) = run (step s o) ops := rfl

theorem run_append (s : St) (a b : List Op) : run s (a ++ b) = run (run s a) b := by
  simp [run]

/-- Sequences of events in which the task awaiting a response is never cancelled and the peer sends
requests of its own only while none is being awaited here. -/
def Calm (s : St) : List Op → Prop
  | [] => True
  | o :: ops => o ≠ .cancelActive ∧ (o = .peer → s.active = none) ∧ Calm (step s o) ops

/-- What holds along such sequences. -/
structure Inv (s : St) : Prop where
  fine : s.broken = false
  held : s.held = none
  own : ∀ p ∈ s.results, p.1 = p.2
  idle : s.active = none → s.outstanding = [] ∧ s.queue = none ∧ s.expecting = false
  busy : ∀ i, s.active = some i → s.expecting = true ∧
    ((s.outstanding = [i] ∧ s.queue = none) ∨ (s.outstanding = [] ∧ s.queue = some i))

theorem start_inv : Inv start :=
  ⟨rfl, rfl, (by intro p hp; cases hp), fun _ => ⟨rfl, rfl, rfl⟩, (by intro i h; cases h)⟩

theorem begin_inv (s : St) (i : Nat) (ws : List Nat) (h : Inv s) (ha : s.active = none) :
    Inv (begin { s with waiting := ws } i) := by
  obtain ⟨h1, h2, h3⟩ := h.idle ha
  refine ⟨h.fine, h.held, h.own, (by intro e; cases e), ?_⟩
  intro j hj
  cases hj
  exact ⟨rfl, .inl ⟨by simp [begin, h1], h2⟩⟩

theorem step_inv (s : St) (o : Op) (h : Inv s) (hc : o ≠ .cancelActive) (hp : o = .peer → s.active = none) :
    Inv (step s o) := by
  cases o with
  | request i =>
    unfold step
    dsimp only
    by_cases hn : s.active = none ∧ s.waiting = []
    · rw [if_pos hn]
      have := begin_inv s i s.waiting h hn.1
      exact this
    · rw [if_neg hn]
      exact ⟨h.fine, h.held, h.own, h.idle, h.busy⟩
  | acquire =>
    unfold step
    dsimp only
    cases ha : s.active with
    | some j => exact h
    | none =>
      cases hw : s.waiting with
      | nil => exact h
      | cons i ws =>
        have := begin_inv s i ws h ha
        simpa [ha] using this
  | response =>
    unfold step
    dsimp only
    rw [if_neg (by simp [h.fine, h.held])]
    cases ho : s.outstanding with
    | nil => exact h
    | cons r rs =>
      cases ha : s.active with
      | none =>
        have := (h.idle ha).1
        rw [ho] at this
        cases this
      | some i =>
        obtain ⟨h1, h2 | h2⟩ := h.busy i ha
        · dsimp only
          rw [if_pos h1, h2.2]
          have h3 : r = i ∧ rs = [] := by
            have := h2.1
            rw [ho] at this
            simpa using this
          refine ⟨h.fine, h.held, h.own, ?_, ?_⟩
          · intro e
            cases e
          · intro j hj
            cases hj
            exact ⟨h1, .inr ⟨h3.2, by rw [h3.1]⟩⟩
        · have := h2.1
          rw [ho] at this
          cases this
  | push =>
    unfold step
    dsimp only
    rw [h.held]
    exact h
  | take =>
    unfold step
    dsimp only
    cases ha : s.active with
    | none => exact h
    | some i =>
      cases hq : s.queue with
      | none => exact h
      | some r =>
        obtain ⟨h1, h2 | h2⟩ := h.busy i ha
        · rw [hq] at h2
          cases h2.2
        · have hr : r = i := by
            have := h2.2
            rw [hq] at this
            simpa using this
          refine ⟨h.fine, h.held, ?_, fun _ => ⟨h2.1, rfl, rfl⟩, (by intro j hj; cases hj)⟩
          intro p hp
          rcases List.mem_append.mp hp with hp | hp
          · exact h.own p hp
          · rw [List.mem_singleton.mp hp]
            exact hr.symm
  | cancelWaiting i => exact ⟨h.fine, h.held, h.own, h.idle, h.busy⟩
  | cancelActive => exact absurd rfl hc
  | peer =>
    have ha := hp rfl
    unfold step
    dsimp only
    rw [if_neg (by simp [h.fine, h.held]), if_neg (by rw [(h.idle ha).2.2]; simp)]
    exact ⟨h.fine, h.held, h.own, h.idle, h.busy⟩

theorem run_inv (s : St) (ops : List Op) (h : Inv s) (hc : Calm s ops) : Inv (run s ops) := by
  induction ops generalizing s with
  | nil => exact h
  | cons o ops ih => exact ih _ (step_inv s o h hc.1 hc.2.1) hc.2.2

/-- C71. Whatever the number of concurrent requests and their interleaving with the peer's answers:
as long as no task is cancelled while awaiting its response, every request that returns returns the
response to itself, and processing never fails. -/
theorem C71_own_partial (ops : List Op) (hc : Calm start ops) :
    (∀ p ∈ (run start ops).results, p.1 = p.2) ∧ (run start ops).broken = false :=
  ⟨(run_inv start ops start_inv hc).own, (run_inv start ops start_inv hc).fine⟩

/-- The requests issued by a sequence of events. -/
def issued : List Op → List Nat
  | [] => []
  | .request i :: ops => i :: issued ops
  | _ :: ops => issued ops

/-- The requests in the order in which they were or will be answered. -/
def line (s : St) : List Nat := s.results.map (·.1) ++ s.active.toList ++ s.waiting

theorem step_line (s : St) (o : Op) (hc : o ≠ .cancelActive) (hw : ∀ i, o ≠ .cancelWaiting i) :
    line (step s o) = line s ++ issued [o] := by
  cases o with
  | request i =>
    unfold step line
    dsimp only
    by_cases hn : s.active = none ∧ s.waiting = []
    · rw [if_pos hn]
      simp [begin, hn.1, hn.2, issued]
    · rw [if_neg hn]
      simp [issued]
  | acquire =>
    unfold step line
    dsimp only
    cases ha : s.active with
    | some j => simp [issued, ha]
    | none =>
      cases hws : s.waiting with
      | nil => simp [issued, ha, hws]
      | cons i ws => simp [issued, begin]
  | response =>
    simp only [issued, List.append_nil]
    unfold step line
    dsimp only
    by_cases hb : s.broken = true ∨ s.held ≠ none
    · rw [if_pos hb]
    · rw [if_neg hb]
      cases ho : s.outstanding with
      | nil => rfl
      | cons r rs =>
        cases he : s.expecting with
        | false => simp
        | true => cases hq : s.queue <;> simp
  | push =>
    simp only [issued, List.append_nil]
    unfold step line
    dsimp only
    cases hh : s.held <;> cases hq : s.queue <;> rfl
  | take =>
    simp only [issued, List.append_nil]
    unfold step line
    dsimp only
    cases ha : s.active with
    | none => simp [ha]
    | some i => cases hq : s.queue <;> simp [ha]
  | cancelWaiting i => exact absurd rfl (hw i)
  | cancelActive => exact absurd rfl hc
  | peer =>
    simp only [issued, List.append_nil]
    unfold step line
    dsimp only
    by_cases hb : s.broken = true ∨ s.held ≠ none
    · rw [if_pos hb]
    · rw [if_neg hb]
      by_cases he : s.expecting = true
      · rw [if_pos he]
      · rw [if_neg he]

theorem issued_cons (o : Op) (ops : List Op) : issued (o :: ops) = issued [o] ++ issued ops := by
  cases o <;> simp [issued]

theorem run_line (s : St) (ops : List Op) (hc : .cancelActive ∉ ops) (hw : ∀ i, .cancelWaiting i ∉ ops) :
    line (run s ops) = line s ++ issued ops := by
  induction ops generalizing s with
  | nil => simp [run, issued]
  | cons o ops ih =>
    rw [run_cons, ih _ (fun h => hc (List.mem_cons_of_mem _ h)) (fun i h => hw i (List.mem_cons_of_mem _ h)),
      step_line s o (fun e => hc (by simp [e])) (fun i e => hw i (by simp [e])), issued_cons o ops,
      List.append_assoc]

/-- C71. Without cancellations requests are answered in the order in which they were made, none lost
and none twice: those answered, the one being awaited and those waiting are exactly those made. -/
theorem C71_order_partial (ops : List Op) (hc : .cancelActive ∉ ops) (hw : ∀ i, .cancelWaiting i ∉ ops) :
    (run start ops).results.map (·.1) ++ (run start ops).active.toList ++ (run start ops).waiting =
      issued ops := by
  have := run_line start ops hc hw
  simpa [line, start] using this

/-- One request at a time: the events that finish the first `n` waiting requests. -/
def rounds : Nat → List Op
  | 0 => []
  | n + 1 => .acquire :: .response :: .take :: rounds n

theorem finish_active (s : St) (h : Inv s) (i : Nat) (ha : s.active = some i) :
    ∃ s', run s [.response, .take] = s' ∧ Inv s' ∧ s'.active = none ∧ s'.waiting = s.waiting ∧
      s'.results = s.results ++ [(i, i)] := by
  obtain ⟨h1, h2 | h2⟩ := h.busy i ha
  · have e1 : step s .response = ⟨s.waiting, s.active, s.expecting, some i, s.held, [], s.results, s.served, s.broken⟩ := by
      unfold step
      dsimp only
      rw [if_neg (by simp [h.fine, h.held]), h2.1]
      dsimp only
      rw [if_pos h1, h2.2]
    have hi := step_inv s .response h (by simp) (by simp)
    have hi' := step_inv _ .take hi (by simp) (by simp)
    refine ⟨step (step s .response) .take, rfl, hi', ?_, ?_, ?_⟩
    all_goals
      rw [e1]
      simp [step, ha]
  · have e1 : step s .response = s := by
      unfold step
      dsimp only
      rw [if_neg (by simp [h.fine, h.held]), h2.1]
    have hi' := step_inv s .take h (by simp) (by simp)
    refine ⟨step s .take, ?_, hi', ?_, ?_, ?_⟩
    · rw [run_cons, e1]
      rfl
    all_goals simp [step, ha, h2.2]

theorem finish_waiting (n : Nat) (s : St) (h : Inv s) (ha : s.active = none) (hn : s.waiting.length = n) :
    ∃ s', run s (rounds n) = s' ∧ Inv s' ∧ s'.active = none ∧ s'.waiting = [] ∧
      s'.results = s.results ++ s.waiting.map (fun i => (i, i)) := by
  induction n generalizing s with
  | zero =>
    have hw : s.waiting = [] := List.length_eq_zero_iff.mp hn
    exact ⟨s, rfl, h, ha, hw, by simp [hw]⟩
  | succ n ih =>
    cases hw : s.waiting with
    | nil => rw [hw] at hn; cases hn
    | cons i ws =>
      have e1 : step s .acquire = begin { s with waiting := ws } i := by
        unfold step
        dsimp only
        rw [ha, hw]
      have hi := begin_inv s i ws h ha
      obtain ⟨s1, q1, q2, q3, q4, q5⟩ := finish_active _ hi i rfl
      have q4' : s1.waiting = ws := q4
      obtain ⟨s2, r1, r2, r3, r4, r5⟩ := ih s1 q2 q3 (by rw [q4']; rw [hw] at hn; simpa using hn)
      refine ⟨s2, ?_, r2, r3, r4, ?_⟩
      · rw [rounds, run_cons, e1]
        have : ∀ ops, (Op.response :: Op.take :: ops) = [.response, .take] ++ ops := fun _ => rfl
        rw [this, run_append, q1, r1]
      · rw [r5, q5, q4']
        simp [begin]

/-- C71. Every request is answered: from every state reached without cancelling an awaiting task, the
peer's answers let all pending requests return, each with its own response, in order. -/
theorem C71_answered_partial (ops : List Op) (hc : Calm start ops) :
    let s := run start ops
    let more := (if s.active = none then [] else [.response, .take]) ++ rounds s.waiting.length
    (run s more).results = s.results ++ (s.active.toList ++ s.waiting).map (fun i => (i, i)) ∧
      (run s more).active = none ∧ (run s more).waiting = [] := by
  intro s more
  have h : Inv s := run_inv start ops start_inv hc
  cases ha : s.active with
  | none =>
    obtain ⟨s', e1, _, e3, e4, e5⟩ := finish_waiting _ s h ha rfl
    have : run s more = s' := by
      show run s ((if s.active = none then [] else [.response, .take]) ++ rounds s.waiting.length) = s'
      rw [if_pos ha]
      exact e1
    rw [this]
    exact ⟨by simpa using e5, e3, e4⟩
  | some i =>
    obtain ⟨s1, q1, q2, q3, q4, q5⟩ := finish_active s h i ha
    obtain ⟨s', e1, _, e3, e4, e5⟩ := finish_waiting _ s1 q2 q3 rfl
    have : run s more = s' := by
      show run s ((if s.active = none then [] else [.response, .take]) ++ rounds s.waiting.length) = s'
      rw [if_neg (by rw [ha]; simp), run_append, q1, ← q4]
      exact e1
    rw [this]
    refine ⟨?_, e3, e4⟩
    rw [e5, q5, q4]
    simp

/-! ### Cancelled requests -/

/-- One response behind: the response to `p` is still to come although no task awaits it. -/
structure Lag (s : St) (p : Nat) : Prop where
  fine : s.broken = false
  held : s.held = none
  active : s.active = none
  waiting : s.waiting = []
  next : (s.outstanding = [p] ∧ s.queue = none) ∨ (s.outstanding = [] ∧ s.queue = some p)

/-- A request made one response behind, with the events that let it return. -/
def late (i : Nat) : List Op := [.request i, .response, .take, .push]

theorem late_lag (s : St) (p i : Nat) (h : Lag s p) :
    Lag (run s (late i)) i ∧ (run s (late i)).results = s.results ++ [(i, p)] := by
  obtain ⟨ws, a, e, q, hd, o, res, sv, b⟩ := s
  obtain ⟨h1, h2, h3, h4, h5⟩ := h
  dsimp only at h1 h2 h3 h4 h5
  subst h1 h2 h3 h4
  rcases h5 with ⟨rfl, rfl⟩ | ⟨rfl, rfl⟩
  · refine ⟨⟨?_, ?_, ?_, ?_, .inl ⟨?_, ?_⟩⟩, ?_⟩ <;> simp [run, late, step, begin]
  · refine ⟨⟨?_, ?_, ?_, ?_, .inr ⟨?_, ?_⟩⟩, ?_⟩ <;> simp [run, late, step, begin]

theorem late_all (s : St) (p : Nat) (is : List Nat) (h : Lag s p) :
    (run s (is.flatMap late)).results = s.results ++ is.zip (p :: is) := by
  induction is generalizing s p with
  | nil => simp [run]
  | cons i is ih =>
    obtain ⟨h1, h2⟩ := late_lag s p i h
    rw [List.flatMap_cons, run_append, ih _ i h1, h2]
    simp

theorem cancel_lag (s : St) (a : Nat) (h : Inv s) (ha : s.active = some a) (hw : s.waiting = []) :
    Lag (step s .cancelActive) a := by
  obtain ⟨_, h2⟩ := h.busy a ha
  exact ⟨h.fine, h.held, rfl, hw, h2⟩

/-- C71 in full fails: after the task awaiting a response has been cancelled in any state reached so
far, every later request returns the response to the request before it, for ever: each request made,
answered and returned in turn gets its predecessor's response. -/
theorem C71_cancelled_fails (ops : List Op) (hc : Calm start ops) (a : Nat) (is : List Nat)
    (ha : (run start ops).active = some a) (hw : (run start ops).waiting = []) :
    (run start (ops ++ .cancelActive :: is.flatMap late)).results =
      (run start ops).results ++ is.zip (a :: is) := by
  rw [run_append, run_cons, late_all _ a is (cancel_lag _ a (run_inv start ops start_inv hc) ha hw)]
  rfl

/-- C71 in full fails: when the response to the request after a cancelled one arrives before yet
another request is made, nobody expects it; it is parsed as a request and processing ends. -/
theorem C71_unexpected_fails (ops : List Op) (hc : Calm start ops) (a b : Nat)
    (ha : (run start ops).active = some a) (hw : (run start ops).waiting = [])
    (ho : (run start ops).outstanding = [a]) :
    (run start (ops ++ [.cancelActive, .request b, .response, .take, .response])).broken = true := by
  have h := run_inv start ops start_inv hc
  rw [run_append]
  generalize run start ops = s at *
  obtain ⟨h1, h2 | h2⟩ := h.busy a ha
  · have f := h.fine
    have hd := h.held
    obtain ⟨ws, ac, e, q, hd', o, res, sv, b'⟩ := s
    dsimp only at *
    subst hw ha ho f hd h1
    simp [run, step, begin, h2.2]
  · rw [ho] at h2
    cases h2.1

/-- C71 in full fails: a peer's own request arriving while a response is awaited is parsed as a
response and ends processing, so the awaiting task never returns. -/
theorem C71_peer_fails (ops : List Op) (hc : Calm start ops) (a : Nat) (more : List Op)
    (ha : (run start ops).active = some a) (hq : (run start ops).queue = none)
    (hm : .cancelActive ∉ more) :
    (run start (ops ++ .peer :: more)).broken = true ∧ (run start (ops ++ .peer :: more)).active = some a := by
  have h := run_inv start ops start_inv hc
  rw [run_append]
  generalize run start ops = s at *
  have e0 : (step s .peer).broken = true ∧ (step s .peer).active = some a ∧ (step s .peer).queue = none ∧
      (step s .peer).held = none := by
    have h1 : step s .peer = { s with broken := true } := by
      unfold step
      dsimp only
      rw [if_neg (by simp [h.fine, h.held]), if_pos (h.busy a ha).1]
    rw [h1]
    exact ⟨rfl, ha, hq, h.held⟩
  rw [run_cons]
  generalize step s .peer = s' at e0
  have key : ∀ (more : List Op) (s' : St), .cancelActive ∉ more → s'.broken = true ∧ s'.active = some a ∧
      s'.queue = none ∧ s'.held = none → (run s' more).broken = true ∧ (run s' more).active = some a := by
    intro more
    induction more with
    | nil => intro s' _ e; exact ⟨e.1, e.2.1⟩
    | cons o more ih =>
      intro s' hm e
      rw [run_cons]
      refine ih _ (fun hmem => hm (List.mem_cons_of_mem _ hmem)) ?_
      obtain ⟨e1, e2, e3, e4⟩ := e
      cases o with
      | cancelActive => exact absurd List.mem_cons_self hm
      | _ => simp [step, e1, e2, e3, e4]
  exact key more s' hm e0

/-! ### Why arrivals of the wrong kind raise -/

/-- Every response, parsed as a request, is refused. -/
theorem C71_response_unparsed (r : Response) (ls : List (List Char)) :
    ∃ e, Request.parse (r.line :: ls) = .error e := by
  have h1 : ' ' ∉ r.version.text := fun hm => (version_chars hm).1 rfl
  unfold Request.parse Response.line
  dsimp only
  rw [splitOn_append ' ' _ _ h1]
  cases hs : splitOn ' ' (showInt r.status ++ if r.reason = [] then [] else ' ' :: r.reason) with
  | nil => exact ⟨_, rfl⟩
  | cons x xs =>
    cases xs with
    | nil => exact ⟨_, rfl⟩
    | cons y ys =>
      cases ys with
      | cons z zs => exact ⟨_, rfl⟩
      | nil =>
        have hno : Method.ofName r.version.text = .error .key := by
          have hslash : '/' ∈ r.version.text := by simp [Version.text]
          have hm : ∀ m : Method, m.name ≠ r.version.text := by
            intro m e
            have : '/' ∉ m.name := by cases m <;> decide
            exact this (by rw [e]; exact hslash)
          unfold Method.ofName
          rw [List.find?_eq_none.mpr (by intro m _; simpa using hm m)]
        exact ⟨.key, by simp [hno, bind, Except.bind]⟩

/-- Every request, parsed as a response, is refused. -/
theorem C71_request_unparsed (known : Int → Bool) (r : Request) (ls : List (List Char)) :
    ∃ e, Response.parse known (r.line :: ls) = .error e := by
  have h1 : ' ' ∉ r.method.name := fun hm => (method_chars hm).1 rfl
  have h2 : '/' ∉ r.method.name := by cases r.method <;> decide
  have hv : Version.parse r.method.name = .error .value := by
    unfold Version.parse
    rw [splitOn_none '/' _ h2]
  unfold Response.parse Request.line
  dsimp only
  rw [cut_append ' ' _ _ h1]
  exact ⟨.value, by simp [hv, bind, Except.bind]⟩

/-- Cases: three concurrent requests, one of them cancelled while waiting, and a request of the peer in
between; then a cancelled active request. -/
theorem C71_cases :
    let ops := [.peer, .request 1, .request 2, .request 3, .cancelWaiting 2, .response, .take, .peer, .acquire]
    Calm start ops ∧ (run start ops).active = some 3 ∧ (run start ops).results = [(1, 1)] ∧
    (run start ops).outstanding = [3] ∧ (run start ops).served = 2 ∧
    (run start (ops ++ [.cancelActive] ++ [4, 5].flatMap late)).results = [(1, 1), (4, 3), (5, 4)] := by
  refine ⟨?_, by decide, by decide, by decide, by decide, by decide⟩
  simp [Calm, start, step, begin]

end Verif.Http.Client
