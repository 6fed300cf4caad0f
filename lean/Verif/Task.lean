import Verif.Base

/-!
# Tasks (C53, C54)

`PeriodicTask` of `task/basic/periodic.py` 131-221 and `AsyncTask` of
`task/asynchronous.py` 119-180. Simplifications: time, metrics and logging are
left out; each iteration of a loop meets arbitrary surroundings: what the
dispatch does, what others do during it and during the sleep, and whether the
stop signal is set when it is looked at.
-/

namespace Verif.Task

/-- What a dispatch does. -/
inductive Outcome where
  | ret (b : Bool)
  /-- it raises, which ends `run` -/
  | raises
  /-- the task is cancelled while it waits for the dispatch, which ends `run` -/
  | cancelled

/-- The surroundings of one iteration of `PeriodicTask.run`. -/
structure Iter where
  /-- the `paused` channel -/
  paused : Bool
  outcome : Outcome
  /-- `disable()` is called while the dispatch is awaited -/
  disabledDuring : Bool
  /-- the stop signal is set at line 174 -/
  stop : Bool
  /-- `disable()` is called during the sleep -/
  disabledSleep : Bool
  /-- the task is cancelled during the sleep (183-185) -/
  cancelledSleep : Bool

/-- A periodic task: `_enabled`, whether `run` is in its loop, and the number of
dispatches so far. -/
structure PT where
  enabled : Bool
  running : Bool
  dispatches : Nat
deriving DecidableEq

/-- `disable` (`periodic.py` 131-137). -/
def PT.disable (s : PT) : PT := ⟨false, s.running, s.dispatches⟩

/-- The start of `run` (`periodic.py` 147-148). -/
def PT.start (s : PT) : Except PyErr PT :=
  if s.enabled then .error .assertion else .ok ⟨true, true, s.dispatches⟩

/-- The dispatch (`periodic.py` 160-169): a call of `disable` in the meantime
clears the flag, the result is then assigned to it. -/
def PT.dispatch (s : PT) (it : Iter) : PT :=
  if it.paused then s
  else
    let during : PT := ⟨if it.disabledDuring then false else s.enabled, s.running,
      s.dispatches + 1⟩
    match it.outcome with
    | .ret b => ⟨b, during.running, during.dispatches⟩
    | .raises => ⟨during.enabled, false, during.dispatches⟩
    | .cancelled => ⟨during.enabled, false, during.dispatches⟩

/-- The rest of the iteration (`periodic.py` 171-185); `sig` tells whether a
stop signal was supplied. -/
def PT.finish (sig : Bool) (s : PT) (it : Iter) : PT :=
  let e := if sig then !it.stop else s.enabled
  ⟨e && !(it.disabledSleep || it.cancelledSleep), s.running, s.dispatches⟩

/-- One turn of the loop (`periodic.py` 158-185). -/
def PT.step (sig : Bool) (s : PT) (it : Iter) : PT :=
  if !s.running then s
  else if !s.enabled then ⟨s.enabled, false, s.dispatches⟩
  else
    let d := s.dispatch it
    if d.running then d.finish sig it else d

/-- The loop through a list of iterations. -/
def PT.run (sig : Bool) (s : PT) (its : List Iter) : PT := its.foldl (PT.step sig) s

theorem PT.halted (sig : Bool) (its : List Iter) (s : PT)
    (h : s.enabled = false ∨ s.running = false) :
    (s.run sig its).dispatches = s.dispatches := by
  induction its generalizing s with
  | nil => rfl
  | cons it its ih =>
    show ((s.step sig it).run sig its).dispatches = _
    unfold PT.step
    by_cases hr : s.running = true
    · have he : s.enabled = false := by
        rcases h with h | h
        · exact h
        · rw [hr] at h; cases h
      simp only [hr, he, Bool.not_true, Bool.not_false, Bool.false_eq_true, if_false, if_true]
      exact ih _ (Or.inl rfl)
    · have hr : s.running = false := by simpa using hr
      simp only [hr, Bool.not_false, if_true]
      exact ih _ (Or.inr hr)

/-- An iteration dispatches at most once. -/
theorem step_dispatches (sig : Bool) (s : PT) (it : Iter) :
    (s.step sig it).dispatches ≤ s.dispatches + 1 := by
  unfold PT.step
  split
  · exact Nat.le_succ _
  · split
    · exact Nat.le_succ _
    · have hd : (s.dispatch it).dispatches ≤ s.dispatches + 1 := by
        unfold PT.dispatch
        split
        · exact Nat.le_succ _
        · dsimp only
          split <;> exact Nat.le_refl _
      dsimp only
      split
      · exact hd
      · exact hd

/-- An iteration that ends with the flag cleared, or the loop left, is the
last one that dispatches. -/
theorem step_last (sig : Bool) (s : PT) (it : Iter) (rest : List Iter)
    (h : (s.step sig it).enabled = false ∨ (s.step sig it).running = false) :
    (s.run sig (it :: rest)).dispatches ≤ s.dispatches + 1 := by
  show ((s.step sig it).run sig rest).dispatches ≤ _
  rw [PT.halted sig rest _ h]
  exact step_dispatches sig s it

/-- C53: when a stop signal was supplied, the iteration that finds it set is
the last: at most one further dispatch, whatever comes afterwards. -/
theorem C53_signal (s : PT) (it : Iter) (rest : List Iter) (h : it.stop = true) :
    (s.run true (it :: rest)).dispatches ≤ s.dispatches + 1 := by
  apply step_last
  unfold PT.step
  split
  · rename_i hr; right; simpa using hr
  · split
    · exact Or.inr rfl
    · dsimp only
      split
      · left; simp [PT.finish, h]
      · rename_i hr; right; simpa using hr

/-- C53: with or without a stop signal, a call of `disable` or a cancellation
during the sleep ends the task: no further dispatch after the iteration. -/
theorem C53_asleep (sig : Bool) (s : PT) (it : Iter) (rest : List Iter)
    (h : it.disabledSleep = true ∨ it.cancelledSleep = true) :
    (s.run sig (it :: rest)).dispatches ≤ s.dispatches + 1 := by
  apply step_last
  unfold PT.step
  split
  · rename_i hr; right; simpa using hr
  · split
    · exact Or.inr rfl
    · dsimp only
      split
      · left
        rcases h with h | h <;> simp [PT.finish, h]
      · rename_i hr; right; simpa using hr

/-- C53: a dispatch that raises or is cancelled ends the task. -/
theorem C53_raised (sig : Bool) (s : PT) (it : Iter) (rest : List Iter)
    (hp : it.paused = false) (h : ∀ b, it.outcome ≠ .ret b) :
    (s.run sig (it :: rest)).dispatches ≤ s.dispatches + 1 := by
  apply step_last
  unfold PT.step
  split
  · rename_i hr; right; simpa using hr
  · split
    · exact Or.inr rfl
    · have hd : (s.dispatch it).running = false := by
        unfold PT.dispatch
        simp only [hp, Bool.false_eq_true, if_false]
        split
        · rename_i b hb; exact absurd hb (h b)
        · rfl
        · rfl
      dsimp only
      rw [hd]
      exact Or.inr hd

/-- C53: without a stop signal, a dispatch that returns `False` is the last. -/
theorem C53_false_partial (s : PT) (it : Iter) (rest : List Iter)
    (hp : it.paused = false) (h : it.outcome = .ret false) :
    (s.run false (it :: rest)).dispatches ≤ s.dispatches + 1 := by
  apply step_last
  unfold PT.step
  split
  · rename_i hr; right; simpa using hr
  · split
    · exact Or.inr rfl
    · have hd : (s.dispatch it).enabled = false := by
        unfold PT.dispatch
        simp [hp, h]
      dsimp only
      split
      · left; simp [PT.finish, hd]
      · rename_i hr; right; simpa using hr

/-- C53: a paused task does not dispatch. -/
theorem C53_paused (sig : Bool) (s : PT) (its : List Iter) (hp : ∀ it ∈ its, it.paused = true) :
    (s.run sig its).dispatches = s.dispatches := by
  induction its generalizing s with
  | nil => rfl
  | cons it its ih =>
    show ((s.step sig it).run sig its).dispatches = _
    rw [ih _ (fun x hx => hp x (List.mem_cons_of_mem _ hx))]
    unfold PT.step
    split
    · rfl
    · split
      · rfl
      · have hd : s.dispatch it = s := by
          unfold PT.dispatch; rw [if_pos (hp it List.mem_cons_self)]
        dsimp only
        rw [hd]
        split <;> rfl

/-- An iteration nothing interferes with except during the dispatch. -/
def quiet (it : Iter) : Prop :=
  it.paused = false ∧ it.stop = false ∧ it.disabledSleep = false ∧ it.cancelledSleep = false

/-- C53 is false of the code when a stop signal is supplied: as long as the
signal is not set, the task goes on dispatching whatever the dispatches return
and whether or not `disable` is called during them. -/
theorem C53_false_fails (its : List Iter) (n : Nat)
    (hq : ∀ it ∈ its, quiet it ∧ ∃ b, it.outcome = .ret b) :
    (PT.run true ⟨true, true, n⟩ its) = ⟨true, true, n + its.length⟩ := by
  induction its generalizing n with
  | nil => rfl
  | cons it its ih =>
    obtain ⟨⟨hp, hs, hd, hc⟩, b, hb⟩ := hq it List.mem_cons_self
    show PT.run true (PT.step true ⟨true, true, n⟩ it) its = _
    have : PT.step true ⟨true, true, n⟩ it = ⟨true, true, n + 1⟩ := by
      simp [PT.step, PT.dispatch, PT.finish, hp, hs, hd, hc, hb]
    rw [this, ih (n + 1) (fun x hx => hq x (List.mem_cons_of_mem _ hx)), List.length_cons]
    congr 1
    omega

/-- C53 is false of the code without a stop signal too: a call of `disable`
while the dispatch is awaited is overwritten by the result. -/
theorem C53_disable_fails (its : List Iter) (n : Nat)
    (hq : ∀ it ∈ its, quiet it ∧ it.disabledDuring = true ∧ it.outcome = .ret true) :
    (PT.run false ⟨true, true, n⟩ its) = ⟨true, true, n + its.length⟩ := by
  induction its generalizing n with
  | nil => rfl
  | cons it its ih =>
    obtain ⟨⟨hp, hs, hd, hc⟩, _, hb⟩ := hq it List.mem_cons_self
    show PT.run false (PT.step false ⟨true, true, n⟩ it) its = _
    have : PT.step false ⟨true, true, n⟩ it = ⟨true, true, n + 1⟩ := by
      simp [PT.step, PT.dispatch, PT.finish, hp, hd, hc, hb]
    rw [this, ih (n + 1) (fun x hx => hq x (List.mem_cons_of_mem _ hx)), List.length_cons]
    congr 1
    omega

/-- `stop` (`periodic.py` 192-210) and the start of the new run in `task`
(212-221). A running task is disabled and cancelled, wherever the cancellation
meets it; when the old task is done, `stop` does not touch the flag. -/
def PT.restart (s : PT) : Except PyErr PT :=
  if s.running then PT.start ⟨s.disable.enabled, false, s.dispatches⟩ else s.start

/-- C53: a running task can be started again through `task`, whatever its
state. -/
theorem C53_restart (s : PT) (h : s.running = true) :
    s.restart = .ok ⟨true, true, s.dispatches⟩ := by
  simp [PT.restart, h, PT.start, PT.disable]

/-- C53: after a dispatch that raised, the flag is still set: every later
attempt to start the task is refused by its assertion, through `run` and
through `task`. -/
theorem C53_rerun_fails (sig : Bool) (it : Iter) (rest : List Iter) (n : Nat)
    (hp : it.paused = false) (h : it.outcome = .raises) (hd : it.disabledDuring = false) :
    (PT.run sig ⟨true, true, n⟩ (it :: rest)).start = .error .assertion ∧
    (PT.run sig ⟨true, true, n⟩ (it :: rest)).restart = .error .assertion := by
  have h1 : PT.step sig ⟨true, true, n⟩ it = ⟨true, false, n + 1⟩ := by
    simp [PT.step, PT.dispatch, hp, h, hd]
  have h2 : ∀ rest : List Iter, PT.run sig ⟨true, false, n + 1⟩ rest = ⟨true, false, n + 1⟩ := by
    intro rest
    induction rest with
    | nil => rfl
    | cons x xs ih =>
      show PT.run sig (PT.step sig ⟨true, false, n + 1⟩ x) xs = _
      have : PT.step sig ⟨true, false, n + 1⟩ x = ⟨true, false, n + 1⟩ := by simp [PT.step]
      rw [this]; exact ih
  show (PT.run sig (PT.step sig ⟨true, true, n⟩ it) rest).start = _ ∧
    (PT.run sig (PT.step sig ⟨true, true, n⟩ it) rest).restart = _
  rw [h1, h2]
  exact ⟨rfl, rfl⟩

/-- C53, the part of it that holds: when the task was disabled while the dispatch that raises or is cancelled went on,
it can be started again, through `run` and through `task`. -/
theorem C53_rerun_partial (sig : Bool) (it : Iter) (rest : List Iter) (n : Nat)
    (hp : it.paused = false) (h : ∀ b, it.outcome ≠ .ret b) (hd : it.disabledDuring = true) :
    (PT.run sig ⟨true, true, n⟩ (it :: rest)).start = .ok ⟨true, true, n + 1⟩ ∧
    (PT.run sig ⟨true, true, n⟩ (it :: rest)).restart = .ok ⟨true, true, n + 1⟩ := by
  have h1 : PT.step sig ⟨true, true, n⟩ it = ⟨false, false, n + 1⟩ := by
    cases ho : it.outcome with
    | ret b => exact absurd ho (h b)
    | raises => simp [PT.step, PT.dispatch, hp, ho, hd]
    | cancelled => simp [PT.step, PT.dispatch, hp, ho, hd]
  have h2 : ∀ rest : List Iter, PT.run sig ⟨false, false, n + 1⟩ rest = ⟨false, false, n + 1⟩ := by
    intro rest
    induction rest with
    | nil => rfl
    | cons x xs ih =>
      show PT.run sig (PT.step sig ⟨false, false, n + 1⟩ x) xs = _
      have : PT.step sig ⟨false, false, n + 1⟩ x = ⟨false, false, n + 1⟩ := by simp [PT.step]
      rw [this]; exact ih
  show (PT.run sig (PT.step sig ⟨true, true, n⟩ it) rest).start = _ ∧
    (PT.run sig (PT.step sig ⟨true, true, n⟩ it) rest).restart = _
  rw [h1, h2]
  exact ⟨rfl, rfl⟩

/-- Three dispatches, the second of which returns `False`: two without a stop
signal, three with one. -/
def sampleIters : List Iter :=
  [⟨false, .ret true, false, false, false, false⟩, ⟨false, .ret false, false, false, false, false⟩,
   ⟨false, .ret true, false, false, false, false⟩]

example : (PT.run false ⟨true, true, 0⟩ sampleIters).dispatches = 2 ∧
    (PT.run true ⟨true, true, 0⟩ sampleIters).dispatches = 3 := by decide +kernel

/-! ## Asynchronous tasks -/

/-- The surroundings of one iteration of `AsyncTask.run`. -/
structure AIter where
  outcome : Outcome
  /-- `disable()` is called while the dispatch is awaited -/
  disabledDuring : Bool
  /-- the `max_iterations` channel, an unsigned 32-bit integer (51-54), when it
  is compared -/
  limit : Nat
  /-- the stop signal is supplied and set at line 167 -/
  stop : Bool
  /-- the value of the commandable `enabled` channel after the sleep -/
  slept : Bool

/-- An asynchronous task: `enabled`, whether the loop runs, the eight-bit
`dispatches` channel (58), and the true number of dispatches. -/
structure AT where
  enabled : Bool
  running : Bool
  count : Nat
  total : Nat
deriving DecidableEq

/-- The start of `run` (`asynchronous.py` 136-144): `ok` is what `init`
returns. -/
def AT.start (ok : Bool) : AT := ⟨true && ok, true, 0, 0⟩

/-- One turn of the loop (`asynchronous.py` 146-177). The old value of
`enabled` in line 151 is read before the dispatch is awaited. -/
def AT.step (s : AT) (it : AIter) : AT :=
  if !s.running then s
  else if !s.enabled then ⟨s.enabled, false, s.count, s.total⟩
  else
    match it.outcome with
    | .ret b =>
      let e := s.enabled && b
      let n := (s.count + 1) % 256
      let e := if (it.limit > 0 && n ≥ it.limit) || it.stop then false else e
      ⟨e && it.slept, true, n, s.total + 1⟩
    | _ => ⟨!it.disabledDuring, false, s.count, s.total + 1⟩

def AT.run (s : AT) (its : List AIter) : AT := its.foldl AT.step s

theorem AT.step_off (s : AT) (it : AIter) (h : s.enabled = false ∨ s.running = false) :
    (s.step it).total = s.total ∧ ((s.step it).enabled = false ∨ (s.step it).running = false) := by
  unfold AT.step
  by_cases hr : s.running = true
  · have he : s.enabled = false := by
      rcases h with h | h
      · exact h
      · rw [hr] at h; cases h
    simp [hr, he]
  · have hr : s.running = false := by simpa using hr
    simp [hr]

/-- C54: when `init` fails nothing is ever dispatched. -/
theorem C54_init (its : List AIter) : ((AT.start false).run its).total = 0 := by
  have key : ∀ (its : List AIter) (s : AT), (s.enabled = false ∨ s.running = false) → (s.run its).total = s.total := by
    intro its
    induction its with
    | nil => intro s _; rfl
    | cons it its ih =>
      intro s h
      show ((s.step it).run its).total = _
      rw [ih _ (AT.step_off s it h).2, (AT.step_off s it h).1]
  exact key its _ (.inl rfl)

/-- C54: for limits of at most 255 the task is dispatched at most as many
times as the limit says, whatever the dispatches do. The limit may change
while the task runs: the largest value it takes counts. -/
theorem C54_limit_partial (L : Nat) (hL : L ≤ 255) (ok : Bool) (its : List AIter)
    (hl : ∀ it ∈ its, 1 ≤ it.limit ∧ it.limit ≤ L) :
    ((AT.start ok).run its).total ≤ L := by
  have key : ∀ (its : List AIter) (s : AT), (∀ it ∈ its, 1 ≤ it.limit ∧ it.limit ≤ L) →
      s.total ≤ L → ((s.enabled = false ∨ s.running = false) ∨ (s.count = s.total ∧ s.total < L)) →
      (s.run its).total ≤ L := by
    intro its
    induction its with
    | nil => intro s _ h _; exact h
    | cons it its ih =>
      intro s hl ht h
      have hl' := fun x hx => hl x (List.mem_cons_of_mem _ hx)
      obtain ⟨hl1, hl2⟩ := hl it List.mem_cons_self
      show ((s.step it).run its).total ≤ L
      rcases h with h | ⟨hc, hlt⟩
      · obtain ⟨h1, h2⟩ := AT.step_off s it h
        exact ih _ hl' (by omega) (Or.inl h2)
      · by_cases hoff : s.enabled = false ∨ s.running = false
        · obtain ⟨h1, h2⟩ := AT.step_off s it hoff
          exact ih _ hl' (by omega) (Or.inl h2)
        · simp only [not_or, Bool.not_eq_false] at hoff
          have hmod : (s.count + 1) % 256 = s.total + 1 := by
            rw [hc]; exact Nat.mod_eq_of_lt (by omega)
          cases hout : it.outcome with
          | ret b =>
            have hstep : s.step it =
                ⟨(if (it.limit > 0 && decide ((s.count + 1) % 256 ≥ it.limit)) || it.stop
                    then false else (s.enabled && b)) && it.slept,
                  true, (s.count + 1) % 256, s.total + 1⟩ := by
              simp only [AT.step, hoff.1, hoff.2, hout, Bool.not_true, Bool.false_eq_true,
                if_false]
            rw [hstep, hmod]
            by_cases hfull : s.total + 1 = L
            · apply ih _ hl'
              · show s.total + 1 ≤ L; omega
              · left; left
                have : (decide (it.limit > 0) && decide (s.total + 1 ≥ it.limit)) = true := by
                  simp only [Bool.and_eq_true, decide_eq_true_eq]; omega
                simp [this]
            · apply ih _ hl'
              · show s.total + 1 ≤ L; omega
              · right
                exact ⟨rfl, by show s.total + 1 < L; omega⟩
          | raises =>
            have hstep : s.step it = ⟨!it.disabledDuring, false, s.count, s.total + 1⟩ := by
              simp [AT.step, hoff.1, hoff.2, hout]
            rw [hstep]
            exact ih _ hl' (by show s.total + 1 ≤ L; omega) (Or.inl (Or.inr rfl))
          | cancelled =>
            have hstep : s.step it = ⟨!it.disabledDuring, false, s.count, s.total + 1⟩ := by
              simp [AT.step, hoff.1, hoff.2, hout]
            rw [hstep]
            exact ih _ hl' (by show s.total + 1 ≤ L; omega) (Or.inl (Or.inr rfl))
  by_cases h0 : L = 0
  · cases its with
    | nil => simp [AT.run, AT.start]
    | cons it its => have := hl it List.mem_cons_self; omega
  · exact key its (AT.start ok) hl (by simp [AT.start]) (Or.inr ⟨rfl, by simp [AT.start]; omega⟩)

/-- An iteration nothing interferes with. -/
def aquiet (it : AIter) : Prop :=
  it.outcome = .ret true ∧ it.stop = false ∧ it.slept = true

/-- C54: with a limit between 1 and 255, a task nothing else ends is
dispatched exactly as many times as the limit says. -/
theorem C54_exact (L : Nat) (h1 : 1 ≤ L) (hL : L ≤ 255) (its : List AIter)
    (hq : ∀ it ∈ its, aquiet it ∧ it.limit = L) (hlen : L ≤ its.length) :
    ((AT.start true).run its).total = L := by
  have key : ∀ (its : List AIter) (k : Nat), (∀ it ∈ its, aquiet it ∧ it.limit = L) →
      k < L → L - k ≤ its.length →
      (AT.run ⟨true, true, k, k⟩ its).total = L := by
    intro its
    induction its with
    | nil => intro k _ hk hl; simp at hl; omega
    | cons it its ih =>
      intro k hq hk hl
      obtain ⟨⟨ho, hs, hsl⟩, hlim⟩ := hq it List.mem_cons_self
      have hq' := fun x hx => hq x (List.mem_cons_of_mem _ hx)
      have hmod : (k + 1) % 256 = k + 1 := Nat.mod_eq_of_lt (by omega)
      show (AT.run (AT.step ⟨true, true, k, k⟩ it) its).total = L
      by_cases hlast : k + 1 = L
      · have hst : AT.step ⟨true, true, k, k⟩ it = ⟨false, true, k + 1, k + 1⟩ := by
          have : (0 < L) := by omega
          simp [AT.step, ho, hs, hsl, hlim, hlast]
          omega
        rw [hst]
        have : ∀ (its : List AIter) (s : AT), (s.enabled = false ∨ s.running = false) →
            (s.run its).total = s.total := by
          intro its
          induction its with
          | nil => intro s _; rfl
          | cons x xs ih2 =>
            intro s h
            obtain ⟨e1, e2⟩ := AT.step_off s x h
            show ((s.step x).run xs).total = _
            rw [ih2 _ e2, e1]
        rw [this its _ (Or.inl rfl)]
        exact hlast
      · have hst : AT.step ⟨true, true, k, k⟩ it = ⟨true, true, k + 1, k + 1⟩ := by
          simp [AT.step, ho, hs, hsl, hlim, hmod]
          omega
        rw [hst]
        exact ih (k + 1) hq' (by omega) (by simp at hl; omega)
  exact key its 0 hq (by omega) (by omega)

/-- C54 is false of the code for limits above 255: the eight-bit counter never
reaches the limit, and the task is dispatched as often as it is let. -/
theorem C54_limit_fails (L : Nat) (hL : 255 < L) (its : List AIter)
    (hq : ∀ it ∈ its, aquiet it ∧ it.limit = L) :
    ((AT.start true).run its).total = its.length ∧
    ((AT.start true).run its).enabled = true := by
  have key : ∀ (its : List AIter) (s : AT), (∀ it ∈ its, aquiet it ∧ it.limit = L) →
      s.enabled = true → s.running = true →
      (s.run its).total = s.total + its.length ∧ (s.run its).enabled = true := by
    intro its
    induction its with
    | nil => intro s _ he _; exact ⟨rfl, he⟩
    | cons it its ih =>
      intro s hq he hr
      obtain ⟨⟨ho, hs, hsl⟩, hlim⟩ := hq it List.mem_cons_self
      have hq' := fun x hx => hq x (List.mem_cons_of_mem _ hx)
      have hlt : (s.count + 1) % 256 < L := by
        have := Nat.mod_lt (s.count + 1) (show 0 < 256 by omega); omega
      have hst : s.step it = ⟨true, true, (s.count + 1) % 256, s.total + 1⟩ := by
        simp [AT.step, he, hr, ho, hs, hsl, hlim]
        omega
      show ((s.step it).run its).total = _ ∧ ((s.step it).run its).enabled = true
      rw [hst]
      obtain ⟨h1, h2⟩ := ih ⟨true, true, (s.count + 1) % 256, s.total + 1⟩ hq' rfl rfl
      exact ⟨by rw [h1, List.length_cons]; dsimp only; omega, h2⟩
  obtain ⟨h1, h2⟩ := key its (AT.start true) hq rfl rfl
  exact ⟨by rw [h1]; simp [AT.start], h2⟩

/-- C54: a call of `disable` while the dispatch is awaited is lost as well,
because the old value of the flag was read before. -/
theorem C54_disable_fails (s : AT) (it : AIter) (hr : s.running = true) (he : s.enabled = true)
    (_hd : it.disabledDuring = true) (ho : aquiet it) (hl : it.limit = 0) :
    (s.step it).enabled = true ∧ (s.step it).running = true := by
  obtain ⟨ho, hs, hsl⟩ := ho
  simp [AT.step, he, hr, ho, hs, hsl, hl]

example : ((AT.start true).run
    (List.replicate 10 ⟨.ret true, false, 3, false, true⟩)).total = 3 := by decide +kernel

example : ((AT.start true).run
    (List.replicate 1000 ⟨.ret true, false, 300, false, true⟩)).total = 1000 :=
  (C54_limit_fails 300 (by omega) _ (fun it h => by
    rw [List.eq_of_mem_replicate h]; exact ⟨⟨rfl, rfl, rfl⟩, rfl⟩)).1.trans List.length_replicate

end Verif.Task
