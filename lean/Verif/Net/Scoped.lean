import Verif.Base
/-!
C135: a connection used in a context: `net/connection.py` 258–267 (`process_then_disable`), with `process` (269–317) and
`_handle_restart` (236–256) as far as the context sees them; `tftp` (`net/udp/tftp/__init__.py` 228–232) uses it.

The task of `process` is run by the event loop in turns. A turn of a task that waits for its back-off is the end of the
wait, with what `restart` does: it reports success or failure or raises (websocket connections do not define it:
`NotImplementedError`, connection.py 223–228). A connection that is processed has its tasks (C48, C52); when it has been
disabled, these end and `process` ends. No stop signal is given; delays are C51.
-/
namespace Verif.Scoped
open Verif

inductive Proc
  | created
  | backoff (attempt : Nat)
  | running
  | ended
  | raised
deriving DecidableEq, Repr

/-- The connection, the task, whether the body of the context is still run, whether the context has been left, and how many
times the connection was restarted. -/
structure St where
  enabled : Bool
  proc : Proc
  body : Bool
  left : Bool
  restarts : Nat
deriving DecidableEq, Repr

inductive Restart
  | ok
  | failed
  | raises
deriving DecidableEq, Repr

inductive Ev
  /-- The task of `process` is run. -/
  | turn (r : Restart)
  /-- Somebody else disables the connection: the peer, an error, `disable_in`. -/
  | lost
  /-- The body ends, with or without an exception: the `finally` of 265–266. -/
  | leave
  /-- The context is resumed after `await task`, 267. -/
  | join
deriving DecidableEq, Repr

/-- Entering the context for a connection that has been made: 262. -/
def St.init : St := ⟨true, .created, true, false, 0⟩

/-- The loop condition of `_handle_restart`, 246–250, for a disabled connection after `attempt` tries, and 280–281. -/
def St.again (s : St) (tries attempt : Nat) : St :=
  if attempt < tries then { s with proc := .backoff attempt } else { s with proc := .ended }

def St.step (tries : Nat) (s : St) : Ev → St
  | .turn r =>
    match s.proc with
    | .created => if s.enabled then { s with proc := .running } else s.again tries 0
    | .backoff k =>
      match r with
      | .ok => { s with enabled := true, proc := .running, restarts := s.restarts + 1 }
      | .failed => s.again tries (k + 1)
      | .raises => { s with proc := .raised }
    | .running => if s.enabled then s else { s with proc := .ended }
    | .ended => s
    | .raised => s
  | .lost => { s with enabled := false }
  | .leave => if s.body then { s with body := false, enabled := false } else s
  | .join => if !s.body && (s.proc = .ended || s.proc = .raised) then { s with left := true } else s

def St.run (tries : Nat) (s : St) (es : List Ev) : St := es.foldl (St.step tries) s

/-! ### Claims -/

theorem run_cons (tries : Nat) (s : St) (e : Ev) (es : List Ev) : s.run tries (e :: es) = (s.step tries e).run tries es := rfl

theorem run_append (tries : Nat) (s : St) (es fs : List Ev) : s.run tries (es ++ fs) = (s.run tries es).run tries fs := by
  simp [St.run]

/-- The context is over or will be: the connection is disabled and nothing enables it. -/
structure Over (n : Nat) (s : St) : Prop where
  body : s.body = false
  enabled : s.enabled = false
  proc : s.proc = .running ∨ s.proc = .ended
  restarts : s.restarts = n

theorem over_step (tries n : Nat) (s : St) (h : Over n s) (e : Ev) : Over n (s.step tries e) := by
  obtain ⟨h1, h2, h3, h4⟩ := h
  obtain ⟨en, p, b, l, rs⟩ := s
  simp only at h1 h2 h3 h4
  subst h1 h2 h4
  cases e with
  | turn r => rcases h3 with rfl | rfl <;> exact ⟨rfl, rfl, by simp [St.step], rfl⟩
  | lost => exact ⟨rfl, rfl, h3, rfl⟩
  | leave => exact ⟨rfl, rfl, h3, rfl⟩
  | join => rcases h3 with rfl | rfl <;> exact ⟨by simp [St.step], by simp [St.step], by simp [St.step], by simp [St.step]⟩

theorem over_run (tries n : Nat) (s : St) (h : Over n s) (es : List Ev) : Over n (s.run tries es) := by
  induction es generalizing s with
  | nil => exact h
  | cons e es ih => exact ih _ (over_step tries n s h e)

theorem ended_step (tries : Nat) (s : St) (h : s.proc = .ended) (e : Ev) : (s.step tries e).proc = .ended := by
  cases e with
  | turn r => simp [St.step, h]
  | lost => exact h
  | leave => simp only [St.step]; split <;> exact h
  | join => simp only [St.step]; split <;> exact h

theorem ended_run (tries : Nat) (s : St) (h : s.proc = .ended) (es : List Ev) : (s.run tries es).proc = .ended := by
  induction es generalizing s with
  | nil => exact h
  | cons e es ih => exact ih _ (ended_step tries s h e)

theorem left_run (tries : Nat) (s : St) (h : s.left = true) (es : List Ev) : (s.run tries es).left = true := by
  induction es generalizing s with
  | nil => exact h
  | cons e es ih =>
    refine ih _ ?_
    cases e with
    | turn r => simp only [St.step, St.again]; repeat' split <;> first | exact h | skip
    | lost => exact h
    | leave => simp only [St.step]; split <;> exact h
    | join => simp only [St.step]; split <;> first | rfl | exact h

/-- C135, for a body that ends after `process` has begun with the connection (or has ended): from then on the connection is
disabled, it is not restarted, whatever happens in whatever order. -/
theorem C135_disabled_partial (tries : Nat) (s : St) (hb : s.body = true) (hp : s.proc = .running ∨ s.proc = .ended)
    (es : List Ev) :
    ((s.step tries .leave).run tries es).enabled = false ∧ ((s.step tries .leave).run tries es).restarts = s.restarts := by
  have h : Over s.restarts (s.step tries .leave) := by
    simp only [St.step, hb, if_true]
    exact ⟨rfl, rfl, hp, rfl⟩
  have := over_run tries _ _ h es
  exact ⟨this.enabled, this.restarts⟩

/-- C135, for the same: the context is left as soon as the task has had a turn and the context is resumed. -/
theorem C135_left_partial (tries : Nat) (s : St) (hb : s.body = true) (hp : s.proc = .running ∨ s.proc = .ended)
    (as bs cs : List Ev) (r : Restart) :
    ((s.step tries .leave).run tries (as ++ .turn r :: (bs ++ .join :: cs))).left = true := by
  have h : Over s.restarts (s.step tries .leave) := by
    simp only [St.step, hb, if_true]
    exact ⟨rfl, rfl, hp, rfl⟩
  rw [run_append, run_cons, run_append, run_cons]
  have h1 := over_run tries _ _ h as
  generalize (s.step tries .leave).run tries as = t at h1 ⊢
  have h2 : (t.step tries (.turn r)).proc = .ended := by
    rcases h1.proc with e | e
    · simp [St.step, e, h1.enabled]
    · simp [St.step, e]
  have h3 := over_step tries _ t h1 (.turn r)
  generalize t.step tries (.turn r) = u at h2 h3 ⊢
  have h4 := ended_run tries u h2 bs
  have h5 := over_run tries _ u h3 bs
  generalize u.run tries bs = w at h4 h5 ⊢
  refine left_run tries _ ?_ cs
  simp [St.step, h4, h5.body]

/-- A body that waits long enough for the task to have its first turn, while nobody disables the connection, meets the
hypotheses: `process` has the connection or, if it is lost later, has ended or is about to. -/
theorem C135_begun (tries : Nat) (r : Restart) (es : List Ev) (hl : Ev.leave ∉ es) :
    ((St.init.step tries (.turn r)).run tries es).body = true ∧
    (((St.init.step tries (.turn r)).run tries es).proc = .running ∨ ((St.init.step tries (.turn r)).run tries es).proc = .ended) := by
  have key : ∀ (es : List Ev) (s : St), Ev.leave ∉ es → s.body = true → (s.proc = .running ∨ s.proc = .ended) →
      (s.run tries es).body = true ∧ ((s.run tries es).proc = .running ∨ (s.run tries es).proc = .ended) := by
    intro es
    induction es with
    | nil => exact fun s _ hb hp => ⟨hb, hp⟩
    | cons e es ih =>
      intro s hl hb hp
      have hs : (s.step tries e).body = true ∧ ((s.step tries e).proc = .running ∨ (s.step tries e).proc = .ended) := by
        cases e with
        | turn r =>
          rcases hp with hp | hp
          · simp only [St.step, hp]
            split
            · exact ⟨hb, .inl hp⟩
            · exact ⟨hb, .inr rfl⟩
          · simp only [St.step, hp]
            exact ⟨hb, .inr trivial⟩
        | lost => exact ⟨hb, hp⟩
        | leave => simp at hl
        | join => simp only [St.step, hb]; exact ⟨hb, hp⟩
      exact ih _ (fun h => hl (by simp [h])) hs.1 hs.2
  exact key es _ hl rfl (.inl rfl)

/-- C135, always: the context is left only after its body, when `process` has ended, and then for good; a connection is
enabled behind the body only by a restart. -/
theorem C135_order (tries : Nat) (es : List Ev) :
    ((St.init.run tries es).left = true →
      (St.init.run tries es).body = false ∧ ((St.init.run tries es).proc = .ended ∨ (St.init.run tries es).proc = .raised)) ∧
    ((St.init.run tries es).body = false → (St.init.run tries es).enabled = true → 0 < (St.init.run tries es).restarts) := by
  have key : ∀ (es : List Ev) (s : St),
      ((s.left = true → s.body = false ∧ (s.proc = .ended ∨ s.proc = .raised)) ∧
        (s.body = false → s.enabled = true → 0 < s.restarts)) →
      (((s.run tries es).left = true → (s.run tries es).body = false ∧ ((s.run tries es).proc = .ended ∨ (s.run tries es).proc = .raised)) ∧
        ((s.run tries es).body = false → (s.run tries es).enabled = true → 0 < (s.run tries es).restarts)) := by
    intro es
    induction es with
    | nil => exact fun s h => h
    | cons e es ih =>
      intro s h
      refine ih _ ?_
      obtain ⟨en, p, b, l, rs⟩ := s
      cases e with
      | turn r =>
        cases p with
        | created => cases en <;> simp_all [St.step, St.again] <;> split <;> simp_all
        | backoff k => cases r <;> simp_all [St.step, St.again] <;> split <;> simp_all
        | running => cases en <;> simp_all [St.step]
        | ended => simpa [St.step] using h
        | raised => simpa [St.step] using h
      | lost => simp_all [St.step]
      | leave => cases b <;> simp_all [St.step]
      | join => cases b <;> cases p <;> simp_all [St.step]
  exact key es St.init ⟨by simp [St.init], by simp [St.init]⟩

/-- The body is over and the connection is processed. -/
structure Stuck (s : St) : Prop where
  body : s.body = false
  enabled : s.enabled = true
  proc : s.proc = .running
  left : s.left = false

theorem stuck_run (tries : Nat) (s : St) (h : Stuck s) (es : List Ev) (hl : Ev.lost ∉ es) : Stuck (s.run tries es) := by
  induction es generalizing s with
  | nil => exact h
  | cons e es ih =>
    refine ih _ ?_ (fun h => hl (by simp [h]))
    obtain ⟨h1, h2, h3, h4⟩ := h
    cases e with
    | turn r => simp only [St.step, h3, h2, if_true]; exact ⟨h1, h2, h3, h4⟩
    | lost => simp at hl
    | leave => simp only [St.step, h1]; exact ⟨h1, h2, h3, h4⟩
    | join => simp only [St.step, h1, h3]; exact ⟨h1, h2, h3, h4⟩

/-- C135 fails for a body that ends without waiting (one that raises at once, for example): `process` takes the disabled
connection for one to be restarted. If that works, the connection is enabled after the body, nobody disables it any more,
and the context is never left unless the connection is lost. -/
theorem C135_early_fails (tries : Nat) (ht : 0 < tries) (r : Restart) (es : List Ev) (hl : Ev.lost ∉ es) :
    let s := St.init.run tries (.leave :: .turn r :: .turn .ok :: es)
    s.enabled = true ∧ s.proc = .running ∧ s.left = false := by
  intro s
  have h0 : St.init.run tries [.leave, .turn r, .turn .ok] = ⟨true, .running, false, false, 1⟩ := by
    simp [St.run, St.step, St.init, St.again, ht]
  have hs : s = (St.init.run tries [.leave, .turn r, .turn .ok]).run tries es := by
    rw [← run_append]; rfl
  have := stuck_run tries _ (h0 ▸ (⟨rfl, rfl, rfl, rfl⟩ : Stuck ⟨true, .running, false, false, 1⟩)) es hl
  rw [← hs] at this
  exact ⟨this.enabled, this.proc, this.left⟩

/-- C135 fails for a body that ends while the connection is being restarted: the same. -/
theorem C135_restarting_fails (tries : Nat) (s : St) (k : Nat) (hb : s.body = true) (hl : s.left = false)
    (hp : s.proc = .backoff k) (es : List Ev) (he : Ev.lost ∉ es) :
    let t := s.run tries (.leave :: .turn .ok :: es)
    t.enabled = true ∧ t.proc = .running ∧ t.left = false := by
  intro t
  have h0 : Stuck (s.run tries [.leave, .turn .ok]) := by
    obtain ⟨en, p, b, l, rs⟩ := s
    simp only at hb hp hl
    subst hb hp hl
    exact ⟨rfl, rfl, rfl, rfl⟩
  have ht : t = (s.run tries [.leave, .turn .ok]).run tries es := by rw [← run_append]; rfl
  have := stuck_run tries _ h0 es he
  rw [← ht] at this
  exact ⟨this.enabled, this.proc, this.left⟩

/-- C135 fails for a connection that cannot be restarted (`restart` raises): leaving the context raises that. -/
theorem C135_raises_fails (tries : Nat) (ht : 0 < tries) (r : Restart) :
    St.init.run tries [.leave, .turn r, .turn .raises, .join] = ⟨false, .raised, false, true, 0⟩ := by
  simp [St.run, St.step, St.init, St.again, ht]

theorem failing (tries : Nat) : ∀ (m k : Nat) (s : St), s.proc = .backoff k → k + m + 1 = tries →
    s.run tries (List.replicate (m + 1) (.turn .failed)) = { s with proc := .ended } := by
  intro m
  induction m with
  | zero =>
    intro k s hp hk
    have : ¬ k + 1 < tries := by omega
    simp [St.run, St.step, hp, St.again, this]
  | succ m ih =>
    intro k s hp hk
    have h : k + 1 < tries := by omega
    rw [List.replicate_succ, run_cons]
    have hs : s.step tries (.turn .failed) = { s with proc := .backoff (k + 1) } := by simp [St.step, hp, St.again, h]
    rw [hs, ih (k + 1) _ rfl (by omega)]

/-- C135: if restarting fails too, `process` gives up after exactly `tries` attempts, and the context can be left. -/
theorem C135_gives_up (tries : Nat) (r : Restart) :
    St.init.run tries (.leave :: .turn r :: (List.replicate tries (.turn .failed) ++ [.join])) = ⟨false, .ended, false, true, 0⟩ := by
  rw [run_cons, run_cons, run_append]
  have h : (St.init.step tries .leave).step tries (.turn r) = St.again ⟨false, .created, false, false, 0⟩ tries 0 := rfl
  rw [h]
  cases tries with
  | zero => rfl
  | succ n =>
    have h1 : St.again ⟨false, .created, false, false, 0⟩ (n + 1) 0 = ⟨false, .backoff 0, false, false, 0⟩ := by simp [St.again]
    rw [h1, failing (n + 1) n 0 _ rfl (by omega)]
    rfl

/-! ### Examples -/

theorem C135_cases :
    -- a body that waits: left, and not restarted
    St.init.run 20 [.turn .ok, .leave, .turn .ok, .join] = ⟨false, .ended, false, true, 0⟩ ∧
    -- lost during the body
    St.init.run 20 [.turn .ok, .lost, .turn .ok, .leave, .join] = ⟨false, .ended, false, true, 0⟩ ∧
    -- a body that does not wait: restarted, and not left
    St.init.run 20 [.leave, .turn .ok, .turn .ok, .turn .ok, .join] = ⟨true, .running, false, false, 1⟩ ∧
    -- lost before the first turn, left during the back-off
    St.init.run 20 [.lost, .turn .ok, .leave, .turn .ok, .join] = ⟨true, .running, false, false, 1⟩ := by
  decide

end Verif.Scoped
