import Batteries.Tactic.Init
import Verif.Base

/-!
C82: how an application starts (net/arbiter/base.py `_main` 248–286, `_init_connections` 206–219; the servers of
net/tcp/connection.py `app` 185–214; the initialisation of net/connection.py 212–221, 269–303).

The main coroutine waits until every server reported that it started, then until every connection was initialised,
and runs the application if no connection is disabled then. Servers, connections and the main coroutine take turns
in any order. Processes, deferred connections (made before the second wait) and what happens after the application
was entered are left out.
-/
namespace Verif.Arbiter.Startup
open Verif

inductive Srv where
  | starting | up | failed
  deriving DecidableEq, Repr

/-- A connection as far as starting is concerned. -/
structure Conn where
  enabled : Bool
  /-- the event `initialized` -/
  initialized : Bool
  /-- the task of `_async_init` is there and not done -/
  pending : Bool
  /-- the manager has created a first task for it -/
  started : Bool
  auto : Bool
  /-- the wait for `initialized` in `_init_connections` is over -/
  waited : Bool
  deriving DecidableEq, Repr

def Conn.new (auto : Bool) : Conn := ⟨true, false, false, false, auto, false⟩

inductive Phase where
  /-- waiting for servers, so many of which were seen -/
  | servers (seen : Nat)
  | conns
  /-- the application runs -/
  | entered
  /-- a connection was disabled: result −1 -/
  | refused
  deriving DecidableEq, Repr

structure St where
  nsrv : Nat
  srv : Nat → Srv
  sem : Nat
  nconn : Nat
  conn : Nat → Conn
  check : Bool
  phase : Phase
  stop : Bool

def St.init (nsrv nconn : Nat) (auto : Nat → Bool) (check : Bool) : St :=
  ⟨nsrv, fun _ => .starting, 0, nconn, fun i => .new (auto i), check, .servers 0, false⟩

inductive Ev where
  | serverUp (i : Nat)
  | serverFail (i : Nat)
  /-- the manager's task for a new connection runs; a disabled one is restarted first -/
  | process (i : Nat) (restarted : Bool)
  | initDone (i : Nat) (ok : Bool)
  | initRaise (i : Nat)
  | disable (i : Nat)
  /-- the manager restarts a disabled connection, if it is to be restarted -/
  | restart (i : Nat)
  | setStop
  | main
  deriving DecidableEq, Repr

def upd {α : Type} (f : Nat → α) (i : Nat) (x : α) : Nat → α := fun j => if j = i then x else f j

/-- `disable`, net/connection.py 190–204, with the cancellation of the initialisation. -/
def Conn.disable (c : Conn) : Conn :=
  if c.enabled then { c with enabled := false, initialized := false, pending := false } else c

/-- The start of `process`, 269–303: `_handle_restart`, then tasks. -/
def Conn.process (c : Conn) (restarted : Bool) : Conn :=
  if c.enabled || restarted then { c with enabled := true, pending := true, started := true }
  else { c with started := true }

/-- `_async_init`, 212–221. Setting the event ends a wait that has begun. -/
def Conn.initDone (c : Conn) (ok waiting : Bool) : Conn :=
  if c.pending then
    let d := if ok then c else c.disable
    { d with initialized := true, pending := false, waited := d.waited || waiting }
  else c

/-- The next thing the main coroutine does, net/arbiter/base.py 262–277 and 206–219, if what it waits for has
come. -/
def St.main (s : St) : St :=
  match s.phase with
  | .servers k =>
    if k = s.nsrv then
      { s with phase := .conns, conn := fun i => { s.conn i with waited := (s.conn i).initialized } }
    else if 0 < s.sem then { s with sem := s.sem - 1, phase := .servers (k + 1) }
    else s
  | .conns =>
    if (List.range s.nconn).all (fun i => (s.conn i).waited) then
      if s.check && (List.range s.nconn).any (fun i => !(s.conn i).enabled) then { s with phase := .refused }
      else { s with phase := .entered }
    else s
  | .entered => s
  | .refused => s

def step (s : St) : Ev → St
  | .serverUp i =>
    if i < s.nsrv ∧ s.srv i = .starting then { s with srv := upd s.srv i .up, sem := s.sem + 1 } else s
  | .serverFail i => if i < s.nsrv ∧ s.srv i = .starting then { s with srv := upd s.srv i .failed } else s
  | .process i r => if (s.conn i).started then s else { s with conn := upd s.conn i ((s.conn i).process r) }
  | .initDone i ok => { s with conn := upd s.conn i ((s.conn i).initDone ok (s.phase = .conns)) }
  | .initRaise i => { s with conn := upd s.conn i { s.conn i with pending := false } }
  | .disable i => { s with conn := upd s.conn i (s.conn i).disable }
  | .restart i =>
    if (s.conn i).started && !(s.conn i).enabled && (s.conn i).auto then
      { s with conn := upd s.conn i { s.conn i with enabled := true, pending := true } }
    else s
  | .setStop => { s with stop := true }
  | .main => s.main

def run (s : St) (t : List Ev) : St := t.foldl step s

/-! ### Servers -/

/-- How many servers have a status. -/
def count (s : St) (x : Srv) : Nat := ((List.range s.nsrv).filter (fun i => s.srv i = x)).length

def seen (s : St) : Nat :=
  match s.phase with
  | .servers k => k
  | _ => s.nsrv

theorem count_upd (n : Nat) (f : Nat → Srv) (i : Nat) (x y : Srv) (hi : i < n) (hf : f i ≠ y) :
    ((List.range n).filter (fun j => upd f i x j = y)).length
      = ((List.range n).filter (fun j => f j = y)).length + (if x = y then 1 else 0) := by
  induction n with
  | zero => omega
  | succ n ih =>
    rw [List.range_succ, List.filter_append, List.filter_append, List.length_append, List.length_append]
    by_cases h : i = n
    · subst h
      have e : (List.range i).filter (fun j => decide (upd f i x j = y)) = (List.range i).filter (fun j => decide (f j = y)) := by
        apply List.filter_congr
        intro j hj
        have : j ≠ i := by have := List.mem_range.mp hj; omega
        simp [upd, this]
      rw [e]
      by_cases hx : x = y <;> simp [upd, hx, hf]
    · rw [ih (by omega)]
      have : n ≠ i := fun e => h e.symm
      by_cases hn : f n = y <;> simp [upd, this, hn] <;> omega

theorem count_le (s : St) (x y : Srv) (h : x ≠ y) : count s x + count s y ≤ s.nsrv := by
  unfold count
  generalize s.nsrv = n
  induction n with
  | zero => simp
  | succ n ih =>
    simp only [List.range_succ, List.filter_append, List.length_append]
    by_cases h1 : s.srv n = x
    · have h2 : s.srv n ≠ y := fun e => h (h1 ▸ e)
      have a1 : ([n].filter (fun i => decide (s.srv i = x))).length ≤ 1 := List.length_filter_le _ _
      have a2 : ([n].filter (fun i => decide (s.srv i = y))).length = 0 := by simp [h2]
      omega
    · have a1 : ([n].filter (fun i => decide (s.srv i = y))).length ≤ 1 := List.length_filter_le _ _
      have a2 : ([n].filter (fun i => decide (s.srv i = x))).length = 0 := by simp [h1]
      omega

theorem count_all (s : St) (x : Srv) (h : count s x = s.nsrv) : ∀ i, i < s.nsrv → s.srv i = x := by
  intro i hi
  unfold count at h
  have hlen : ((List.range s.nsrv).filter (fun i => s.srv i = x)).length = (List.range s.nsrv).length := by
    rw [h, List.length_range]
  have := List.length_filter_eq_length_iff.mp hlen i (List.mem_range.mpr hi)
  simpa using this

theorem step_nsrv (s : St) (e : Ev) : (step s e).nsrv = s.nsrv ∧ (step s e).nconn = s.nconn ∧ (step s e).check = s.check := by
  cases e <;> simp only [step, St.main]
  all_goals first
    | exact ⟨rfl, rfl, rfl⟩
    | exact ⟨trivial, trivial, trivial⟩
    | (split <;> first | exact ⟨rfl, rfl, rfl⟩ | (split <;> first | exact ⟨rfl, rfl, rfl⟩ | (split <;> exact ⟨rfl, rfl, rfl⟩)))

/-- Only the main coroutine changes the phase. -/
theorem step_phase (s : St) (e : Ev) (h : e ≠ .main) : (step s e).phase = s.phase := by
  cases e <;> simp only [step]
  all_goals first
    | rfl
    | exact absurd rfl h
    | (split <;> rfl)

/-- The semaphore holds what was reported and not yet seen. -/
def SrvInv (s : St) : Prop := s.sem + seen s = count s .up

theorem srvInv_step (s : St) (e : Ev) (h : SrvInv s) : SrvInv (step s e) := by
  unfold SrvInv at *
  cases e with
  | serverUp i =>
    simp only [step]
    by_cases hc : i < s.nsrv ∧ s.srv i = .starting
    · rw [if_pos hc]
      have := count_upd s.nsrv s.srv i .up .up hc.1 (by rw [hc.2]; decide)
      simp only [if_true] at this
      show s.sem + 1 + seen s = ((List.range s.nsrv).filter (fun j => upd s.srv i .up j = .up)).length
      rw [this]
      unfold count at h
      omega
    · rw [if_neg hc]; exact h
  | serverFail i =>
    simp only [step]
    by_cases hc : i < s.nsrv ∧ s.srv i = .starting
    · rw [if_pos hc]
      have := count_upd s.nsrv s.srv i .failed .up hc.1 (by rw [hc.2]; decide)
      simp only [reduceCtorEq, if_false] at this
      show s.sem + seen s = ((List.range s.nsrv).filter (fun j => upd s.srv i .failed j = .up)).length
      rw [this]
      unfold count at h
      omega
    · rw [if_neg hc]; exact h
  | process i r =>
    simp only [step]
    split <;> exact h
  | initDone i ok => exact h
  | initRaise i => exact h
  | disable i => exact h
  | restart i =>
    simp only [step]
    split <;> exact h
  | setStop => exact h
  | main =>
    simp only [step]
    unfold St.main
    split
    · rename_i k hp
      by_cases hk : k = s.nsrv
      · rw [if_pos hk]
        show s.sem + s.nsrv = count s .up
        unfold seen at h
        rw [hp] at h
        dsimp only at h
        omega
      · rw [if_neg hk]
        by_cases hs : 0 < s.sem
        · rw [if_pos hs]
          show s.sem - 1 + (k + 1) = count s .up
          unfold seen at h
          rw [hp] at h
          dsimp only at h
          omega
        · rw [if_neg hs]; exact h
    · rename_i hp
      split
      · split
        · show s.sem + s.nsrv = count s .up
          unfold seen at h
          rw [hp] at h
          exact h
        · show s.sem + s.nsrv = count s .up
          unfold seen at h
          rw [hp] at h
          exact h
      · exact h
    · exact h
    · exact h

theorem srvInv_run (t : List Ev) (s : St) (h : SrvInv s) : SrvInv (run s t) := by
  induction t generalizing s with
  | nil => exact h
  | cons e t ih => exact ih _ (srvInv_step s e h)

theorem srvInv_init (n m : Nat) (auto : Nat → Bool) (check : Bool) : SrvInv (St.init n m auto check) := by
  unfold SrvInv count seen St.init
  dsimp only
  rw [List.filter_eq_nil_iff.mpr (by intro i _; simp)]
  rfl

theorem run_snoc (s : St) (t : List Ev) (e : Ev) : run s (t ++ [e]) = step (run s t) e := by
  simp [run, List.foldl_append]

/-! ### Connections -/

theorem upd_eq {α : Type} (f : Nat → α) (i j : Nat) (x : α) : upd f i x j = if j = i then x else f j := rfl

/-- What was initialised has been initialised by its own routine: `seen` for the whole run. -/
def ConnInv (s : St) (t : List Ev) : Prop :=
  ∀ i, (s.conn i).initialized ∨ (s.conn i).waited → ∃ ok, Ev.initDone i ok ∈ t

theorem connInv_step (s : St) (t : List Ev) (e : Ev) (h : ConnInv s t) : ConnInv (step s e) (t ++ [e]) := by
  intro i hi
  have mono : (∃ ok, Ev.initDone i ok ∈ t) → ∃ ok, Ev.initDone i ok ∈ t ++ [e] :=
    fun ⟨ok, h⟩ => ⟨ok, List.mem_append_left _ h⟩
  cases e with
  | serverUp j =>
    apply mono; apply h
    simp only [step] at hi
    split at hi <;> exact hi
  | serverFail j =>
    apply mono; apply h
    simp only [step] at hi
    split at hi <;> exact hi
  | process j r =>
    apply mono; apply h
    simp only [step] at hi
    split at hi
    · exact hi
    · simp only [upd_eq] at hi
      by_cases hj : i = j
      · subst hj
        simp only [if_true, Conn.process] at hi
        split at hi <;> exact hi
      · rwa [if_neg hj] at hi
  | initDone j ok =>
    simp only [step, upd_eq] at hi
    by_cases hj : i = j
    · subst hj; exact ⟨ok, by simp⟩
    · rw [if_neg hj] at hi
      exact mono (h i hi)
  | initRaise j =>
    apply mono; apply h
    simp only [step, upd_eq] at hi
    by_cases hj : i = j
    · subst hj; simpa using hi
    · rwa [if_neg hj] at hi
  | disable j =>
    apply mono; apply h
    simp only [step, upd_eq] at hi
    by_cases hj : i = j
    · subst hj
      simp only [if_true, Conn.disable] at hi
      split at hi
      · exact Or.inr (by simpa using hi)
      · exact hi
    · rwa [if_neg hj] at hi
  | restart j =>
    apply mono; apply h
    simp only [step] at hi
    split at hi
    · simp only [upd_eq] at hi
      by_cases hj : i = j
      · subst hj; simpa using hi
      · rwa [if_neg hj] at hi
    · exact hi
  | setStop => exact mono (h i hi)
  | main =>
    apply mono; apply h
    simp only [step] at hi
    unfold St.main at hi
    split at hi
    · split at hi
      · have : (s.conn i).initialized = true := by simpa using hi
        exact Or.inl this
      · split at hi <;> exact hi
    · split at hi
      · split at hi <;> exact hi
      · exact hi
    · exact hi
    · exact hi

theorem connInv_run (n m : Nat) (auto : Nat → Bool) (check : Bool) (t : List Ev) :
    ConnInv (run (St.init n m auto check) t) t := by
  have key : ∀ t : List Ev, ConnInv (run (St.init n m auto check) t.reverse) t.reverse := by
    intro t
    induction t with
    | nil =>
      intro i hi
      simp [run, St.init, Conn.new] at hi
    | cons e t ih =>
      rw [List.reverse_cons, run_snoc]
      exact connInv_step _ _ _ ih
  have := key t.reverse
  rwa [List.reverse_reverse] at this

theorem run_params (n m : Nat) (auto : Nat → Bool) (check : Bool) (t : List Ev) :
    (run (St.init n m auto check) t).nsrv = n ∧ (run (St.init n m auto check) t).nconn = m ∧
    (run (St.init n m auto check) t).check = check := by
  have key : ∀ (s : St), (run s t).nsrv = s.nsrv ∧ (run s t).nconn = s.nconn ∧ (run s t).check = s.check := by
    induction t with
    | nil => intro s; exact ⟨rfl, rfl, rfl⟩
    | cons e t ih =>
      intro s
      obtain ⟨a, b, c⟩ := ih (step s e)
      obtain ⟨d, f, g⟩ := step_nsrv s e
      exact ⟨a.trans d, b.trans f, c.trans g⟩
  exact key _

/-- The step that enters the application or refuses it is one of the main coroutine out of its wait for
connections. -/
theorem enter_step (s : St) (e : Ev) (p : Phase) (hp : p = .entered ∨ p = .refused) (h : (step s e).phase = p)
    (hn : s.phase ≠ p) :
    e = .main ∧ s.phase = .conns ∧ (∀ i, i < s.nconn → (s.conn i).waited = true) ∧
    (p = .refused ↔ s.check = true ∧ ∃ i, i < s.nconn ∧ (s.conn i).enabled = false) := by
  by_cases he : e = .main
  · subst he
    refine ⟨rfl, ?_⟩
    simp only [step] at h
    unfold St.main at h
    split at h
    · exfalso
      rename_i k hk
      split at h
      · rcases hp with rfl | rfl <;> cases h
      · split at h
        · rcases hp with rfl | rfl <;> cases h
        · exact hn h
    · rename_i hph
      by_cases hall : (List.range s.nconn).all (fun i => (s.conn i).waited) = true
      · rw [if_pos hall] at h
        refine ⟨hph, ?_, ?_⟩
        · intro i hi
          exact List.all_eq_true.mp hall i (List.mem_range.mpr hi)
        · by_cases hc : (s.check && (List.range s.nconn).any (fun i => !(s.conn i).enabled)) = true
          · rw [if_pos hc] at h
            dsimp only at h
            rw [Bool.and_eq_true, List.any_eq_true] at hc
            obtain ⟨h1, i, hi, h2⟩ := hc
            simp only [← h, true_iff]
            exact ⟨h1, i, List.mem_range.mp hi, by simpa using h2⟩
          · rw [if_neg hc] at h
            dsimp only at h
            simp only [← h, reduceCtorEq, false_iff, not_and]
            intro h1 ⟨i, hi, h2⟩
            apply hc
            rw [Bool.and_eq_true, List.any_eq_true]
            exact ⟨h1, i, List.mem_range.mpr hi, by simp [h2]⟩
      · rw [if_neg hall] at h
        exact absurd h hn
    · exact absurd h hn
    · exact absurd h hn
  · rw [step_phase s e he] at h
    exact absurd h hn

/-! ### Claims -/

/-- Whatever the order of events: when the application is entered, every server has started, the initialisation
routine of every connection has ended at some time, and, if connections are checked, all of them are enabled. -/
theorem C82_entered (n m : Nat) (auto : Nat → Bool) (check : Bool) (t : List Ev) (e : Ev)
    (hn : (run (St.init n m auto check) t).phase ≠ .entered)
    (h : (run (St.init n m auto check) (t ++ [e])).phase = .entered) :
    (∀ i, i < n → (run (St.init n m auto check) t).srv i = .up) ∧
    (∀ i, i < m → ∃ ok, Ev.initDone i ok ∈ t) ∧
    (check = true → ∀ i, i < m → ((run (St.init n m auto check) t).conn i).enabled = true) := by
  rw [run_snoc] at h
  obtain ⟨h1, h2, h3, h4⟩ := enter_step _ e .entered (Or.inl rfl) h hn
  obtain ⟨p1, p2, p3⟩ := run_params n m auto check t
  refine ⟨?_, ?_, ?_⟩
  · have hi := srvInv_run t _ (srvInv_init n m auto check)
    unfold SrvInv seen at hi
    rw [h2] at hi
    dsimp only at hi
    have hle := count_le (run (St.init n m auto check) t) .up .failed (by decide)
    have := count_all (run (St.init n m auto check) t) .up (by omega)
    intro i hi
    exact this i (by rw [p1]; exact hi)
  · intro i hi
    exact connInv_run n m auto check t i (Or.inr (h3 i (by rw [p2]; exact hi)))
  · intro hc i hi
    cases he : ((run (St.init n m auto check) t).conn i).enabled with
    | true => rfl
    | false =>
      have : Phase.entered = .refused := h4.mpr ⟨by rw [p3]; exact hc, i, by rw [p2]; exact hi, he⟩
      cases this

/-- The application is refused only for a connection that is disabled when all of them were initialised. -/
theorem C82_refused (n m : Nat) (auto : Nat → Bool) (check : Bool) (t : List Ev) (e : Ev)
    (hn : (run (St.init n m auto check) t).phase ≠ .refused)
    (h : (run (St.init n m auto check) (t ++ [e])).phase = .refused) :
    check = true ∧ (∀ i, i < m → ∃ ok, Ev.initDone i ok ∈ t) ∧
    ∃ i, i < m ∧ ((run (St.init n m auto check) t).conn i).enabled = false := by
  rw [run_snoc] at h
  obtain ⟨h1, h2, h3, h4⟩ := enter_step _ e .refused (Or.inr rfl) h hn
  obtain ⟨p1, p2, p3⟩ := run_params n m auto check t
  obtain ⟨h5, i, h6, h7⟩ := h4.mp rfl
  refine ⟨by rw [← p3]; exact h5, ?_, i, by rw [← p2]; exact h6, h7⟩
  intro j hj
  exact connInv_run n m auto check t j (Or.inr (h3 j (by rw [p2]; exact hj)))

/-- The main coroutine, alone, as often as it can. -/
def mains (s : St) : Nat → St
  | 0 => s
  | k + 1 => mains s.main k

theorem mains_servers (k : Nat) (s : St) (j : Nat) (hp : s.phase = .servers j) (hj : j + k = s.nsrv) (hs : k ≤ s.sem) :
    (mains s k).phase = .servers s.nsrv ∧ (mains s k).conn = s.conn ∧ (mains s k).nconn = s.nconn ∧
    (mains s k).nsrv = s.nsrv := by
  induction k generalizing s j with
  | zero => exact ⟨by rw [← hj]; exact hp, rfl, rfl, rfl⟩
  | succ k ih =>
    have e : s.main = { s with sem := s.sem - 1, phase := .servers (j + 1) } := by
      unfold St.main
      rw [hp]
      dsimp only
      rw [if_neg (by omega), if_pos (by omega)]
    rw [mains, e]
    exact ih { s with sem := s.sem - 1, phase := .servers (j + 1) } (j + 1) rfl (by show j + 1 + k = s.nsrv; omega)
      (by show k ≤ s.sem - 1; omega)

/-- When every server has started and every connection is initialised, the main coroutine is held up by nothing:
the application is entered or refused. -/
theorem C82_proceeds (n m : Nat) (auto : Nat → Bool) (check : Bool) (t : List Ev)
    (hs : ∀ i, i < n → (run (St.init n m auto check) t).srv i = .up)
    (hc : ∀ i, i < m → ((run (St.init n m auto check) t).conn i).initialized = true ∧
      ((run (St.init n m auto check) t).phase = .conns → ((run (St.init n m auto check) t).conn i).waited = true)) :
    ∃ k, (mains (run (St.init n m auto check) t) k).phase = .entered ∨
      (mains (run (St.init n m auto check) t) k).phase = .refused := by
  have hi := srvInv_run t _ (srvInv_init n m auto check)
  obtain ⟨p1, p2, -⟩ := run_params n m auto check t
  generalize run (St.init n m auto check) t = s at hs hc hi p1 p2
  have last : ∀ s : St, s.phase = .conns → (∀ i, i < s.nconn → (s.conn i).waited = true) →
      s.main.phase = .entered ∨ s.main.phase = .refused := by
    intro s hp hw
    unfold St.main
    rw [hp]
    dsimp only
    rw [if_pos (List.all_eq_true.mpr (fun i hi => hw i (List.mem_range.mp hi)))]
    split
    · exact Or.inr rfl
    · exact Or.inl rfl
  cases hp : s.phase with
  | entered => exact ⟨0, Or.inl hp⟩
  | refused => exact ⟨0, Or.inr hp⟩
  | conns => exact ⟨1, last s hp (fun i hi => (hc i (by omega)).2 hp)⟩
  | servers k =>
    have hup : count s .up = s.nsrv := by
      unfold count
      rw [List.filter_eq_self.mpr (by
        intro i hi
        have := hs i (by rw [← p1]; exact List.mem_range.mp hi)
        simp [this]), List.length_range]
    unfold SrvInv seen at hi
    rw [hp, hup] at hi
    dsimp only at hi
    obtain ⟨q1, q2, q3, q4⟩ := mains_servers (s.nsrv - k) s k hp (by omega) (by omega)
    refine ⟨s.nsrv - k + 2, ?_⟩
    have split2 : ∀ (a : Nat) (s : St) (b : Nat), mains s (a + b) = mains (mains s a) b := by
      intro a
      induction a with
      | zero => intro s b; rw [Nat.zero_add]; rfl
      | succ a ih => intro s b; rw [Nat.succ_add]; exact ih s.main b
    rw [split2]
    generalize mains s (s.nsrv - k) = s' at q1 q2 q3 q4
    show s'.main.main.phase = _ ∨ s'.main.main.phase = _
    have e : s'.main = { s' with phase := .conns, conn := fun i => { s'.conn i with waited := (s'.conn i).initialized } } := by
      unfold St.main
      rw [q1]
      dsimp only
      rw [if_pos q4.symm]
    rw [e]
    apply last _ rfl
    intro i hi
    show (s'.conn i).initialized = true
    rw [q2]
    exact (hc i (by rw [← p2, ← q3]; exact hi)).1

/-- A connection that will never be initialised. -/
def Dead (s : St) (i : Nat) : Prop :=
  (s.conn i).auto = false ∧ (s.conn i).started = true ∧ (s.conn i).pending = false ∧
  (s.conn i).initialized = false ∧ (s.conn i).waited = false

theorem dead_step (s : St) (e : Ev) (i : Nat) (h : Dead s i) : Dead (step s e) i := by
  obtain ⟨h1, h2, h3, h4, h5⟩ := h
  unfold Dead
  cases e with
  | serverUp j => simp only [step]; split <;> exact ⟨h1, h2, h3, h4, h5⟩
  | serverFail j => simp only [step]; split <;> exact ⟨h1, h2, h3, h4, h5⟩
  | process j r =>
    simp only [step]
    split
    · exact ⟨h1, h2, h3, h4, h5⟩
    · rename_i hs
      have : i ≠ j := fun e => hs (e ▸ h2)
      simp only [upd_eq, if_neg this]
      exact ⟨h1, h2, h3, h4, h5⟩
  | initDone j ok =>
    simp only [step, upd_eq]
    by_cases hj : i = j
    · subst hj
      simp only [if_true, Conn.initDone, h3, Bool.false_eq_true, if_false]
      exact ⟨h1, h2, trivial, h4, h5⟩
    · rw [if_neg hj]; exact ⟨h1, h2, h3, h4, h5⟩
  | initRaise j =>
    simp only [step, upd_eq]
    by_cases hj : i = j
    · subst hj; simp only [if_true]; exact ⟨h1, h2, trivial, h4, h5⟩
    · rw [if_neg hj]; exact ⟨h1, h2, h3, h4, h5⟩
  | disable j =>
    simp only [step, upd_eq]
    by_cases hj : i = j
    · subst hj
      simp only [if_true, Conn.disable]
      split
      · exact ⟨h1, h2, by trivial, by trivial, h5⟩
      · exact ⟨h1, h2, h3, h4, h5⟩
    · rw [if_neg hj]; exact ⟨h1, h2, h3, h4, h5⟩
  | restart j =>
    simp only [step]
    split
    · rename_i hs
      have : i ≠ j := by
        intro e
        subst e
        simp [h1] at hs
      simp only [upd_eq, if_neg this]
      exact ⟨h1, h2, h3, h4, h5⟩
    · exact ⟨h1, h2, h3, h4, h5⟩
  | setStop => exact ⟨h1, h2, h3, h4, h5⟩
  | main =>
    simp only [step]
    unfold St.main
    split
    · split
      · exact ⟨h1, h2, h3, h4, h4⟩
      · split <;> exact ⟨h1, h2, h3, h4, h5⟩
    · split
      · split <;> exact ⟨h1, h2, h3, h4, h5⟩
      · exact ⟨h1, h2, h3, h4, h5⟩
    · exact ⟨h1, h2, h3, h4, h5⟩
    · exact ⟨h1, h2, h3, h4, h5⟩

theorem dead_stuck (s : St) (i : Nat) (hi : i < s.nconn) (h : Dead s i)
    (hp : s.phase ≠ .entered ∧ s.phase ≠ .refused) (t : List Ev) :
    (run s t).phase ≠ .entered ∧ (run s t).phase ≠ .refused := by
  induction t generalizing s with
  | nil => exact hp
  | cons e t ih =>
    have no : ∀ p : Phase, p = .entered ∨ p = .refused → (step s e).phase ≠ p := by
      intro p hpp hc
      have hne : s.phase ≠ p := by rcases hpp with rfl | rfl; exacts [hp.1, hp.2]
      have := (enter_step s e p hpp hc hne).2.2.1 i hi
      rw [h.2.2.2.2] at this
      cases this
    exact ih (step s e) (by rw [(step_nsrv s e).2.1]; exact hi) (dead_step s e i h)
      ⟨no _ (Or.inl rfl), no _ (Or.inr rfl)⟩

/-- Starting never ends once the initialisation of a connection is cut short, by an exception or because the
connection is disabled while it goes on, unless the connection is restarted: whatever happens afterwards, the stop
signal included, the application is neither entered nor refused. -/
theorem C82_cut_fails (n m : Nat) (auto : Nat → Bool) (check : Bool) (t : List Ev) (i : Nat) (hi : i < m)
    (ha : auto i = false) (hp : ((run (St.init n m auto check) t).conn i).pending = true)
    (hw : ((run (St.init n m auto check) t).conn i).waited = false)
    (hz : ((run (St.init n m auto check) t).conn i).initialized = false)
    (e : Ev) (he : e = .initRaise i ∨ e = .disable i) (t' : List Ev) :
    (run (St.init n m auto check) (t ++ e :: t')).phase ≠ .entered ∧
    (run (St.init n m auto check) (t ++ e :: t')).phase ≠ .refused := by
  -- invariants: a pending connection is enabled and started, nothing changes `auto`
  have inv : ∀ (t : List Ev), let s := run (St.init n m auto check) t
      (s.conn i).auto = auto i ∧ ((s.conn i).pending = true → (s.conn i).enabled = true ∧ (s.conn i).started = true) ∧
      ((s.phase = .entered ∨ s.phase = .refused) → (s.conn i).waited = true) := by
    have key : ∀ t : List Ev, let s := run (St.init n m auto check) t.reverse
        (s.conn i).auto = auto i ∧ ((s.conn i).pending = true → (s.conn i).enabled = true ∧ (s.conn i).started = true) ∧
        ((s.phase = .entered ∨ s.phase = .refused) → (s.conn i).waited = true) := by
      intro t
      induction t with
      | nil =>
        refine ⟨rfl, ?_, ?_⟩
        · intro h; cases h
        · intro h; rcases h with h | h <;> cases h
      | cons e t ih =>
        rw [List.reverse_cons]
        intro s
        have hs : s = step (run (St.init n m auto check) t.reverse) e := run_snoc _ _ _
        rw [hs]
        have hm : (run (St.init n m auto check) t.reverse).nconn = m := (run_params n m auto check t.reverse).2.1
        clear hs s
        generalize run (St.init n m auto check) t.reverse = s at ih hm
        obtain ⟨i1, i2, i3⟩ := ih
        cases e with
        | serverUp j => simp only [step]; split <;> exact ⟨i1, i2, i3⟩
        | serverFail j => simp only [step]; split <;> exact ⟨i1, i2, i3⟩
        | process j r =>
          simp only [step]
          split
          · exact ⟨i1, i2, i3⟩
          · simp only [upd_eq]
            by_cases hj : i = j
            · subst hj
              simp only [if_true, Conn.process]
              split
              · exact ⟨i1, fun _ => ⟨rfl, rfl⟩, i3⟩
              · exact ⟨i1, fun h => ⟨(i2 h).1, rfl⟩, i3⟩
            · simp only [if_neg hj]; exact ⟨i1, i2, i3⟩
        | initDone j ok =>
          simp only [step, upd_eq]
          by_cases hj : i = j
          · subst hj
            simp only [if_true, Conn.initDone]
            split
            · refine ⟨?_, fun h => (by cases h), fun h => ?_⟩
              · cases ok
                · simp only [Bool.false_eq_true, if_false, Conn.disable]; split <;> exact i1
                · exact i1
              · have hw := i3 h
                cases ok
                · simp only [Bool.false_eq_true, if_false, Conn.disable, Bool.or_eq_true]
                  split <;> exact Or.inl hw
                · simp only [if_true, Bool.or_eq_true]; exact Or.inl hw
            · exact ⟨i1, i2, i3⟩
          · simp only [if_neg hj]; exact ⟨i1, i2, i3⟩
        | initRaise j =>
          simp only [step, upd_eq]
          by_cases hj : i = j
          · subst hj; simp only [if_true]; exact ⟨i1, fun h => (by cases h), i3⟩
          · simp only [if_neg hj]; exact ⟨i1, i2, i3⟩
        | disable j =>
          simp only [step, upd_eq]
          by_cases hj : i = j
          · subst hj
            simp only [if_true, Conn.disable]
            split
            · exact ⟨i1, fun h => (by cases h), i3⟩
            · exact ⟨i1, i2, i3⟩
          · simp only [if_neg hj]; exact ⟨i1, i2, i3⟩
        | restart j =>
          simp only [step]
          split
          · rename_i hr
            simp only [upd_eq]
            by_cases hj : i = j
            · subst hj
              simp only [if_true]
              simp only [Bool.and_eq_true] at hr
              exact ⟨i1, fun _ => ⟨trivial, hr.1.1⟩, i3⟩
            · simp only [if_neg hj]; exact ⟨i1, i2, i3⟩
          · exact ⟨i1, i2, i3⟩
        | setStop => exact ⟨i1, i2, i3⟩
        | main =>
          have hwait : (step s .main).phase = .entered ∨ (step s .main).phase = .refused → (s.conn i).waited = true := by
            intro h
            have one : ∀ p : Phase, p = .entered ∨ p = .refused → (step s .main).phase = p → (s.conn i).waited = true := by
              intro p hp h
              by_cases hs : s.phase = p
              · exact i3 (by rw [hs]; exact hp)
              · exact (enter_step s .main p hp h hs).2.2.1 i (by rw [hm]; exact hi)
            rcases h with h | h
            · exact one _ (Or.inl rfl) h
            · exact one _ (Or.inr rfl) h
          simp only [step] at hwait ⊢
          unfold St.main at hwait ⊢
          split
          · rename_i k hk
            split
            · refine ⟨i1, i2, fun h => ?_⟩
              rcases h with h | h <;> cases h
            · split
              · refine ⟨i1, i2, fun h => ?_⟩
                rcases h with h | h <;> cases h
              · exact ⟨i1, i2, i3⟩
          · rename_i hk
            rw [hk] at hwait
            dsimp only at hwait
            split
            · rename_i hall
              rw [if_pos hall] at hwait
              have hw := List.all_eq_true.mp hall i (List.mem_range.mpr (by rw [hm]; exact hi))
              split <;> exact ⟨i1, i2, fun _ => hw⟩
            · exact ⟨i1, i2, i3⟩
          · exact ⟨i1, i2, i3⟩
          · exact ⟨i1, i2, i3⟩
    intro t
    have := key t.reverse
    rwa [List.reverse_reverse] at this
  obtain ⟨k1, k2, k3⟩ := inv t
  have hm : (run (St.init n m auto check) t).nconn = m := (run_params n m auto check t).2.1
  have e2 : run (St.init n m auto check) (t ++ e :: t') = run (step (run (St.init n m auto check) t) e) t' := by
    simp [run, List.foldl_append]
  rw [e2]
  generalize run (St.init n m auto check) t = s at hp hw hz k1 k2 k3 hm
  have hph : s.phase ≠ .entered ∧ s.phase ≠ .refused := by
    constructor
    · intro h; have := k3 (Or.inl h); rw [hw] at this; cases this
    · intro h; have := k3 (Or.inr h); rw [hw] at this; cases this
  obtain ⟨hen, hst⟩ := k2 hp
  apply dead_stuck (step s e) i (by rw [(step_nsrv s e).2.1, hm]; exact hi)
  · rcases he with rfl | rfl
    · simp only [Dead, step, upd_eq, if_true]
      exact ⟨k1.trans ha, hst, trivial, hz, hw⟩
    · simp only [Dead, step, upd_eq, if_true, Conn.disable, hen]
      exact ⟨k1.trans ha, hst, trivial, trivial, hw⟩
  · have : e ≠ .main := by rcases he with rfl | rfl <;> exact Ev.noConfusion
    rw [step_phase s e this]
    exact hph

/-- Starting never ends once a server fails to start: whatever happens afterwards, the stop signal included, the
main coroutine goes on waiting for servers. -/
theorem C82_server_fails (n m : Nat) (auto : Nat → Bool) (check : Bool) (t : List Ev) (i : Nat) (hi : i < n)
    (hs : (run (St.init n m auto check) t).srv i = .starting) (t' : List Ev) :
    ∃ k, k < n ∧ (run (St.init n m auto check) (t ++ .serverFail i :: t')).phase = .servers k := by
  have keep : ∀ (t : List Ev) (s : St), s.srv i = .failed → (run s t).srv i = .failed := by
    intro t
    induction t with
    | nil => intro s h; exact h
    | cons e t ih =>
      intro s h
      apply ih
      cases e with
      | serverUp j =>
        simp only [step]
        split
        · rename_i hc
          have : i ≠ j := by rintro rfl; rw [h] at hc; exact absurd hc.2 (by decide)
          simp only [upd_eq, if_neg this]; exact h
        · exact h
      | serverFail j =>
        simp only [step]
        split
        · simp only [upd_eq]; split
          · rfl
          · exact h
        · exact h
      | process j r => simp only [step]; split <;> exact h
      | initDone j ok => exact h
      | initRaise j => exact h
      | disable j => exact h
      | restart j => simp only [step]; split <;> exact h
      | setStop => exact h
      | main =>
        simp only [step]
        unfold St.main
        split
        · split
          · exact h
          · split <;> exact h
        · split
          · split <;> exact h
          · exact h
        · exact h
        · exact h
  have hf : (run (St.init n m auto check) (t ++ .serverFail i :: t')).srv i = .failed := by
    have e2 : run (St.init n m auto check) (t ++ .serverFail i :: t')
        = run (step (run (St.init n m auto check) t) (.serverFail i)) t' := by simp [run, List.foldl_append]
    rw [e2]
    apply keep
    simp only [step]
    rw [if_pos ⟨by rw [(run_params n m auto check t).1]; exact hi, hs⟩]
    simp [upd]
  have hinv := srvInv_run (t ++ .serverFail i :: t') _ (srvInv_init n m auto check)
  have p1 := (run_params n m auto check (t ++ .serverFail i :: t')).1
  generalize run (St.init n m auto check) (t ++ .serverFail i :: t') = s at hf hinv p1
  have hlt : count s .up < n := by
    have hle := count_le s .up .failed (by decide)
    have : 0 < count s .failed := by
      unfold count
      rw [List.length_pos_iff_exists_mem]
      exact ⟨i, List.mem_filter.mpr ⟨List.mem_range.mpr (by rw [p1]; exact hi), by simp [hf]⟩⟩
    omega
  unfold SrvInv seen at hinv
  cases hp : s.phase with
  | servers k =>
    rw [hp] at hinv
    exact ⟨k, by dsimp only at hinv; omega, rfl⟩
  | conns => rw [hp] at hinv; dsimp only at hinv; omega
  | entered => rw [hp] at hinv; dsimp only at hinv; omega
  | refused => rw [hp] at hinv; dsimp only at hinv; omega

/-- The application may be entered with a connection whose initialisation never succeeded: one that is restarted
between its failure and the end of the wait for another. -/
theorem C82_restarted_fails :
    ∃ t : List Ev, (run (St.init 0 2 (fun i => i = 0) true) t).phase = .entered ∧
      ((run (St.init 0 2 (fun i => i = 0) true) t).conn 0).pending = true ∧
      Ev.initDone 0 true ∉ t :=
  ⟨[.main, .process 0 false, .process 1 false, .initDone 0 false, .restart 0, .initDone 1 true, .main],
    by decide, by decide, by decide⟩

theorem C82_cases :
    (run (St.init 2 1 (fun _ => false) true)
      [.serverUp 1, .main, .process 0 false, .serverUp 0, .main, .initDone 0 true, .main, .main]).phase = .entered ∧
    (run (St.init 0 1 (fun _ => false) true) [.process 0 false, .main, .initDone 0 false, .main]).phase = .refused ∧
    (run (St.init 0 1 (fun _ => false) false) [.process 0 false, .main, .initDone 0 false, .main]).phase = .entered ∧
    (run (St.init 0 1 (fun _ => false) true) [.process 0 false, .main, .initRaise 0, .setStop, .main]).phase = .conns ∧
    (run (St.init 1 0 (fun _ => false) true) [.serverFail 0, .setStop, .main]).phase = .servers 0 := by
  refine ⟨?_, ?_, ?_, ?_, ?_⟩ <;> decide

end Verif.Arbiter.Startup
