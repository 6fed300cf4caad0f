import Verif.Dict
import Verif.Base
/-!
C133: groups of periodic tasks: `task/basic/manager.py` (all of it), with `stop` and `task` of `task/basic/periodic.py`
192–220 as seen from the group; the course of one task is C99.

A task is known by its name and an object number. Its run is idle, running, ended, or about to end with an exception
(`fails`: its dispatch raises before the cancellation arrives). Stopping and starting different tasks touches different
objects, so `asyncio.gather` of them has the same effect in every order; the state is the one after all of them have run,
and the exception the first one in the order of registration (another one may come first in time; whether there is one
does not depend on that). The period is a number; `close` is `Primitive.__eq__`.
-/
namespace Verif.Group
open Verif

inductive Run
  | running
  | ended
  | fails (e : PyErr)
deriving DecidableEq, Repr

/-- A task: `name`, `period_s`, `_task`; what `stop_extra` raises, if anything. -/
structure Task where
  obj : Nat
  name : String
  period : Rat
  run : Option Run
  extra : Option PyErr
deriving DecidableEq, Repr

/-- `PeriodicTask.stop`, periodic.py 192–210: the task after it, and its result. -/
def Task.stop (t : Task) : Task × Except PyErr Bool :=
  match t.run with
  | none => (t, .ok false)
  | some (.fails e) => ({ t with run := some .ended }, .error e)
  | some _ =>
    match t.extra with
    | some e => ({ t with run := none }, .error e)
    | none => ({ t with run := none }, .ok true)

/-- `PeriodicTask.task`, 212–220. -/
def Task.start (t : Task) : Task × Except PyErr Bool :=
  match t.stop with
  | (t, .error e) => (t, .error e)
  | (t, .ok _) => ({ t with run := some .running }, .ok true)

/-- `PeriodicTask.set_period`, 107–125. -/
def Task.setPeriod (close : Rat → Rat → Bool) (t : Task) : Option Rat → Task
  | none => t
  | some p => if close t.period p then t else { t with period := p }

/-- `PeriodicTaskManager._tasks`. -/
abbrev Group := List (String × Task)

/-- `register`, manager.py 26–33: the group, the task registered and the result. -/
def register (close : Rat → Rat → Bool) (g : Group) (t : Task) (period : Option Rat) : Group × Task × Bool :=
  if g.any (·.1 == t.name) then (g, t, false)
  else let t' := t.setPeriod close period; (dset g t.name t', t', true)

def registerAll (close : Rat → Rat → Bool) (g : Group) (ts : List (Task × Option Rat)) : Group :=
  ts.foldl (fun g t => (register close g t.1 t.2).1) g

/-- `asyncio.gather` of one operation for every task. -/
def gather (op : Task → Task × Except PyErr Bool) (g : Group) : Group × Option PyErr :=
  (g.map fun p => (p.1, (op p.2).1), g.findSome? fun p => match (op p.2).2 with | .error e => some e | .ok _ => none)

/-- `start` and `stop`, manager.py 44–52. -/
def start (g : Group) : Group × Option PyErr := gather Task.start g
def stop (g : Group) : Group × Option PyErr := gather Task.stop g

/-- `async with manager.running():`, manager.py 54–64, around a body that may do anything to the tasks: the group after it,
whether the body was run, and the exception. -/
def running (body : Group → Group × Option PyErr) (g : Group) : Group × Bool × Option PyErr :=
  match start g with
  | (g, some e) => (g, false, some e)
  | (g, none) =>
    let (g, e) := body g
    match stop g with
    | (g, some e') => (g, true, some e')
    | (g, none) => (g, true, e)

/-! ### Claims -/

/-- The tasks whose name no earlier one has. -/
def firsts : List String → List (Task × Option Rat) → List (Task × Option Rat)
  | _, [] => []
  | seen, t :: ts => if t.1.name ∈ seen then firsts seen ts else t :: firsts (seen ++ [t.1.name]) ts

theorem any_name (g : Group) (n : String) : g.any (·.1 == n) = true ↔ n ∈ g.map (·.1) := by
  simp [List.any_eq_true, List.mem_map]

theorem registerAll_eq (close : Rat → Rat → Bool) (ts : List (Task × Option Rat)) (g : Group) :
    registerAll close g ts = g ++ (firsts (g.map (·.1)) ts).map fun t => (t.1.name, t.1.setPeriod close t.2) := by
  induction ts generalizing g with
  | nil => simp [registerAll, firsts]
  | cons t ts ih =>
    have e : registerAll close g (t :: ts) = registerAll close (register close g t.1 t.2).1 ts := rfl
    rw [e, ih, register]
    by_cases h : t.1.name ∈ g.map (·.1)
    · rw [if_pos ((any_name g t.1.name).2 h), firsts, if_pos h]
    · have h' : g.any (·.1 == t.1.name) = false := by
        rw [Bool.eq_false_iff]
        exact fun hh => h ((any_name g t.1.name).1 hh)
      rw [if_neg (by rw [h']; decide), firsts, if_neg h]
      simp only [dset_fresh _ _ _ h', List.map_append, List.map_cons, List.map_nil, List.append_assoc, List.cons_append,
        List.nil_append]

/-- C133: a group has the first task registered under each name, in the order of registration, with the period given. -/
theorem C133_group (close : Rat → Rat → Bool) (ts : List (Task × Option Rat)) :
    registerAll close [] ts = (firsts [] ts).map fun t => (t.1.name, t.1.setPeriod close t.2) := by
  simpa using registerAll_eq close ts []

/-- C133: a task that is refused, and the group, are left as they were; one that is accepted is found by its name. -/
theorem C133_register (close : Rat → Rat → Bool) (g : Group) (t : Task) (p : Option Rat) :
    ((register close g t p).2.2 = true ↔ dget g t.name = none) ∧
    ((register close g t p).2.2 = false → (register close g t p).1 = g ∧ (register close g t p).2.1 = t) ∧
    ((register close g t p).2.2 = true → dget (register close g t p).1 t.name = some (register close g t p).2.1) ∧
    ∀ n, n ≠ t.name → dget (register close g t p).1 n = dget g n := by
  by_cases h : g.any (·.1 == t.name) = true
  · simp only [register, if_pos h, and_true]
    refine ⟨⟨by simp, fun hn => ?_⟩, by simp, by simp, by simp⟩
    rw [dget_none_iff] at hn
    rw [hn] at h
    cases h
  · have h' : g.any (·.1 == t.name) = false := Bool.eq_false_iff.2 h
    simp only [register, if_neg h]
    refine ⟨⟨fun _ => (dget_none_iff g t.name).2 h', by simp⟩, by simp, fun _ => dget_dset_self _ _ _, fun n hn => ?_⟩
    exact dget_dset_ne _ _ _ _ (Ne.symm hn)

/-- C133: the period of a task accepted is the one given, if it is not close to the one it has; nothing else changes. -/
theorem C133_period (close : Rat → Rat → Bool) (g : Group) (t : Task) (p : Option Rat) (h : dget g t.name = none) :
    (register close g t p).2.1 = { t with period := if p.any (fun q => !close t.period q) then p.getD t.period else t.period } := by
  have h' : ¬ g.any (·.1 == t.name) = true := by rw [(dget_none_iff g t.name).1 h]; decide
  rw [register, if_neg h']
  cases p with
  | none => rfl
  | some q => cases hc : close t.period q <;> simp [Task.setPeriod, hc]

theorem findSome_none {α β : Type} (f : α → Option β) (l : List α) : l.findSome? f = none ↔ ∀ x ∈ l, f x = none := by
  induction l with
  | nil => simp
  | cons a as ih =>
    rw [List.findSome?_cons]
    cases h : f a with
    | none => simp [h, ih]
    | some b => simp [h]

/-- C133: stopping a group: one that raises does not keep the others from being stopped, each task's result is its own. -/
theorem C133_stop (g : Group) (p : String × Task) (hp : p ∈ g) :
    (p.1, p.2.stop.1) ∈ (stop g).1 ∧ (stop g).1.length = g.length ∧
    (p.2.stop.1.run = none ∨ ∃ e, p.2.run = some (.fails e) ∧ p.2.stop.2 = .error e) ∧
    (∀ e, p.2.stop.2 = .error e → (stop g).2 ≠ none) := by
  refine ⟨List.mem_map.2 ⟨p, hp, rfl⟩, by simp [stop, gather], ?_, ?_⟩
  · obtain ⟨n, o, nm, pe, r, x⟩ := p
    cases r with
    | none => exact .inl rfl
    | some r =>
      cases r with
      | fails e => exact .inr ⟨e, rfl, rfl⟩
      | running => cases x <;> exact .inl rfl
      | ended => cases x <;> exact .inl rfl
  · intro e he hn
    have := (findSome_none _ _).1 hn p hp
    simp [he] at this

theorem start_idle (g : Group) (h : ∀ p ∈ g, p.2.run = none) :
    start g = (g.map fun p => (p.1, { p.2 with run := some .running }), none) := by
  have hs : ∀ p ∈ g, p.2.start = ({ p.2 with run := some .running }, .ok true) := by
    intro p hp
    simp only [Task.start, Task.stop, h p hp]
  rw [start, gather]
  refine Prod.ext ?_ ?_
  · exact List.map_congr_left fun p hp => by rw [hs p hp]
  · exact (findSome_none _ _).2 fun p hp => by rw [hs p hp]

/-- C133: starting a group again, whatever its tasks do: each one is running, unless its own start raises. -/
theorem C133_start (g : Group) :
    (start g).1.length = g.length ∧
    (∀ p ∈ g, (∀ e, p.2.run ≠ some (.fails e)) → (p.2.run = none ∨ p.2.extra = none) →
      (p.1, { p.2 with run := some .running }) ∈ (start g).1) ∧
    ((∀ p ∈ g, (∀ e, p.2.run ≠ some (.fails e)) ∧ (p.2.run = none ∨ p.2.extra = none)) ↔ (start g).2 = none) := by
  have key : ∀ t : Task, (∀ e, t.run ≠ some (.fails e)) → (t.run = none ∨ t.extra = none) →
      t.start = ({ t with run := some .running }, .ok true) := by
    rintro ⟨o, nm, pe, r, x⟩ h1 h2
    simp only at h1 h2
    cases r with
    | none => rfl
    | some r =>
      have hx : x = none := by simpa using h2
      subst hx
      cases r with
      | fails e => exact absurd rfl (h1 e)
      | running => rfl
      | ended => rfl
  refine ⟨by simp [start, gather], fun p hp h1 h2 => List.mem_map.2 ⟨p, hp, by rw [key p.2 h1 h2]⟩, ?_⟩
  rw [start, gather, findSome_none]
  constructor
  · intro h p hp
    rw [key p.2 (h p hp).1 (h p hp).2]
  · intro h p hp
    have := h p hp
    obtain ⟨n, o, nm, pe, r, x⟩ := p
    simp only [Task.start, Task.stop] at this
    cases r with
    | none => simp
    | some r => cases r <;> cases x <;> simp at this ⊢

/-- C133: in `running`, around any body: all tasks of an idle group are running when it begins; whatever it does and raises,
`stop` is called for the group it leaves; and if no stop raises, all tasks are idle and the body's exception is passed on. -/
theorem C133_running (body : Group → Group × Option PyErr) (g : Group) (h : ∀ p ∈ g, p.2.run = none) :
    let inside := g.map fun p => (p.1, { p.2 with run := some .running })
    (running body g).1 = (stop (body inside).1).1 ∧ (running body g).2.1 = true ∧
    ((∀ p ∈ (body inside).1, (∀ e, p.2.run ≠ some (.fails e)) ∧ p.2.extra = none) →
      (∀ p ∈ (running body g).1, p.2.run = none) ∧ (running body g).2.2 = (body inside).2) := by
  intro inside
  have hr : running body g = match stop (body inside).1 with
      | (q, some e') => (q, true, some e')
      | (q, none) => (q, true, (body inside).2) := by
    rw [running, start_idle g h]
  rw [hr]
  generalize body inside = r
  obtain ⟨b, e⟩ := r
  simp only
  cases hs : stop b with
    | mk q e' =>
      have key : (∀ p ∈ b, (∀ e, p.2.run ≠ some (.fails e)) ∧ p.2.extra = none) → (∀ p ∈ q, p.2.run = none) ∧ e' = none := by
        intro hk
        have h1 : ∀ p ∈ b, p.2.stop.1.run = none ∧ ∃ r, p.2.stop.2 = .ok r := by
          rintro ⟨n, o, nm, pe, r, x⟩ hp
          obtain ⟨k1, k2⟩ := hk _ hp
          simp only at k1 k2
          subst k2
          cases r with
          | none => exact ⟨rfl, false, rfl⟩
          | some r =>
            cases r with
            | fails e => exact absurd rfl (k1 e)
            | running => exact ⟨rfl, true, rfl⟩
            | ended => exact ⟨rfl, true, rfl⟩
        rw [stop, gather] at hs
        obtain ⟨hq, he⟩ := Prod.mk.inj hs
        constructor
        · intro p hp
          rw [← hq] at hp
          obtain ⟨p', hp', rfl⟩ := List.mem_map.1 hp
          exact (h1 p' hp').1
        · rw [← he]
          refine (findSome_none _ _).2 fun p hp => ?_
          obtain ⟨r, hr⟩ := (h1 p hp).2
          rw [hr]
      cases e' with
      | none => exact ⟨rfl, rfl, fun hk => ⟨(key hk).1, rfl⟩⟩
      | some e' =>
        refine ⟨rfl, rfl, fun hk => ?_⟩
        have := (key hk).2
        cases this

/-- C133 fails for a group of which one task cannot be started again (its last run ends with an exception, or its
`stop_extra` raises): the body is not run, and the others have been started and are not stopped. -/
theorem C133_start_fails (body : Group → Group × Option PyErr) (g : Group) (p q : String × Task) (hp : p ∈ g) (hq : q ∈ g)
    (e : PyErr) (he : p.2.run = some (.fails e) ∨ p.2.run = some .running ∧ p.2.extra = some e) (hi : q.2.run = none) :
    (running body g).2.1 = false ∧ (running body g).2.2 ≠ none ∧
    (q.1, { q.2 with run := some .running }) ∈ (running body g).1 := by
  have hs : p.2.start.2 = .error e := by
    rcases he with he | ⟨he, hx⟩
    · simp only [Task.start, Task.stop, he]
    · simp only [Task.start, Task.stop, he, hx]
  have hne : (start g).2 ≠ none := by
    intro hn
    have := (findSome_none _ _).1 hn p hp
    simp [hs] at this
  have hm : (q.1, { q.2 with run := some .running }) ∈ (start g).1 := by
    refine List.mem_map.2 ⟨q, hq, ?_⟩
    simp only [Task.start, Task.stop, hi]
  cases hst : start g with
  | mk g' e' =>
    rw [hst] at hne hm
    cases e' with
    | none => exact absurd rfl hne
    | some e' =>
      rw [running, hst]
      exact ⟨rfl, by simp, hm⟩

/-! ### Examples -/

def exA : Task := ⟨0, "a", 1, none, none⟩
def exB : Task := ⟨1, "b", 1, none, none⟩
def exA' : Task := ⟨2, "a", 1, none, none⟩
def exClose (a b : Rat) : Bool := a == b

theorem C133_cases :
    registerAll exClose [] [(exA, some 2), (exB, none), (exA', some 3)] = [("a", { exA with period := 2 }), ("b", exB)] ∧
    (registerAll exClose [] [(exA, none), (exB, none)] |> running fun g => (g, some .value)) =
      ([("a", exA), ("b", exB)], true, some .value) ∧
    (running (fun g => (g, none)) [("a", { exA with run := some (.fails .value) }), ("b", exB)]) =
      ([("a", { exA with run := some .ended }), ("b", { exB with run := some .running })], false, some .value) := by
  decide +kernel

end Verif.Group
