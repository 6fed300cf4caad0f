import Verif.Base
import Verif.Dict

/-!
C81: an application from configuration files (net/arbiter/config/__init__.py, net/arbiter/imports/__init__.py,
net/arbiter/factory/connection.py and task.py, the configuration of net/arbiter/info.py).

Importing a module path gives the name of a class and what it is a factory of, or raises. `snake` is the
conversion of class names to snake case (vcorelib), `join` the joining of a name with its namespaces
(`NamespaceMixin`, vcorelib). Arguments of factories, clients and servers, the resolution of ports and what
constructors do are left out; a factory is known by its class and namespaces.
-/
namespace Verif.Arbiter.Config
open Verif

inductive FKind where
  | conn | task | struct | peer
  deriving DecidableEq, Repr

structure Factory where
  cls : String
  ns : List String
  deriving DecidableEq, Repr

inductive EKind where
  | task | struct | proc
  deriving DecidableEq, Repr

/-- The kind of factory an entity is made by. -/
def EKind.by : EKind → FKind
  | .task => .task
  | .struct => .struct
  | .proc => .peer

structure Arb where
  /-- `_conn_factories`, `_task_factories`, `_struct_factories`, `_peer_factories` -/
  facs : FKind → List (String × Factory)
  conns : List (String × Factory)
  deferred : List (String × Factory)
  /-- the connections opened for clients, by full name -/
  opened : List String
  servers : List Factory
  /-- tasks, structs, processes -/
  ents : EKind → List (String × Factory)

/-- A new arbiter has its housekeeping task (net/arbiter/base.py 106–112). -/
def Arb.new : Arb :=
  ⟨fun _ => [], [], [], [], [], fun k => if k = .task then [("housekeeping", ⟨"ConnectionMetricsPoller", []⟩)] else []⟩

/-- What importing a path gives: a class and what it is a factory of, if anything. -/
abbrev Import := String → Except PyErr (String × Option FKind)

def has {β : Type} (d : List (String × β)) (n : String) : Bool := (dget d n).isSome

/-- `register_connection_factory`, factory/connection.py 53–78, `register_task_factory`, factory/task.py 45–70,
`register_struct_factory` and `register_peer_factory`, imports/__init__.py 47–97. -/
def Arb.registerFactory (snake : String → String) (a : Arb) (k : FKind) (f : Factory) : Arb × Bool :=
  if has (a.facs k) f.cls || has (a.facs k) (snake f.cls) then (a, false)
  else ({ a with facs := fun j => if j = k then dset (dset (a.facs k) f.cls f) (snake f.cls) f else a.facs j }, true)

/-- `register_module_factory`, imports/__init__.py 131–160, with the assertion of `process_config`. A struct or
peer class that is refused is then called like a factory class: without its arguments, a `TypeError`. -/
def Arb.registerModule (imp : Import) (snake : String → String) (a : Arb) (x : String × List String) : Arb × Option PyErr :=
  match imp x.1 with
  | .error e => (a, some e)
  | .ok (_, none) => (a, some .assertion)
  | .ok (cls, some k) =>
    match a.registerFactory snake k ⟨cls, x.2⟩ with
    | (a, true) => (a, none)
    | (a, false) => (a, some (if k = .struct ∨ k = .peer then .type else .assertion))

/-- A client of a configuration. -/
structure Client where
  factory : String
  name : String
  defer : Bool
  deriving DecidableEq, Repr

/-- `factory_client`, factory/connection.py 80–100, with `register_connection`, base.py 160–185, and the
assertion of `process_config`. The connection is made before its name is looked at. -/
def Arb.client (join : List String → String) (a : Arb) (c : Client) : Arb × Option PyErr :=
  match dget (a.facs .conn) c.factory with
  | none => (a, some .assertion)
  | some f =>
    let full := join (f.ns ++ [c.name])
    let a := if c.defer then a else { a with opened := a.opened ++ [full] }
    if has a.conns full || has a.deferred full then (a, some .assertion)
    else if c.defer then ({ a with deferred := a.deferred ++ [(full, f)] }, none)
    else ({ a with conns := a.conns ++ [(full, f)] }, none)

/-- `factory_server`, factory/connection.py 102–122. -/
def Arb.server (a : Arb) (f : String) : Arb × Option PyErr :=
  match dget (a.facs .conn) f with
  | none => (a, some .assertion)
  | some g => ({ a with servers := a.servers ++ [g] }, none)

/-- `factory_task`, factory/task.py 28–43, `factory_struct` and `factory_process`, imports/__init__.py 99–129. -/
def Arb.entity (k : EKind) (a : Arb) (x : String × String) : Arb × Option PyErr :=
  match dget (a.facs k.by) x.1 with
  | none => (a, some .assertion)
  | some f =>
    if has (a.ents k) x.2 then (a, some .assertion)
    else ({ a with ents := fun j => if j = k then a.ents k ++ [(x.2, f)] else a.ents j }, none)

/-- A `for` loop whose body may raise. -/
def each {S X : Type} (f : S → X → S × Option PyErr) : S → List X → S × Option PyErr
  | s, [] => (s, none)
  | s, x :: xs =>
    match f s x with
    | (s, some e) => (s, some e)
    | (s, none) => each f s xs

/-- The factories of a configuration, config/__init__.py 140–156: a path that was registered is skipped. -/
def Arb.factory (imp : Import) (snake : String → String) (s : Arb × List String) (x : String × List String) :
    (Arb × List String) × Option PyErr :=
  if x.1 ∈ s.2 then (s, none)
  else
    match s.1.registerModule imp snake x with
    | (a, some e) => ((a, s.2), some e)
    | (a, none) => ((a, s.2 ++ [x.1]), none)

/-- The lists of `ConnectionArbiterConfig`, config/codec.py 61–73. Tasks, structs and processes are pairs of a
factory and a name. -/
structure Conf where
  factories : List (String × List String)
  clients : List Client
  servers : List String
  tasks : List (String × String)
  structs : List (String × String)
  procs : List (String × String)

/-- Go on unless something was raised. -/
def next {S : Type} (r : S × Option PyErr) (k : S → S × Option PyErr) : S × Option PyErr :=
  match r with
  | (s, some e) => (s, some e)
  | (s, none) => k s

/-- The set of paths is local to the loop. -/
def unseen (r : (Arb × List String) × Option PyErr) : Arb × Option PyErr := (r.1.1, r.2)

/-- `process_config`, config/__init__.py 128–232, up to the applications. -/
def Arb.process (imp : Import) (snake : String → String) (join : List String → String) (a : Arb) (c : Conf) :
    Arb × Option PyErr :=
  next (unseen (each (Arb.factory imp snake) (a, []) c.factories)) fun a =>
  next (each (Arb.client join) a c.clients) fun a =>
  next (each Arb.server a c.servers) fun a =>
  next (each (Arb.entity .task) a c.tasks) fun a =>
  next (each (Arb.entity .struct) a c.structs) fun a =>
  each (Arb.entity .proc) a c.procs

/-! ### What a configuration says -/

/-- The factory of a kind an entry of the list stands for, under a name. -/
def entryFor (imp : Import) (snake : String → String) (k : FKind) (f : String) (x : String × List String) : Option Factory :=
  match imp x.1 with
  | .ok (cls, some j) => if j = k ∧ (f = cls ∨ f = snake cls) then some ⟨cls, x.2⟩ else none
  | _ => none

/-- The first factory of a kind with a name. -/
def factoryFor (imp : Import) (snake : String → String) (c : Conf) (k : FKind) (f : String) : Option Factory :=
  c.factories.findSome? (entryFor imp snake k f)

/-- The full name of a client. -/
def fullName (imp : Import) (snake : String → String) (join : List String → String) (c : Conf) (x : Client) : String :=
  join (((factoryFor imp snake c .conn x.factory).map Factory.ns).getD [] ++ [x.name])

/-- The first entry of every path. -/
def firsts : List (String × List String) → List (String × List String)
  | [] => []
  | x :: xs => x :: (firsts xs).filter (fun y => y.1 ≠ x.1)

/-- Two entries do not ask for the same name of the same kind. -/
def Apart (imp : Import) (snake : String → String) (x y : String × List String) : Prop :=
  ∀ k f, (entryFor imp snake k f x).isSome → (entryFor imp snake k f y).isSome → False

/-- Every entry is a factory of some kind. -/
def Known (imp : Import) (x : String × List String) : Prop := ∃ cls k, imp x.1 = .ok (cls, some k)

/-! ### Factories -/

theorem each_none_cons {S X : Type} (f : S → X → S × Option PyErr) (s : S) (x : X) (xs : List X) :
    (each f s (x :: xs)).2 = none ↔ (f s x).2 = none ∧ (each f (f s x).1 xs).2 = none := by
  simp only [each]
  generalize f s x = r
  obtain ⟨s', e⟩ := r
  cases e <;> simp

theorem each_cons_ok {S X : Type} (f : S → X → S × Option PyErr) (s : S) (x : X) (xs : List X)
    (h : (f s x).2 = none) : each f s (x :: xs) = each f (f s x).1 xs := by
  simp only [each]
  generalize f s x = r at h
  obtain ⟨s', e⟩ := r
  dsimp only at h
  subst h
  rfl

theorem factory_firsts (imp : Import) (snake : String → String) (xs : List (String × List String)) (a : Arb)
    (seen : List String) :
    unseen (each (Arb.factory imp snake) (a, seen) xs)
      = each (Arb.registerModule imp snake) a ((firsts xs).filter (fun y => y.1 ∉ seen)) := by
  induction xs generalizing a seen with
  | nil => rfl
  | cons x xs ih =>
    simp only [each, Arb.factory, firsts]
    by_cases hx : x.1 ∈ seen
    · rw [if_pos hx, List.filter_cons]
      simp only [hx, not_true_eq_false, decide_false, Bool.false_eq_true, if_false]
      rw [ih, List.filter_filter]
      congr 1
      apply List.filter_congr
      intro y _
      by_cases hy : y.1 ∈ seen
      · simp [hy]
      · have : y.1 ≠ x.1 := fun h => hy (h ▸ hx)
        simp [hy, this]
    · rw [if_neg hx, List.filter_cons]
      simp only [hx, not_false_eq_true, decide_true, if_true, each]
      generalize a.registerModule imp snake x = r
      obtain ⟨b, e⟩ := r
      cases e with
      | some e => rfl
      | none =>
        dsimp only
        rw [ih, List.filter_filter]
        congr 1
        apply List.filter_congr
        intro y _
        simp only [List.mem_append, List.mem_singleton, not_or, Bool.decide_and, Bool.and_comm]

theorem registerModule_none (imp : Import) (snake : String → String) (a : Arb) (x : String × List String) :
    (a.registerModule imp snake x).2 = none ↔
      Known imp x ∧ ∀ k f, (entryFor imp snake k f x).isSome → dget (a.facs k) f = none := by
  unfold Arb.registerModule Known entryFor
  cases hi : imp x.1 with
  | error e => simp
  | ok r =>
    obtain ⟨cls, k⟩ := r
    cases k with
    | none => simp
    | some k =>
      dsimp only
      unfold Arb.registerFactory
      by_cases h : (has (a.facs k) cls || has (a.facs k) (snake cls)) = true
      · rw [if_pos h]
        simp only [reduceCtorEq, false_iff, not_and]
        intro _ hall
        rcases Bool.or_eq_true _ _ ▸ h with h1 | h1
        · have := hall k cls (by simp)
          simp [has, this] at h1
        · have := hall k (snake cls) (by simp)
          simp [has, this] at h1
      · rw [if_neg h]
        simp only [true_iff]
        refine ⟨⟨cls, k, rfl⟩, ?_⟩
        intro k' f hf
        simp only [Bool.or_eq_true, has, not_or, Bool.not_eq_true, Option.isSome_eq_false_iff,
          Option.isNone_iff_eq_none] at h
        split at hf
        · rename_i hc
          obtain ⟨rfl, hc⟩ := hc
          rcases hc with rfl | rfl
          · exact h.1
          · exact h.2
        · cases hf

theorem registerModule_facs (imp : Import) (snake : String → String) (a : Arb) (x : String × List String)
    (h : (a.registerModule imp snake x).2 = none) (k : FKind) (f : String) :
    dget ((a.registerModule imp snake x).1.facs k) f = (dget (a.facs k) f).or (entryFor imp snake k f x) := by
  have hk := (registerModule_none imp snake a x).mp h
  obtain ⟨⟨cls, j, hi⟩, hfree⟩ := hk
  have hc := hfree j cls (by simp [entryFor, hi])
  have hs := hfree j (snake cls) (by simp [entryFor, hi])
  unfold Arb.registerModule Arb.registerFactory
  rw [hi]
  simp only [has, hc, hs, Option.isSome_none, Bool.or_self, Bool.false_eq_true, if_false, entryFor, hi]
  by_cases hkj : k = j
  · subst hkj
    rw [if_pos rfl, dget_dset, dget_dset]
    by_cases h1 : snake cls = f
    · subst h1; simp [hs]
    · by_cases h2 : cls = f
      · subst h2; simp [hc, h1]
      · have : ¬ (f = cls ∨ f = snake cls) := by rintro (h | h) <;> simp_all
        simp [h1, h2, this]
  · rw [if_neg hkj]
    have : ¬ (j = k ∧ (f = cls ∨ f = snake cls)) := fun h => hkj h.1.symm
    rw [if_neg this, Option.or_none]

theorem registerModule_rest (imp : Import) (snake : String → String) (a : Arb) (x : String × List String) :
    (a.registerModule imp snake x).1.conns = a.conns ∧ (a.registerModule imp snake x).1.deferred = a.deferred ∧
    (a.registerModule imp snake x).1.opened = a.opened ∧ (a.registerModule imp snake x).1.servers = a.servers ∧
    (a.registerModule imp snake x).1.ents = a.ents := by
  unfold Arb.registerModule Arb.registerFactory
  cases imp x.1 with
  | error e => exact ⟨rfl, rfl, rfl, rfl, rfl⟩
  | ok r =>
    obtain ⟨cls, k⟩ := r
    cases k with
    | none => exact ⟨rfl, rfl, rfl, rfl, rfl⟩
    | some k =>
      dsimp only
      by_cases h : (has (a.facs k) cls || has (a.facs k) (snake cls)) = true
      · rw [if_pos h]; exact ⟨rfl, rfl, rfl, rfl, rfl⟩
      · rw [if_neg h]; exact ⟨rfl, rfl, rfl, rfl, rfl⟩

theorem modules_spec (imp : Import) (snake : String → String) (xs : List (String × List String)) (a : Arb) :
    ((each (Arb.registerModule imp snake) a xs).2 = none ↔
      (∀ x ∈ xs, Known imp x) ∧ xs.Pairwise (Apart imp snake) ∧
      ∀ x ∈ xs, ∀ k f, (entryFor imp snake k f x).isSome → dget (a.facs k) f = none) ∧
    ((each (Arb.registerModule imp snake) a xs).2 = none → ∀ k f,
      dget ((each (Arb.registerModule imp snake) a xs).1.facs k) f
        = (dget (a.facs k) f).or (xs.findSome? (entryFor imp snake k f))) ∧
    ((each (Arb.registerModule imp snake) a xs).1.conns = a.conns ∧
     (each (Arb.registerModule imp snake) a xs).1.deferred = a.deferred ∧
     (each (Arb.registerModule imp snake) a xs).1.opened = a.opened ∧
     (each (Arb.registerModule imp snake) a xs).1.servers = a.servers ∧
     (each (Arb.registerModule imp snake) a xs).1.ents = a.ents) := by
  induction xs generalizing a with
  | nil => simp [each]
  | cons x xs ih =>
    have hrest := registerModule_rest imp snake a x
    by_cases hx : (a.registerModule imp snake x).2 = none
    · rw [each_cons_ok _ _ _ _ hx]
      obtain ⟨i1, i2, i3, i4, i5, i6, i7⟩ := ih (a.registerModule imp snake x).1
      have hf := registerModule_facs imp snake a x hx
      have hk := (registerModule_none imp snake a x).mp hx
      refine ⟨?_, ?_, i3.trans hrest.1, i4.trans hrest.2.1, i5.trans hrest.2.2.1, i6.trans hrest.2.2.2.1,
        i7.trans hrest.2.2.2.2⟩
      · rw [i1, List.pairwise_cons]
        constructor
        · rintro ⟨h1, h2, h3⟩
          refine ⟨?_, ⟨?_, h2⟩, ?_⟩
          · intro y hy
            rcases List.mem_cons.mp hy with rfl | hy
            · exact hk.1
            · exact h1 y hy
          · intro y hy k f hxk hyk
            have h := h3 y hy k f hyk
            rw [hf, hk.2 k f hxk, Option.none_or] at h
            rw [h] at hxk
            cases hxk
          · intro y hy k f hyk
            rcases List.mem_cons.mp hy with rfl | hy
            · exact hk.2 k f hyk
            · have h := h3 y hy k f hyk
              rw [hf] at h
              exact (Option.or_eq_none_iff.mp h).1
        · rintro ⟨h1, ⟨h2, h3⟩, h4⟩
          refine ⟨fun y hy => h1 y (List.mem_cons_of_mem _ hy), h3, ?_⟩
          intro y hy k f hyk
          rw [hf, h4 y (List.mem_cons_of_mem _ hy) k f hyk, Option.none_or]
          cases hxk : entryFor imp snake k f x with
          | none => rfl
          | some g => exact (h2 y hy k f (by rw [hxk]; rfl) hyk).elim
      · intro hok k f
        rw [i2 hok, hf, Option.or_assoc, List.findSome?_cons]
        cases entryFor imp snake k f x <;> simp
    · have e : each (Arb.registerModule imp snake) a (x :: xs) = a.registerModule imp snake x := by
        simp only [each]
        generalize a.registerModule imp snake x = r at hx
        obtain ⟨b, e⟩ := r
        cases e with
        | none => exact absurd rfl hx
        | some e => rfl
      rw [e]
      refine ⟨?_, fun h => absurd h hx, hrest⟩
      constructor
      · intro h; exact absurd h hx
      · rintro ⟨h1, -, h3⟩
        exact absurd ((registerModule_none imp snake a x).mpr ⟨h1 x List.mem_cons_self, h3 x List.mem_cons_self⟩) hx

theorem findSome_filter {α β : Type} (g : α → Option β) (p : α → Bool) (l : List α) (h : ∀ x ∈ l, p x = false → g x = none) :
    (l.filter p).findSome? g = l.findSome? g := by
  induction l with
  | nil => rfl
  | cons x l ih =>
    have ih' := ih (fun y hy => h y (List.mem_cons_of_mem _ hy))
    rw [List.filter_cons]
    by_cases hp : p x = true
    · rw [if_pos hp, List.findSome?_cons, List.findSome?_cons, ih']
    · rw [if_neg hp, List.findSome?_cons, h x List.mem_cons_self (by simpa using hp), ih']

theorem firsts_find (imp : Import) (snake : String → String) (k : FKind) (f : String) (xs : List (String × List String)) :
    (firsts xs).findSome? (entryFor imp snake k f) = xs.findSome? (entryFor imp snake k f) := by
  induction xs with
  | nil => rfl
  | cons x xs ih =>
    rw [firsts, List.findSome?_cons, List.findSome?_cons]
    cases hx : entryFor imp snake k f x with
    | some g => rfl
    | none =>
      dsimp only
      rw [findSome_filter, ih]
      intro y _ hy
      have he : y.1 = x.1 := by simpa using hy
      unfold entryFor at hx ⊢
      rw [he]
      revert hx
      cases imp x.1 with
      | error e => simp
      | ok r =>
        obtain ⟨cls, j⟩ := r
        cases j with
        | none => simp
        | some j => by_cases hc : j = k ∧ (f = cls ∨ f = snake cls) <;> simp [hc]

/-! ### Clients and servers -/

theorem has_iff {β : Type} (d : List (String × β)) (n : String) : has d n = true ↔ n ∈ d.map (·.1) := by
  unfold has
  rw [← dget_isSome]
  simp

/-- The entry a client makes, for a way to find factories. -/
def made (get : String → Option Factory) (join : List String → String) (c : Client) : Option (String × Factory) :=
  (get c.factory).map (fun f => (join (f.ns ++ [c.name]), f))

theorem clients_spec (join : List String → String) (get : String → Option Factory) (cs : List Client) (a : Arb)
    (hg : ∀ f, dget (a.facs .conn) f = get f) (hnd : ((a.conns ++ a.deferred).map (·.1)).Nodup) :
    ((each (Arb.client join) a cs).2 = none ↔
      (∀ c ∈ cs, (get c.factory).isSome) ∧
      ((a.conns ++ a.deferred).map (·.1) ++ (cs.filterMap (made get join)).map (·.1)).Nodup) ∧
    (each (Arb.client join) a cs).1.facs = a.facs ∧ (each (Arb.client join) a cs).1.ents = a.ents ∧
    (each (Arb.client join) a cs).1.servers = a.servers ∧
    ((each (Arb.client join) a cs).2 = none →
      (each (Arb.client join) a cs).1.conns = a.conns ++ (cs.filter (fun c => !c.defer)).filterMap (made get join) ∧
      (each (Arb.client join) a cs).1.deferred = a.deferred ++ (cs.filter (fun c => c.defer)).filterMap (made get join) ∧
      (each (Arb.client join) a cs).1.opened
        = a.opened ++ ((cs.filter (fun c => !c.defer)).filterMap (made get join)).map (·.1)) := by
  induction cs generalizing a with
  | nil => simpa [each] using hnd
  | cons c cs ih =>
    cases hf : get c.factory with
    | none =>
      have e : Arb.client join a c = (a, some .assertion) := by
        unfold Arb.client; rw [hg, hf]
      simp only [each, e]
      refine ⟨?_, trivial, trivial, trivial, fun h => by cases h⟩
      constructor
      · intro h; cases h
      · rintro ⟨h, -⟩
        have := h c List.mem_cons_self
        rw [hf] at this
        cases this
    | some f =>
      have hm : made get join c = some (join (f.ns ++ [c.name]), f) := by simp [made, hf]
      by_cases hh : join (f.ns ++ [c.name]) ∈ (a.conns ++ a.deferred).map (·.1)
      · -- refused
        have hh' : (has a.conns (join (f.ns ++ [c.name])) || has a.deferred (join (f.ns ++ [c.name]))) = true := by
          rw [Bool.or_eq_true, has_iff, has_iff]
          rw [List.map_append, List.mem_append] at hh
          exact hh
        have hd2 : (Arb.client join a c).2 = some .assertion ∧ (Arb.client join a c).1.facs = a.facs ∧
            (Arb.client join a c).1.ents = a.ents ∧ (Arb.client join a c).1.servers = a.servers := by
          unfold Arb.client
          rw [hg, hf]
          dsimp only
          cases c.defer <;> simp [hh']
        have e : each (Arb.client join) a (c :: cs) = Arb.client join a c := by
          simp only [each]
          generalize Arb.client join a c = r at hd2
          obtain ⟨b, e⟩ := r
          dsimp only at hd2
          rw [hd2.1]
        rw [e]
        refine ⟨?_, hd2.2.1, hd2.2.2.1, hd2.2.2.2, fun h => by rw [hd2.1] at h; cases h⟩
        rw [hd2.1]
        constructor
        · intro h; cases h
        · rintro ⟨-, h⟩
          exfalso
          rw [List.filterMap_cons, hm, List.map_cons] at h
          exact (List.nodup_append.mp h).2.2 _ hh _ List.mem_cons_self rfl
      · have hh' : (has a.conns (join (f.ns ++ [c.name])) || has a.deferred (join (f.ns ++ [c.name]))) = false := by
          rw [Bool.eq_false_iff, ne_eq, Bool.or_eq_true, has_iff, has_iff]
          rw [List.map_append, List.mem_append] at hh
          exact hh
        cases hd : c.defer with
        | true =>
          have e : Arb.client join a c = ({ a with deferred := a.deferred ++ [(join (f.ns ++ [c.name]), f)] }, none) := by
            unfold Arb.client
            rw [hg, hf]
            simp [hd, hh']
          rw [each_cons_ok _ _ _ _ (by rw [e]), e]
          obtain ⟨i1, i2, i3, i4, i5⟩ := ih { a with deferred := a.deferred ++ [(join (f.ns ++ [c.name]), f)] } hg (by
            dsimp only
            rw [← List.append_assoc, List.map_append, List.nodup_append]
            refine ⟨hnd, by simp, ?_⟩
            rintro x hx y hy rfl
            simp only [List.map_cons, List.map_nil, List.mem_singleton] at hy
            exact hh (hy ▸ hx))
          refine ⟨?_, i2, i3, i4, ?_⟩
          · rw [i1]
            dsimp only
            rw [List.filterMap_cons, hm]
            simp [hf, List.append_assoc]
          · intro h
            obtain ⟨j1, j2, j3⟩ := i5 h
            refine ⟨j1.trans (by simp [hd]), j2.trans (by simp [hd, hm, List.append_assoc]), j3.trans (by simp [hd])⟩
        | false =>
          have e : Arb.client join a c = ({ a with opened := a.opened ++ [join (f.ns ++ [c.name])], conns := a.conns ++ [(join (f.ns ++ [c.name]), f)] }, none) := by
            unfold Arb.client
            rw [hg, hf]
            simp [hd, hh']
          rw [each_cons_ok _ _ _ _ (by rw [e]), e]
          have hperm : ((a.conns ++ [(join (f.ns ++ [c.name]), f)] ++ a.deferred).map (·.1)).Perm
              ((a.conns ++ a.deferred).map (·.1) ++ [join (f.ns ++ [c.name])]) := by
            simp only [List.map_append, List.map_cons, List.map_nil, List.append_assoc]
            exact List.Perm.append_left _ (List.perm_append_comm)
          obtain ⟨i1, i2, i3, i4, i5⟩ := ih { a with opened := a.opened ++ [join (f.ns ++ [c.name])], conns := a.conns ++ [(join (f.ns ++ [c.name]), f)] } hg (by
            dsimp only
            rw [hperm.nodup_iff, List.nodup_append]
            refine ⟨hnd, by simp, ?_⟩
            rintro x hx y hy rfl
            exact hh (List.mem_singleton.mp hy ▸ hx))
          refine ⟨?_, i2, i3, i4, ?_⟩
          · rw [i1]
            dsimp only
            rw [List.filterMap_cons, hm, (hperm.append_right _).nodup_iff]
            simp [hf, List.append_assoc]
          · intro h
            obtain ⟨j1, j2, j3⟩ := i5 h
            refine ⟨j1.trans (by simp [hd, hm, List.append_assoc]), j2.trans (by simp [hd]),
              j3.trans (by simp [hd, hm, List.append_assoc])⟩

theorem servers_spec (get : String → Option Factory) (fs : List String) (a : Arb)
    (hg : ∀ f, dget (a.facs .conn) f = get f) :
    ((each Arb.server a fs).2 = none ↔ ∀ f ∈ fs, (get f).isSome) ∧
    ((each Arb.server a fs).2 = none → (each Arb.server a fs).1 = { a with servers := a.servers ++ fs.filterMap get }) := by
  induction fs generalizing a with
  | nil => simp [each]
  | cons f fs ih =>
    cases hf : get f with
    | none =>
      have e : a.server f = (a, some .assertion) := by unfold Arb.server; rw [hg, hf]
      simp only [each, e]
      refine ⟨?_, fun h => by cases h⟩
      constructor
      · intro h; cases h
      · intro h
        have := h f List.mem_cons_self
        rw [hf] at this
        cases this
    | some g =>
      have e : a.server f = ({ a with servers := a.servers ++ [g] }, none) := by unfold Arb.server; rw [hg, hf]
      rw [each_cons_ok _ _ _ _ (by rw [e]), e]
      obtain ⟨i1, i2⟩ := ih { a with servers := a.servers ++ [g] } hg
      refine ⟨by rw [i1]; simp [hf], fun h => ?_⟩
      rw [i2 h]
      simp [hf, List.append_assoc]

/-! ### Tasks, structs, processes -/

def madeEnt (get : String → Option Factory) (x : String × String) : Option (String × Factory) :=
  (get x.1).map (fun f => (x.2, f))

theorem entities_spec (k : EKind) (get : String → Option Factory) (xs : List (String × String)) (a : Arb)
    (hg : ∀ f, dget (a.facs k.by) f = get f) (hnd : ((a.ents k).map (·.1)).Nodup) :
    ((each (Arb.entity k) a xs).2 = none ↔
      (∀ x ∈ xs, (get x.1).isSome) ∧ ((a.ents k).map (·.1) ++ xs.map (·.2)).Nodup) ∧
    ((each (Arb.entity k) a xs).2 = none → (each (Arb.entity k) a xs).1
      = { a with ents := fun j => if j = k then a.ents k ++ xs.filterMap (madeEnt get) else a.ents j }) := by
  induction xs generalizing a with
  | nil =>
    refine ⟨by simpa [each] using hnd, fun _ => ?_⟩
    simp only [each, List.filterMap_nil, List.append_nil]
    have e : (fun j => if j = k then a.ents k else a.ents j) = a.ents := by
      funext j
      by_cases hj : j = k <;> simp [hj]
    rw [e]
  | cons x xs ih =>
    cases hf : get x.1 with
    | none =>
      have e : a.entity k x = (a, some .assertion) := by unfold Arb.entity; rw [hg, hf]
      simp only [each, e]
      refine ⟨?_, fun h => by cases h⟩
      constructor
      · intro h; cases h
      · rintro ⟨h, -⟩
        have := h x List.mem_cons_self
        rw [hf] at this
        cases this
    | some g =>
      by_cases hh : x.2 ∈ (a.ents k).map (·.1)
      · have e : a.entity k x = (a, some .assertion) := by
          unfold Arb.entity
          rw [hg, hf]
          dsimp only
          rw [if_pos ((has_iff _ _).mpr hh)]
        simp only [each, e]
        refine ⟨?_, fun h => by cases h⟩
        constructor
        · intro h; cases h
        · rintro ⟨-, h⟩
          exfalso
          rw [List.map_cons] at h
          exact (List.nodup_append.mp h).2.2 _ hh _ List.mem_cons_self rfl
      · have e : a.entity k x = ({ a with ents := fun j => if j = k then a.ents k ++ [(x.2, g)] else a.ents j }, none) := by
          unfold Arb.entity
          rw [hg, hf]
          dsimp only
          rw [if_neg (by rw [has_iff]; exact hh)]
        rw [each_cons_ok _ _ _ _ (by rw [e]), e]
        obtain ⟨i1, i2⟩ := ih { a with ents := fun j => if j = k then a.ents k ++ [(x.2, g)] else a.ents j } hg (by
          simp only [if_true, List.map_append, List.map_cons, List.map_nil]
          rw [List.nodup_append]
          refine ⟨hnd, by simp, ?_⟩
          rintro y hy z hz rfl
          exact hh (List.mem_singleton.mp hz ▸ hy))
        refine ⟨?_, fun h => ?_⟩
        · rw [i1]
          simp [hf, List.append_assoc]
        · rw [i2 h]
          have hm : madeEnt get x = some (x.2, g) := by simp [madeEnt, hf]
          simp only [if_true, List.filterMap_cons, hm]
          congr 1
          funext j
          by_cases hj : j = k
          · simp [hj, List.append_assoc]
          · simp [hj]

/-! ### The whole configuration -/

/-- What it takes for a configuration to be accepted by a new arbiter: every factory can be imported and is one,
no two ask for the same name of the same kind, clients, servers, tasks, structs and processes name factories of
their kind, and their names are distinct. -/
structure Accepted (imp : Import) (snake : String → String) (join : List String → String) (c : Conf) : Prop where
  known : ∀ x ∈ c.factories, ∃ cls k, imp x.1 = .ok (cls, some k)
  apart : ∀ x ∈ c.factories, ∀ y ∈ c.factories, x.1 ≠ y.1 → ∀ cls cls' k, imp x.1 = .ok (cls, some k) →
    imp y.1 = .ok (cls', some k) → cls ≠ cls' ∧ snake cls ≠ snake cls' ∧ cls ≠ snake cls' ∧ snake cls ≠ cls'
  clients : ∀ x ∈ c.clients, (factoryFor imp snake c .conn x.factory).isSome
  clientNames : (c.clients.map (fullName imp snake join c)).Nodup
  servers : ∀ x ∈ c.servers, (factoryFor imp snake c .conn x).isSome
  tasks : ∀ x ∈ c.tasks, (factoryFor imp snake c .task x.1).isSome
  taskNames : ("housekeeping" :: c.tasks.map (·.2)).Nodup
  structs : ∀ x ∈ c.structs, (factoryFor imp snake c .struct x.1).isSome
  structNames : (c.structs.map (·.2)).Nodup
  procs : ∀ x ∈ c.procs, (factoryFor imp snake c .peer x.1).isSome
  procNames : (c.procs.map (·.2)).Nodup

theorem mem_firsts_path (xs : List (String × List String)) (x : String × List String) (hx : x ∈ xs) :
    ∃ y ∈ firsts xs, y.1 = x.1 := by
  induction xs with
  | nil => cases hx
  | cons z xs ih =>
    rcases List.mem_cons.mp hx with rfl | hx
    · exact ⟨x, by simp [firsts], rfl⟩
    · by_cases hz : x.1 = z.1
      · exact ⟨z, by simp [firsts], hz.symm⟩
      · obtain ⟨y, hy, e⟩ := ih hx
        exact ⟨y, by simp only [firsts, List.mem_cons, List.mem_filter]; exact Or.inr ⟨hy, by simp [e, hz]⟩, e⟩

theorem firsts_sub (xs : List (String × List String)) : (firsts xs).Sublist xs := by
  induction xs with
  | nil => exact .slnil
  | cons x xs ih => exact List.Sublist.cons_cons x (List.filter_sublist.trans ih)

theorem firsts_nodup (xs : List (String × List String)) : (firsts xs).Pairwise (fun x y => x.1 ≠ y.1) := by
  induction xs with
  | nil => exact .nil
  | cons x xs ih =>
    rw [firsts, List.pairwise_cons]
    refine ⟨fun y hy => ?_, ih.filter _⟩
    have := (List.mem_filter.mp hy).2
    simp only [ne_eq, decide_not, Bool.not_eq_true', decide_eq_false_iff_not] at this
    exact fun h => this h.symm

theorem apart_iff (imp : Import) (snake : String → String) (x y : String × List String) (cls cls' : String) (j j' : FKind)
    (hx : imp x.1 = .ok (cls, some j)) (hy : imp y.1 = .ok (cls', some j')) :
    Apart imp snake x y ↔ (j = j' → cls ≠ cls' ∧ snake cls ≠ snake cls' ∧ cls ≠ snake cls' ∧ snake cls ≠ cls') := by
  unfold Apart entryFor
  rw [hx, hy]
  dsimp only
  constructor
  · rintro h rfl
    refine ⟨?_, ?_, ?_, ?_⟩
    · rintro rfl; exact h j cls (by simp) (by simp)
    · intro e; exact h j (snake cls) (by simp) (by simp [e])
    · intro e; exact h j cls (by simp) (by simp [e])
    · intro e; exact h j (snake cls) (by simp) (by simp [e])
  · intro h k f h1 h2
    by_cases c1 : j = k ∧ (f = cls ∨ f = snake cls)
    · by_cases c2 : j' = k ∧ (f = cls' ∨ f = snake cls')
      · obtain ⟨rfl, c1⟩ := c1
        obtain ⟨rfl, c2⟩ := c2
        obtain ⟨n1, n2, n3, n4⟩ := h rfl
        rcases c1 with rfl | rfl
        · rcases c2 with h' | h'
          · exact n1 h'
          · exact n3 h'
        · rcases c2 with h' | h'
          · exact n4 h'
          · exact n2 h'
      · rw [if_neg c2] at h2; cases h2
    · rw [if_neg c1] at h1; cases h1

theorem pairwise_ne {α : Type} {R : α → α → Prop} (l : List α) (h : l.Pairwise R) (hs : ∀ a b, R a b → R b a) :
    ∀ x ∈ l, ∀ y ∈ l, x ≠ y → R x y := by
  induction l with
  | nil => intro x hx; cases hx
  | cons z l ih =>
    rw [List.pairwise_cons] at h
    intro x hx y hy hne
    rcases List.mem_cons.mp hx with rfl | hx'
    · rcases List.mem_cons.mp hy with rfl | hy'
      · exact absurd rfl hne
      · exact h.1 y hy'
    · rcases List.mem_cons.mp hy with rfl | hy'
      · exact hs _ _ (h.1 x hx')
      · exact ih h.2 x hx' y hy' hne

theorem factories_ok (imp : Import) (snake : String → String) (xs : List (String × List String)) :
    ((∀ x ∈ firsts xs, Known imp x) ∧ (firsts xs).Pairwise (Apart imp snake)) ↔
    ((∀ x ∈ xs, ∃ cls k, imp x.1 = .ok (cls, some k)) ∧
     ∀ x ∈ xs, ∀ y ∈ xs, x.1 ≠ y.1 → ∀ cls cls' k, imp x.1 = .ok (cls, some k) → imp y.1 = .ok (cls', some k) →
       cls ≠ cls' ∧ snake cls ≠ snake cls' ∧ cls ≠ snake cls' ∧ snake cls ≠ cls') := by
  constructor
  · rintro ⟨h1, h2⟩
    refine ⟨fun x hx => ?_, ?_⟩
    · obtain ⟨y, hy, e⟩ := mem_firsts_path xs x hx
      obtain ⟨cls, k, hk⟩ := h1 y hy
      exact ⟨cls, k, e ▸ hk⟩
    · intro x hx y hy hne cls cls' k hxk hyk
      obtain ⟨x', hx', ex⟩ := mem_firsts_path xs x hx
      obtain ⟨y', hy', ey⟩ := mem_firsts_path xs y hy
      have hsym : ∀ a b, Apart imp snake a b → Apart imp snake b a := fun a b h k f h1 h2 => h k f h2 h1
      have hap : Apart imp snake x' y' := by
        have hne' : x' ≠ y' := fun h => hne (by rw [← ex, ← ey, h])
        exact pairwise_ne _ h2 hsym x' hx' y' hy' hne'
      exact (apart_iff imp snake x' y' cls cls' k k (ex ▸ hxk) (ey ▸ hyk)).mp hap rfl
  · rintro ⟨h1, h2⟩
    refine ⟨fun x hx => h1 x ((firsts_sub xs).subset hx), ?_⟩
    refine (firsts_nodup xs).imp_of_mem ?_
    intro x y hx hy hne
    have hx' := (firsts_sub xs).subset hx
    have hy' := (firsts_sub xs).subset hy
    obtain ⟨cls, k, hk⟩ := h1 x hx'
    obtain ⟨cls', k', hk'⟩ := h1 y hy'
    refine (apart_iff imp snake x y cls cls' k k' hk hk').mpr ?_
    rintro rfl
    exact h2 x hx' y hy' hne cls cls' k hk hk'

theorem next_none {S : Type} (r : S × Option PyErr) (k : S → S × Option PyErr) :
    (next r k).2 = none ↔ r.2 = none ∧ (k r.1).2 = none := by
  obtain ⟨s, e⟩ := r
  cases e <;> simp [next]

theorem next_ok {S : Type} (r : S × Option PyErr) (k : S → S × Option PyErr) (h : r.2 = none) : next r k = k r.1 := by
  obtain ⟨s, e⟩ := r
  dsimp only at h
  subst h
  rfl

theorem next_err {S : Type} (r : S × Option PyErr) (k : S → S × Option PyErr) (e : PyErr) (h : r.2 = some e) :
    next r k = r := by
  obtain ⟨s, e'⟩ := r
  dsimp only at h
  subst h
  rfl

theorem each_append {S X : Type} (f : S → X → S × Option PyErr) (xs ys : List X) (s : S) (h : (each f s xs).2 = none) :
    each f s (xs ++ ys) = each f (each f s xs).1 ys := by
  induction xs generalizing s with
  | nil => rfl
  | cons x xs ih =>
    have h' := (each_none_cons f s x xs).mp h
    rw [List.cons_append, each_cons_ok _ _ _ _ h'.1, each_cons_ok _ _ _ _ h'.1]
    exact ih _ h'.2

/-- The clients that were opened or deferred, under their full names. -/
def clientsOf (imp : Import) (snake : String → String) (join : List String → String) (c : Conf) (deferred : Bool) :
    List (String × Factory) :=
  (c.clients.filter (fun x => x.defer = deferred)).filterMap fun x =>
    (factoryFor imp snake c .conn x.factory).map fun f => (join (f.ns ++ [x.name]), f)

/-- Named entities of a list of factories and names. -/
def entitiesOf (imp : Import) (snake : String → String) (c : Conf) (k : FKind) (xs : List (String × String)) :
    List (String × Factory) :=
  xs.filterMap fun x => (factoryFor imp snake c k x.1).map fun f => (x.2, f)

/-- What an arbiter holds once a configuration was accepted. -/
structure Holds (imp : Import) (snake : String → String) (join : List String → String) (c : Conf) (a : Arb) : Prop where
  facs : ∀ k f, dget (a.facs k) f = factoryFor imp snake c k f
  conns : a.conns = clientsOf imp snake join c false
  deferred : a.deferred = clientsOf imp snake join c true
  opened : a.opened = a.conns.map (·.1)
  servers : a.servers = c.servers.filterMap (factoryFor imp snake c .conn)
  tasks : a.ents .task = ("housekeeping", ⟨"ConnectionMetricsPoller", []⟩) :: entitiesOf imp snake c .task c.tasks
  structs : a.ents .struct = entitiesOf imp snake c .struct c.structs
  procs : a.ents .proc = entitiesOf imp snake c .peer c.procs

/-- The stages of `process_config`. -/
theorem stage_factories (imp : Import) (snake : String → String) (c : Conf) :
    ((unseen (each (Arb.factory imp snake) (Arb.new, []) c.factories)).2 = none ↔
      (∀ x ∈ c.factories, ∃ cls k, imp x.1 = .ok (cls, some k)) ∧
      ∀ x ∈ c.factories, ∀ y ∈ c.factories, x.1 ≠ y.1 → ∀ cls cls' k, imp x.1 = .ok (cls, some k) →
        imp y.1 = .ok (cls', some k) → cls ≠ cls' ∧ snake cls ≠ snake cls' ∧ cls ≠ snake cls' ∧ snake cls ≠ cls') ∧
    ((unseen (each (Arb.factory imp snake) (Arb.new, []) c.factories)).2 = none → ∀ k f,
      dget ((unseen (each (Arb.factory imp snake) (Arb.new, []) c.factories)).1.facs k) f = factoryFor imp snake c k f) ∧
    (unseen (each (Arb.factory imp snake) (Arb.new, []) c.factories)).1.conns = [] ∧
    (unseen (each (Arb.factory imp snake) (Arb.new, []) c.factories)).1.deferred = [] ∧
    (unseen (each (Arb.factory imp snake) (Arb.new, []) c.factories)).1.opened = [] ∧
    (unseen (each (Arb.factory imp snake) (Arb.new, []) c.factories)).1.servers = [] ∧
    (unseen (each (Arb.factory imp snake) (Arb.new, []) c.factories)).1.ents = Arb.new.ents := by
  have hf : (firsts c.factories).filter (fun y => y.1 ∉ ([] : List String)) = firsts c.factories := by
    rw [List.filter_eq_self]; simp
  rw [factory_firsts, hf]
  obtain ⟨i1, i2, i3⟩ := modules_spec imp snake (firsts c.factories) Arb.new
  refine ⟨?_, ?_, i3⟩
  · rw [i1, ← factories_ok]
    constructor
    · rintro ⟨h1, h2, -⟩; exact ⟨h1, h2⟩
    · rintro ⟨h1, h2⟩; exact ⟨h1, h2, fun _ _ _ _ _ => rfl⟩
  · intro h k f
    rw [i2 h, firsts_find]
    rfl

/-- Accepting a configuration, and what it makes. -/
theorem process_spec (imp : Import) (snake : String → String) (join : List String → String) (c : Conf) :
    ((Arb.new.process imp snake join c).2 = none ↔ Accepted imp snake join c) ∧
    ((Arb.new.process imp snake join c).2 = none → Holds imp snake join c (Arb.new.process imp snake join c).1) := by
  obtain ⟨f1, f2, f3, f4, f5, f6, f7⟩ := stage_factories imp snake c
  by_cases h1 : (unseen (each (Arb.factory imp snake) (Arb.new, []) c.factories)).2 = none
  rotate_left
  · have e : (Arb.new.process imp snake join c).2 ≠ none := by
      intro h; exact h1 ((next_none _ _).mp h).1
    refine ⟨⟨fun h => absurd h e, fun h => absurd (f1.mpr ⟨h.known, h.apart⟩) h1⟩, fun h => absurd h e⟩
  have f2 := f2 h1
  have f1 := f1.mp h1
  unfold Arb.process
  rw [next_ok _ _ h1]
  generalize (unseen (each (Arb.factory imp snake) (Arb.new, []) c.factories)).1 = a at f2 f3 f4 f5 f6 f7
  -- clients
  obtain ⟨c1, c2, c3, c4, c5⟩ := clients_spec join (factoryFor imp snake c .conn) c.clients a (f2 .conn) (by
    rw [f3, f4]; simp)
  have hnames : (∀ x ∈ c.clients, (factoryFor imp snake c .conn x.factory).isSome) →
      (c.clients.filterMap (made (factoryFor imp snake c .conn) join)).map (·.1) = c.clients.map (fullName imp snake join c) := by
    intro hall
    generalize c.clients = cs at hall
    induction cs with
    | nil => rfl
    | cons x cs ih =>
      have hx := hall x List.mem_cons_self
      obtain ⟨g, hg⟩ := Option.isSome_iff_exists.mp hx
      have hm : made (factoryFor imp snake c .conn) join x = some (join (g.ns ++ [x.name]), g) := by simp [made, hg]
      rw [List.filterMap_cons, hm, List.map_cons, List.map_cons, ih (fun y hy => hall y (List.mem_cons_of_mem _ hy))]
      simp [fullName, hg]
  by_cases h2 : (each (Arb.client join) a c.clients).2 = none
  rotate_left
  · have e : ∀ k : Arb → Arb × Option PyErr, (next (each (Arb.client join) a c.clients) k).2 ≠ none :=
      fun k h => h2 ((next_none _ _).mp h).1
    refine ⟨⟨fun h => absurd h (e _), fun h => absurd (c1.mpr ⟨h.clients, ?_⟩) h2⟩, fun h => absurd h (e _)⟩
    rw [f3, f4, hnames h.clients]
    exact h.clientNames
  rw [next_ok _ _ h2]
  have c5 := c5 h2
  have c1 := c1.mp h2
  rw [f3, f4, hnames c1.1] at c1
  rw [f3, f4, f5] at c5
  rw [f6] at c4
  rw [f7] at c3
  have f2 : ∀ k f, dget ((each (Arb.client join) a c.clients).1.facs k) f = factoryFor imp snake c k f := by
    intro k f; rw [c2]; exact f2 k f
  clear c2 f3 f4 f5 f6 f7 h2
  generalize (each (Arb.client join) a c.clients).1 = b at f2 c3 c4 c5
  -- servers
  obtain ⟨s1, s2⟩ := servers_spec (factoryFor imp snake c .conn) c.servers b (f2 .conn)
  by_cases h3 : (each Arb.server b c.servers).2 = none
  rotate_left
  · have e : ∀ k : Arb → Arb × Option PyErr, (next (each Arb.server b c.servers) k).2 ≠ none :=
      fun k h => h3 ((next_none _ _).mp h).1
    exact ⟨⟨fun h => absurd h (e _), fun h => absurd (s1.mpr h.servers) h3⟩, fun h => absurd h (e _)⟩
  rw [next_ok _ _ h3, s2 h3]
  have s1 := s1.mp h3
  clear s2 h3
  -- tasks
  obtain ⟨t1, t2⟩ := entities_spec .task (factoryFor imp snake c .task) c.tasks
    { b with servers := b.servers ++ c.servers.filterMap (factoryFor imp snake c .conn) } (f2 .task) (by
      show ((b.ents .task).map (·.1)).Nodup
      rw [c3]; simp [Arb.new])
  have t1' : ((b.ents .task).map (·.1) ++ c.tasks.map (·.2)) = "housekeeping" :: c.tasks.map (·.2) := by
    rw [c3]; rfl
  generalize hd : ({ b with servers := b.servers ++ c.servers.filterMap (factoryFor imp snake c .conn) } : Arb) = d at t1 t2
  have hde : d.ents = b.ents := by rw [← hd]
  rw [hde, t1'] at t1
  by_cases h4 : (each (Arb.entity .task) d c.tasks).2 = none
  rotate_left
  · have e : ∀ k : Arb → Arb × Option PyErr, (next (each (Arb.entity .task) d c.tasks) k).2 ≠ none :=
      fun k h => h4 ((next_none _ _).mp h).1
    exact ⟨⟨fun h => absurd h (e _), fun h => absurd (t1.mpr ⟨h.tasks, h.taskNames⟩) h4⟩, fun h => absurd h (e _)⟩
  rw [next_ok _ _ h4, t2 h4]
  have t1 := t1.mp h4
  clear t2 h4
  -- structs
  generalize hg : ({ d with ents := fun j => if j = EKind.task then d.ents .task ++ c.tasks.filterMap (madeEnt (factoryFor imp snake c .task)) else d.ents j } : Arb) = g
  obtain ⟨u1, u2⟩ := entities_spec .struct (factoryFor imp snake c .struct) c.structs g (by
      intro f; rw [← hg, ← hd]; exact f2 .struct f) (by
      rw [← hg, ← hd]
      simp only [reduceCtorEq, if_false]
      rw [c3]; simp [Arb.new])
  have hgs : g.ents .struct = [] := by
    rw [← hg, ← hd]
    simp only [reduceCtorEq, if_false]
    rw [c3]; simp [Arb.new]
  rw [hgs] at u1
  by_cases h5 : (each (Arb.entity .struct) g c.structs).2 = none
  rotate_left
  · have e : ∀ k : Arb → Arb × Option PyErr, (next (each (Arb.entity .struct) g c.structs) k).2 ≠ none :=
      fun k h => h5 ((next_none _ _).mp h).1
    exact ⟨⟨fun h => absurd h (e _), fun h => absurd (u1.mpr ⟨h.structs, h.structNames⟩) h5⟩, fun h => absurd h (e _)⟩
  rw [next_ok _ _ h5, u2 h5]
  have u1 := u1.mp h5
  clear u2 h5
  -- processes
  generalize hk : ({ g with ents := fun j => if j = EKind.struct then g.ents .struct ++ c.structs.filterMap (madeEnt (factoryFor imp snake c .struct)) else g.ents j } : Arb) = k
  have hkp : k.ents .proc = [] := by
    rw [← hk, ← hg, ← hd]
    simp only [reduceCtorEq, if_false]
    rw [c3]; simp [Arb.new]
  obtain ⟨v1, v2⟩ := entities_spec .proc (factoryFor imp snake c .peer) c.procs k (by
      intro f; rw [← hk, ← hg, ← hd]; exact f2 .peer f) (by rw [hkp]; simp)
  rw [hkp] at v1
  constructor
  · rw [v1]
    constructor
    · rintro ⟨v, v'⟩
      exact ⟨f1.1, f1.2, c1.1, c1.2, s1, t1.1, t1.2, u1.1, u1.2, v, v'⟩
    · intro h
      exact ⟨h.procs, h.procNames⟩
  · intro h
    rw [v2 h, hkp, ← hk, ← hg, ← hd]
    refine ⟨f2, ?_, ?_, ?_, ?_, ?_, ?_, ?_⟩
    · show b.conns = _
      rw [c5.1]
      simp [clientsOf, made]
      rfl
    · show b.deferred = _
      rw [c5.2.1]
      simp [clientsOf]
      rfl
    · show b.opened = b.conns.map _
      rw [c5.2.2, c5.1]
      simp
    · show b.servers ++ _ = _
      rw [c4]; rfl
    · simp only [reduceCtorEq, if_false, if_true]
      rw [c3]; rfl
    · simp only [reduceCtorEq, if_false, if_true]
      rw [c3]; rfl
    · simp only [reduceCtorEq, if_false, if_true]
      rfl

/-- A configuration is accepted by a new arbiter exactly when every factory can be imported and is one, factories
of one kind have different names, every client, server, task, struct and process names a factory of its kind, and
names are distinct. -/
theorem C81_accepts (imp : Import) (snake : String → String) (join : List String → String) (c : Conf) :
    (Arb.new.process imp snake join c).2 = none ↔ Accepted imp snake join c :=
  (process_spec imp snake join c).1

/-- What an accepted configuration makes: exactly the clients, servers, tasks, structs and processes that are
listed, in order, each by the first factory of its kind with the given name. Full names of clients start with the
namespaces of the factory; the namespaces of other factories are not used. -/
theorem C81_makes (imp : Import) (snake : String → String) (join : List String → String) (c : Conf)
    (h : Accepted imp snake join c) : Holds imp snake join c (Arb.new.process imp snake join c).1 :=
  (process_spec imp snake join c).2 ((process_spec imp snake join c).1.mpr h)

/-- Listing a factory again, with whatever namespaces, changes nothing. -/
theorem C81_twice (imp : Import) (snake : String → String) (join : List String → String) (a : Arb) (c : Conf)
    (x : String × List String) (hx : x.1 ∈ c.factories.map (·.1)) :
    a.process imp snake join { c with factories := c.factories ++ [x] } = a.process imp snake join c := by
  unfold Arb.process
  dsimp only
  rw [factory_firsts, factory_firsts]
  have e : ∀ xs : List (String × List String), x.1 ∈ xs.map (·.1) → firsts (xs ++ [x]) = firsts xs := by
    intro xs hx
    have hsnoc : ∀ ys : List (String × List String), ∀ p : String, x.1 = p →
        (firsts (ys ++ [x])).filter (fun y => y.1 ≠ p) = (firsts ys).filter (fun y => y.1 ≠ p) := by
      intro ys p hp
      induction ys with
      | nil => simp [firsts, hp]
      | cons y ys ih =>
        simp only [List.cons_append, firsts, List.filter_cons, List.filter_filter]
        have comm : ∀ l : List (String × List String), l.filter (fun z => decide (z.1 ≠ p) && decide (z.1 ≠ y.1))
            = (l.filter (fun z => z.1 ≠ p)).filter (fun z => z.1 ≠ y.1) := by
          intro l
          rw [List.filter_filter]
          apply List.filter_congr
          intro z _
          rw [Bool.and_comm]
        rw [comm, comm, ih]
    induction xs with
    | nil => cases hx
    | cons y xs ih =>
      simp only [List.cons_append, firsts]
      rw [List.map_cons, List.mem_cons] at hx
      by_cases hy : x.1 = y.1
      · rw [hsnoc xs y.1 hy]
      · rw [ih (hx.resolve_left hy)]
  rw [e _ hx]

/-- Nothing is undone when a later entry fails: with one process of an unknown factory at the end, the assertion
fails but the arbiter holds everything the configuration made before. -/
theorem C81_undone_fails (imp : Import) (snake : String → String) (join : List String → String) (c : Conf)
    (h : Accepted imp snake join c) (x : String × String) (hx : factoryFor imp snake c .peer x.1 = none) :
    Arb.new.process imp snake join { c with procs := c.procs ++ [x] }
      = ((Arb.new.process imp snake join c).1, some .assertion) ∧
    Holds imp snake join c (Arb.new.process imp snake join { c with procs := c.procs ++ [x] }).1 := by
  have hok := (C81_accepts imp snake join c).mpr h
  have hh := C81_makes imp snake join c h
  have key : Arb.new.process imp snake join { c with procs := c.procs ++ [x] }
      = ((Arb.new.process imp snake join c).1, some .assertion) := by
    unfold Arb.process at hok hh ⊢
    dsimp only
    generalize unseen (each (Arb.factory imp snake) (Arb.new, []) c.factories) = r1 at hok hh ⊢
    have k1 := ((next_none _ _).mp hok).1
    rw [next_ok _ _ k1] at hok hh
    rw [next_ok _ _ k1, next_ok _ _ k1]
    generalize each (Arb.client join) r1.1 c.clients = r2 at hok hh ⊢
    have k2 := ((next_none _ _).mp hok).1
    rw [next_ok _ _ k2] at hok hh
    rw [next_ok _ _ k2, next_ok _ _ k2]
    generalize each Arb.server r2.1 c.servers = r3 at hok hh ⊢
    have k3 := ((next_none _ _).mp hok).1
    rw [next_ok _ _ k3] at hok hh
    rw [next_ok _ _ k3, next_ok _ _ k3]
    generalize each (Arb.entity .task) r3.1 c.tasks = r4 at hok hh ⊢
    have k4 := ((next_none _ _).mp hok).1
    rw [next_ok _ _ k4] at hok hh
    rw [next_ok _ _ k4, next_ok _ _ k4]
    generalize each (Arb.entity .struct) r4.1 c.structs = r5 at hok hh ⊢
    have k5 := ((next_none _ _).mp hok).1
    rw [next_ok _ _ k5] at hok hh
    rw [next_ok _ _ k5, next_ok _ _ k5]
    rw [each_append _ _ _ _ hok]
    have : dget ((each (Arb.entity .proc) r5.1 c.procs).1.facs .peer) x.1 = none := (hh.facs .peer x.1).trans hx
    simp only [each, Arb.entity, EKind.by, this]
  exact ⟨key, by rw [key]; exact hh⟩

/-- A client whose full name is taken is refused after its connection was opened: the connection is open but
known to nobody. -/
theorem C81_leak_fails (imp : Import) (snake : String → String) (join : List String → String) (c : Conf)
    (h : Accepted imp snake join c) (x : Client) (hx : x ∈ c.clients) (hd : x.defer = false) :
    (Arb.new.process imp snake join { c with clients := c.clients ++ [x] }).2 = some .assertion ∧
    (Arb.new.process imp snake join { c with clients := c.clients ++ [x] }).1.conns = clientsOf imp snake join c false ∧
    (Arb.new.process imp snake join { c with clients := c.clients ++ [x] }).1.opened
      = (clientsOf imp snake join c false).map (·.1) ++ [fullName imp snake join c x] := by
  obtain ⟨f1, f2, f3, f4, f5, f6, f7⟩ := stage_factories imp snake c
  have h1 := f1.mpr ⟨h.known, h.apart⟩
  have f2 := f2 h1
  have hok := (C81_accepts imp snake join c).mpr h
  have hh := C81_makes imp snake join c h
  unfold Arb.process at hok ⊢
  dsimp only
  rw [next_ok _ _ h1] at hok ⊢
  generalize (unseen (each (Arb.factory imp snake) (Arb.new, []) c.factories)).1 = a at f2 f3 f4 f5 f6 f7 hok
  have h2 := ((next_none _ _).mp hok).1
  obtain ⟨c1, c2, c3, c4, c5⟩ := clients_spec join (factoryFor imp snake c .conn) c.clients a (f2 .conn) (by
    rw [f3, f4]; simp)
  obtain ⟨d1, d2, d3⟩ := c5 h2
  rw [f3] at d1; rw [f5] at d3
  obtain ⟨g, hg⟩ := Option.isSome_iff_exists.mp (h.clients x hx)
  have hfull : fullName imp snake join c x = join (g.ns ++ [x.name]) := by simp [fullName, hg]
  have hmem : join (g.ns ++ [x.name]) ∈ (each (Arb.client join) a c.clients).1.conns.map (·.1) := by
    rw [d1, List.nil_append]
    refine List.mem_map.mpr ⟨(join (g.ns ++ [x.name]), g), List.mem_filterMap.mpr ⟨x, ?_, ?_⟩, rfl⟩
    · exact List.mem_filter.mpr ⟨hx, by simp [hd]⟩
    · simp [made, hg]
  have hcl : clientsOf imp snake join c false
      = (c.clients.filter (fun c => !c.defer)).filterMap (made (factoryFor imp snake c .conn) join) := by
    simp only [clientsOf, Bool.decide_eq_false]
    rfl
  have key : each (Arb.client join) a (c.clients ++ [x])
      = ({ (each (Arb.client join) a c.clients).1 with opened := (each (Arb.client join) a c.clients).1.opened ++ [join (g.ns ++ [x.name])] }, some .assertion) := by
    rw [each_append _ _ _ _ h2]
    have hget : dget ((each (Arb.client join) a c.clients).1.facs .conn) x.factory = some g := by
      rw [c2, f2, hg]
    have hhas := (has_iff _ _).mpr hmem
    simp only [each, Arb.client, hget, hd, Bool.false_eq_true, if_false, hhas, Bool.true_or, if_true]
  rw [next_err _ _ .assertion (by rw [key]), key]
  refine ⟨rfl, ?_, ?_⟩
  · show (each (Arb.client join) a c.clients).1.conns = _
    rw [d1, hcl]; rfl
  · show (each (Arb.client join) a c.clients).1.opened ++ _ = _
    rw [d3, hcl, hfull]; rfl

/-- A second path for a class of the same name: an assertion for connections and tasks, but a `TypeError` for
structs and peer processes, whose class is called without its arguments. -/
theorem C81_clash_fails (imp : Import) (snake : String → String) (join : List String → String) (c : Conf)
    (h : Accepted imp snake join c) (x y : String × List String) (hx : x ∈ c.factories)
    (hy : y.1 ∉ c.factories.map (·.1)) (cls : String) (k : FKind) (hk : imp x.1 = .ok (cls, some k))
    (hk' : imp y.1 = .ok (cls, some k)) :
    (Arb.new.process imp snake join { c with factories := c.factories ++ [y] }).2
      = some (if k = .struct ∨ k = .peer then .type else .assertion) := by
  obtain ⟨f1, f2, -⟩ := stage_factories imp snake c
  have h1 := f1.mpr ⟨h.known, h.apart⟩
  have f2 := f2 h1
  have e : ∀ xs : List (String × List String), y.1 ∉ xs.map (·.1) → firsts (xs ++ [y]) = firsts xs ++ [y] := by
    intro xs
    induction xs with
    | nil => intro _; rfl
    | cons z xs ih =>
      intro hy
      rw [List.map_cons, List.mem_cons, not_or] at hy
      simp only [List.cons_append, firsts, ih hy.2, List.filter_append, List.cons.injEq, true_and]
      simp [hy.1]
  have hf : ∀ xs : List (String × List String), xs.filter (fun y => y.1 ∉ ([] : List String)) = xs := by
    intro xs
    rw [List.filter_eq_self]; simp
  have hsome : (factoryFor imp snake c k cls).isSome := by
    rw [factoryFor, List.findSome?_isSome_iff]
    exact ⟨x, hx, by simp [entryFor, hk]⟩
  unfold Arb.process
  dsimp only
  rw [factory_firsts, hf] at h1 f2
  have key : (unseen (each (Arb.factory imp snake) (Arb.new, []) (c.factories ++ [y]))).2
      = some (if k = .struct ∨ k = .peer then .type else .assertion) := by
    rw [factory_firsts, hf, e _ hy, each_append _ _ _ _ h1]
    have hhas : has ((each (Arb.registerModule imp snake) Arb.new (firsts c.factories)).1.facs k) cls = true := by
      unfold has; rw [f2]; exact hsome
    simp only [each, Arb.registerModule, hk', Arb.registerFactory, hhas, Bool.true_or, if_true]
  rw [next_err _ _ _ key, key]

/-! ### Files -/

/-- `list_adder`, config/util.py 15–21. -/
def listAdd {α : Type} (l : List α) (x : α) (front : Bool) : List α := if front then l ++ [x] else x :: l

/-- `add_search_package`, config/__init__.py 54–60. -/
def addPackage (pkgs : List String) (name : String) (front : Bool) : List String :=
  let name := name.map (fun c => if c = '-' then '_' else c)
  if name ∈ pkgs then pkgs else listAdd pkgs name front

/-- Where a path is found, config/__init__.py 72–88: as it is, else in the search packages in order. -/
def locate (direct : String → Option String) (inPkg : String → String → Option String) (pkgs : List String) (p : String) :
    Option String :=
  (direct p).or (pkgs.findSome? (fun k => inPkg k p))

/-- One round of the loop over paths, config/__init__.py 70–101: the resolved files that were merged. -/
def loadFile (find : String → Option String) (loaded : List String) (p : String) : List String × Option PyErr :=
  match find p with
  | none => (loaded, some .assertion)
  | some f => if f ∈ loaded then (loaded, none) else (loaded ++ [f], none)

theorem loadFiles_spec (find : String → Option String) (ps : List String) (l : List String) (hl : l.Nodup) :
    ((each (loadFile find) l ps).2 = none ↔ ∀ p ∈ ps, (find p).isSome) ∧
    (each (loadFile find) l ps).1.Nodup ∧ l <+: (each (loadFile find) l ps).1 ∧
    ((each (loadFile find) l ps).2 = none → ∀ f, f ∈ (each (loadFile find) l ps).1 ↔ f ∈ l ∨ ∃ p ∈ ps, find p = some f) := by
  induction ps generalizing l with
  | nil => simp [each, hl]
  | cons p ps ih =>
    cases hf : find p with
    | none =>
      have e : each (loadFile find) l (p :: ps) = (l, some .assertion) := by simp [each, loadFile, hf]
      rw [e]
      refine ⟨?_, hl, List.prefix_refl _, fun h => by cases h⟩
      constructor
      · intro h; cases h
      · intro h
        have := h p List.mem_cons_self
        rw [hf] at this
        cases this
    | some f =>
      by_cases hm : f ∈ l
      · have e : each (loadFile find) l (p :: ps) = each (loadFile find) l ps := by simp [each, loadFile, hf, hm]
        rw [e]
        obtain ⟨i1, i2, i3, i4⟩ := ih l hl
        refine ⟨by rw [i1]; simp [hf], i2, i3, fun h g => ?_⟩
        clear e
        rw [i4 h]
        constructor
        · rintro (h | ⟨q, hq, e⟩)
          · exact Or.inl h
          · exact Or.inr ⟨q, List.mem_cons_of_mem _ hq, e⟩
        · rintro (h | ⟨q, hq, e⟩)
          · exact Or.inl h
          · rcases List.mem_cons.mp hq with rfl | hq
            · rw [hf] at e
              exact Or.inl (Option.some.inj e ▸ hm)
            · exact Or.inr ⟨q, hq, e⟩
      · have e : each (loadFile find) l (p :: ps) = each (loadFile find) (l ++ [f]) ps := by simp [each, loadFile, hf, hm]
        rw [e]
        obtain ⟨i1, i2, i3, i4⟩ := ih (l ++ [f]) (by
          rw [List.nodup_append]
          refine ⟨hl, by simp, ?_⟩
          rintro x hx y hy rfl
          exact hm (List.mem_singleton.mp hy ▸ hx))
        refine ⟨by rw [i1]; simp [hf], i2, (List.prefix_append _ _).trans i3, fun h g => ?_⟩
        clear e
        rw [i4 h, List.mem_append, List.mem_singleton]
        constructor
        · rintro ((h | rfl) | ⟨q, hq, e⟩)
          · exact Or.inl h
          · exact Or.inr ⟨p, List.mem_cons_self, hf⟩
          · exact Or.inr ⟨q, List.mem_cons_of_mem _ hq, e⟩
        · rintro (h | ⟨q, hq, e⟩)
          · exact Or.inl (Or.inl h)
          · rcases List.mem_cons.mp hq with rfl | hq
            · rw [hf] at e
              exact Or.inl (Or.inr (Option.some.inj e).symm)
            · exact Or.inr ⟨q, hq, e⟩

/-- Loading succeeds exactly when every path is found. Then each file found is merged once, whatever paths lead to
it, and files of earlier paths are merged before those only later paths lead to. -/
theorem C81_files (find : String → Option String) (ps : List String) :
    ((each (loadFile find) [] ps).2 = none ↔ ∀ p ∈ ps, (find p).isSome) ∧
    (each (loadFile find) [] ps).1.Nodup ∧
    ((each (loadFile find) [] ps).2 = none → ∀ f, f ∈ (each (loadFile find) [] ps).1 ↔ ∃ p ∈ ps, find p = some f) ∧
    (∀ qs, (each (loadFile find) [] ps).2 = none →
      (each (loadFile find) [] ps).1 <+: (each (loadFile find) [] (ps ++ qs)).1) := by
  obtain ⟨i1, i2, -, i4⟩ := loadFiles_spec find ps [] .nil
  refine ⟨i1, i2, fun h f => by rw [i4 h]; simp, fun qs h => ?_⟩
  rw [each_append _ _ _ _ h]
  exact (loadFiles_spec find qs _ i2).2.2.1

/-- A package added to the front of the search packages comes last: where an earlier package has a file, adding
another package "to the front" never changes what is found, and only one added "to the back" overrides it. -/
theorem C81_front_fails (direct : String → Option String) (inPkg : String → String → Option String) (pkgs : List String)
    (name p : String) (hn : name.map (fun c => if c = '-' then '_' else c) ∉ pkgs)
    (hp : ∃ q ∈ pkgs, (inPkg q p).isSome) :
    locate direct inPkg (addPackage pkgs name true) p = locate direct inPkg pkgs p ∧
    (direct p = none → ∀ f, inPkg (name.map (fun c => if c = '-' then '_' else c)) p = some f →
      locate direct inPkg (addPackage pkgs name false) p = some f) := by
  unfold addPackage locate listAdd
  dsimp only
  rw [if_neg hn, if_neg hn, if_pos rfl, if_neg (by simp)]
  constructor
  · rw [List.findSome?_append]
    have : (pkgs.findSome? (fun k => inPkg k p)).isSome := List.findSome?_isSome_iff.mpr hp
    obtain ⟨g, hg⟩ := Option.isSome_iff_exists.mp this
    rw [hg]; rfl
  · intro hd f hf
    rw [hd, List.findSome?_cons, hf]; rfl

/-! ### Configuration data -/

/-- The merged data of the files: `config` apart from the rest. -/
structure Data (J : Type) where
  items : List (String × J)
  config : Option (List (String × J))

/-- The configuration of an arbiter, `_config`: its own items and the data under `root`. -/
structure Cfg (J : Type) where
  own : List (String × J)
  root : Option (Data J)

/-- The end of `load_configs`, config/__init__.py 123–133, with what `process_config` raised before its last
lines, and those, 226–231. -/
def Cfg.load {J : Type} (s : Cfg J) (d : Data J) (r : Option PyErr) : Cfg J × Option PyErr :=
  if s.root.isSome || has s.own "root" then (s, some .assertion)
  else
    match r with
    | some e => ({ s with root := some d }, some e)
    | none =>
      match d.config with
      | none => ({ s with root := some d }, none)
      | some c => if has c "root" then (⟨c, none⟩, some .assertion) else (⟨c, some d⟩, none)

/-- `original_config`, net/arbiter/info.py 291–306: what is under `config` and the rest. -/
def Cfg.original {J : Type} (s : Cfg J) : List (String × J) × List (String × J) :=
  (s.own.filter (fun x => x.1 ≠ "root"), (s.root.map Data.items).getD [])

/-- `config_param`, net/arbiter/info.py 308–321. Simplification: configurations hold no `root` of their own, and
the key asked for is not `root`. -/
def Cfg.param {J : Type} (s : Cfg J) (key : String) (dflt : J) (strict : Bool) : Cfg J × Except PyErr J :=
  match s.root with
  | none => (s, .error .key)
  | some d =>
    let c := d.config.getD []
    let s := { s with root := some { d with config := some c } }
    if strict && !has c key then (s, .error .assertion) else (s, .ok ((dget c key).getD dflt))

/-- Loaded data can be had back: the original configuration is the data of the files, and a parameter is what the
files say under `config`, else the default, unless it has to be there. -/
theorem C81_param {J : Type} (own : List (String × J)) (ho : has own "root" = false) (d : Data J)
    (c : List (String × J)) (hc : d.config = some c) (hr : has c "root" = false) :
    ((Cfg.mk own none).load d none).2 = none ∧
    ((Cfg.mk own none).load d none).1.original = (c, d.items) ∧
    ∀ key dflt strict, ((Cfg.mk own none).load d none).1.param key dflt strict
      = (((Cfg.mk own none).load d none).1,
          (dget c key).elim (if strict then .error .assertion else .ok dflt) .ok) := by
  have e : (Cfg.mk own none).load d none = (⟨c, some d⟩, none) := by simp [Cfg.load, ho, hc, hr]
  rw [e]
  refine ⟨rfl, ?_, ?_⟩
  · simp only [Cfg.original, Option.map_some, Option.getD_some, Prod.mk.injEq, and_true]
    rw [List.filter_eq_self]
    intro x hx
    have : x.1 ≠ "root" := by
      intro h
      have hm : "root" ∈ c.map (·.1) := List.mem_map.mpr ⟨x, hx, h⟩
      rw [(has_iff c "root").mpr hm] at hr
      cases hr
    simp [this]
  · intro key dflt strict
    obtain ⟨it, cf⟩ := d
    dsimp only at hc
    subst hc
    simp only [Cfg.param, Option.getD_some, has]
    obtain hk | ⟨v, hk⟩ := Option.eq_none_or_eq_some (dget c key)
    · cases strict <;> simp [hk]
    · simp [hk]

/-- Without `config` in the files, the configuration an arbiter was made with is in the original configuration but
no parameter comes from it: always the default, or an assertion. -/
theorem C81_given_fails {J : Type} (own : List (String × J)) (ho : has own "root" = false) (d : Data J)
    (hc : d.config = none) :
    ((Cfg.mk own none).load d none).2 = none ∧
    ((Cfg.mk own none).load d none).1.original = (own, d.items) ∧
    ∀ key dflt strict, (((Cfg.mk own none).load d none).1.param key dflt strict).2
      = if strict then .error .assertion else .ok dflt := by
  have e : (Cfg.mk own none).load d none = (⟨own, some d⟩, none) := by simp [Cfg.load, ho, hc]
  rw [e]
  refine ⟨rfl, ?_, ?_⟩
  · simp only [Cfg.original, Option.map_some, Option.getD_some, Prod.mk.injEq, and_true]
    rw [List.filter_eq_self]
    intro x hx
    have : x.1 ≠ "root" := by
      intro h
      have hm : "root" ∈ own.map (·.1) := List.mem_map.mpr ⟨x, hx, h⟩
      rw [(has_iff own "root").mpr hm] at ho
      cases ho
    simp [this]
  · intro key dflt strict
    cases strict <;> simp [Cfg.param, hc, has, dget_nil]

/-- Before anything is loaded even a parameter with a default is a `KeyError`. -/
theorem C81_unloaded_fails {J : Type} (own : List (String × J)) (key : String) (dflt : J) (strict : Bool) :
    ((Cfg.mk own none).param key dflt strict).2 = .error .key := rfl

/-- An arbiter loads configurations once: after a load, be it one that raised, every other load is refused and
changes nothing. -/
theorem C81_reload_fails {J : Type} (s : Cfg J) (d : Data J) (r : Option PyErr) (d' : Data J) (r' : Option PyErr) :
    (s.load d r).1.load d' r' = ((s.load d r).1, some .assertion) := by
  unfold Cfg.load
  by_cases h : (s.root.isSome || has s.own "root") = true
  · simp only [h, if_true]
  · rw [if_neg h]
    cases r with
    | some e => simp
    | none =>
      cases hc : d.config with
      | none => simp
      | some c => by_cases hr : has c "root" = true <;> simp [hr]

/-! ### Cases -/

/-- Modules of the cases. -/
def exImp : Import
  | "net.Json" => .ok ("Json", some .conn)
  | "net.Udp" => .ok ("Udp", some .conn)
  | "tasks.Sine" => .ok ("SinTask", some .task)
  | "structs.Ui" => .ok ("UiState", some .struct)
  | "other.Ui" => .ok ("UiState", some .struct)
  | "procs.Peer" => .ok ("Sample", some .peer)
  | "plain" => .ok ("Plain", none)
  | _ => .error .value

def exSnake : String → String
  | "Json" => "json"
  | "Udp" => "udp"
  | "SinTask" => "sin_task"
  | "UiState" => "ui_state"
  | "Sample" => "sample"
  | s => s

def exJoin (l : List String) : String := ".".intercalate l

def exConf : Conf where
  factories := [("net.Json", ["a"]), ("net.Udp", []), ("tasks.Sine", ["t"]), ("net.Json", ["b"]), ("structs.Ui", [])]
  clients := [⟨"json", "x", false⟩, ⟨"Udp", "x", false⟩, ⟨"Json", "late", true⟩]
  servers := ["json"]
  tasks := [("SinTask", "s1"), ("sin_task", "s2")]
  structs := [("ui_state", "ui")]
  procs := []

theorem C81_cases :
    (Arb.new.process exImp exSnake exJoin exConf).2 = none ∧
    (Arb.new.process exImp exSnake exJoin exConf).1.conns = [("a.x", ⟨"Json", ["a"]⟩), ("x", ⟨"Udp", []⟩)] ∧
    (Arb.new.process exImp exSnake exJoin exConf).1.deferred = [("a.late", ⟨"Json", ["a"]⟩)] ∧
    ((Arb.new.process exImp exSnake exJoin exConf).1.ents .task).map (·.1) = ["housekeeping", "s1", "s2"] ∧
    (Arb.new.process exImp exSnake exJoin { exConf with factories := exConf.factories ++ [("other.Ui", [])] }).2
      = some .type ∧
    (Arb.new.process exImp exSnake exJoin { exConf with tasks := [("SinTask", "housekeeping")] }).2 = some .assertion ∧
    (Arb.new.process exImp exSnake exJoin { exConf with factories := [("nowhere", [])] }).2 = some .value ∧
    (each (loadFile (fun p => if p = "a" ∨ p = "./a" then some "/a" else if p = "b" then some "/b" else none)) []
      ["a", "b", "./a"]) = (["/a", "/b"], none) ∧
    addPackage ["runtimepy"] "my-app" true = ["runtimepy", "my_app"] ∧
    ((Cfg.mk [("x", 5)] none).load ⟨[], none⟩ none).1.original.1 = [("x", 5)] ∧
    (((Cfg.mk [("x", 5)] none).load ⟨[], none⟩ none).1.param "x" 0 false).2.toOption = some 0 := by
  refine ⟨?_, ?_, ?_, ?_, ?_, ?_, ?_, ?_, ?_, ?_, ?_⟩ <;> first | rfl | decide +kernel

end Verif.Arbiter.Config
