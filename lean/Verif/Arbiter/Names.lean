import Verif.Base
import Verif.Dict

/-!
C74: names of connections, structs, tasks and processes in an application (net/arbiter/base.py 153–219 and
231–277, net/arbiter/imports/__init__.py 99–133, task/basic/manager.py 27–34) and the global environments
they are registered as (channel/environment/command/__init__.py 224–258).

An environment (the command processor of an entity) is a number; two entities are the same object when
their numbers agree.
-/
namespace Verif.Arbiter.Names

abbrev Reg := List (String × Nat)

/-- A process: the environments registered as `name.host` and `name.peer` once both sides have exchanged
theirs, which may not happen (subprocess/interface.py 105–132, subprocess/peer.py 79–83). -/
structure Proc where
  host : Nat
  peer : Nat
  shared : Bool
  deriving DecidableEq

structure App where
  conns : Reg
  deferred : Reg
  structs : Reg
  tasks : Reg
  procs : List (String × Proc)
  queue : List Nat
  deriving DecidableEq

/-- A new arbiter has its housekeeping task (base.py 107–112). -/
def App.new (hk : Nat) : App := ⟨[], [], [], [("housekeeping", hk)], [], []⟩

/-- Registrations; `name` is the full name, with its namespaces. -/
inductive Op where
  | conn (name : String) (e : Nat) (defer : Bool)
  | struct (name : String) (e : Nat)
  | task (name : String) (e : Nat)
  | proc (name : String) (p : Proc)
  deriving DecidableEq

def has {β : Type} (d : List (String × β)) (n : String) : Bool := (dget d n).isSome

/-- `register_connection`, base.py 160–184; `factory_struct`, `factory_process`, imports/__init__.py
99–133; `PeriodicTaskManager.register`, manager.py 27–34. -/
def step (a : App) : Op → App × Bool
  | .conn n e d =>
    if !has a.conns n && !has a.deferred n then
      if d then ({ a with deferred := a.deferred ++ [(n, e)] }, true)
      else ({ a with conns := a.conns ++ [(n, e)], queue := a.queue ++ [e] }, true)
    else (a, false)
  | .struct n e => if has a.structs n then (a, false) else ({ a with structs := a.structs ++ [(n, e)] }, true)
  | .task n e => if has a.tasks n then (a, false) else ({ a with tasks := a.tasks ++ [(n, e)] }, true)
  | .proc n p => if has a.procs n then (a, false) else ({ a with procs := a.procs ++ [(n, p)] }, true)

def run (a : App) (ops : List Op) : App := ops.foldl (fun a o => (step a o).1) a

/-- `GlobalEnvironment.register`, command/__init__.py 228–239. -/
def register (g : Reg) (n : String) (e : Nat) : Except PyErr Reg :=
  match dget g n with
  | some e' => if e' = e then .ok g else .error .assertion
  | none => .ok (g ++ [(n, e)])

def registerAll (g : Reg) : List (String × Nat) → Except PyErr Reg
  | [] => .ok g
  | (n, e) :: l =>
    match register g n e with
    | .error x => .error x
    | .ok g' => registerAll g' l

/-- `_start_processes`: the exchange of environments with a peer runs with AssertionErrors suppressed
(peer.py 79–83), so a name that is taken goes unnoticed. -/
def startProcs (g : Reg) : List (String × Proc) → Reg
  | [] => g
  | (n, p) :: l =>
    if p.shared then
      match register g (n ++ ".host") p.host with
      | .error _ => startProcs g l
      | .ok g' =>
        match register g' (n ++ ".peer") p.peer with
        | .error _ => startProcs g' l
        | .ok g'' => startProcs g'' l
    else startProcs g l

/-- `_init_connections`, 206–219: deferred connections are registered in order. -/
def initConns (a : App) : App :=
  { a with
    conns := a.deferred.foldl (fun c p => dset c p.1 p.2) a.conns
    queue := a.queue ++ a.deferred.map (·.2) }

/-- The first part of `_main`, 248–277: the global environments are cleared, then processes, connections,
structs and tasks are registered. -/
def start (a : App) : App × Except PyErr Reg :=
  let b := initConns a
  (b, registerAll (startProcs [] a.procs) (b.conns ++ b.structs ++ b.tasks))

/-! ### Registration -/

theorem has_iff {β : Type} (d : List (String × β)) (n : String) : has d n = true ↔ n ∈ d.map (·.1) := by
  rw [has, ← dget_isSome]
  simp [List.any_eq_true]

theorem has_false {β : Type} (d : List (String × β)) (n : String) : has d n = false ↔ n ∉ d.map (·.1) := by
  rw [← has_iff]; simp

/-- Names are unique within each kind; connections share theirs with the deferred ones. -/
structure Inv (a : App) : Prop where
  conns : ((a.conns ++ a.deferred).map (·.1)).Nodup
  structs : (a.structs.map (·.1)).Nodup
  tasks : (a.tasks.map (·.1)).Nodup
  procs : (a.procs.map (·.1)).Nodup
  queue : a.queue = a.conns.map (·.2)

theorem nodup_snoc {α : Type} (l : List α) (x : α) (h : l.Nodup) (hx : x ∉ l) : (l ++ [x]).Nodup := by
  refine List.nodup_append.mpr ⟨h, by simp, ?_⟩
  intro a ha b hb
  simp only [List.mem_singleton] at hb
  rw [hb]
  exact fun e => hx (e ▸ ha)

theorem step_inv (a : App) (o : Op) (h : Inv a) : Inv (step a o).1 := by
  obtain ⟨h1, h2, h3, h4, h5⟩ := h
  cases o with
  | conn n e d =>
    simp only [step]
    by_cases hn : (!has a.conns n && !has a.deferred n) = true
    · rw [if_pos hn]
      simp only [Bool.and_eq_true, Bool.not_eq_true'] at hn
      have hc := (has_false _ _).mp hn.1
      have hd := (has_false _ _).mp hn.2
      have hx : n ∉ (a.conns ++ a.deferred).map (·.1) := by
        simp only [List.map_append, List.mem_append]
        exact fun hh => hh.elim hc hd
      cases d with
      | true =>
        refine ⟨?_, h2, h3, h4, h5⟩
        show ((a.conns ++ (a.deferred ++ [(n, e)])).map (·.1)).Nodup
        rw [← List.append_assoc, List.map_append]
        exact nodup_snoc _ _ h1 hx
      | false =>
        refine ⟨?_, h2, h3, h4, by simp [h5]⟩
        show ((a.conns ++ [(n, e)] ++ a.deferred).map (·.1)).Nodup
        have hp : List.Perm ((a.conns ++ [(n, e)] ++ a.deferred).map (·.1)) ((a.conns ++ a.deferred).map (·.1) ++ [n]) := by
          simp only [List.map_append, List.map_cons, List.map_nil, List.append_assoc]
          exact (List.perm_append_comm (l₁ := [n])).append_left _
        rw [hp.nodup_iff]
        exact nodup_snoc _ _ h1 hx
    · rw [if_neg hn]; exact ⟨h1, h2, h3, h4, h5⟩
  | struct n e =>
    simp only [step]
    by_cases hn : has a.structs n = true
    · rw [if_pos hn]; exact ⟨h1, h2, h3, h4, h5⟩
    · rw [if_neg hn]
      refine ⟨h1, ?_, h3, h4, h5⟩
      dsimp only
      rw [List.map_append]
      exact nodup_snoc _ _ h2 (fun hh => hn ((has_iff _ _).mpr hh))
  | task n e =>
    simp only [step]
    by_cases hn : has a.tasks n = true
    · rw [if_pos hn]; exact ⟨h1, h2, h3, h4, h5⟩
    · rw [if_neg hn]
      refine ⟨h1, h2, ?_, h4, h5⟩
      dsimp only
      rw [List.map_append]
      exact nodup_snoc _ _ h3 (fun hh => hn ((has_iff _ _).mpr hh))
  | proc n p =>
    simp only [step]
    by_cases hn : has a.procs n = true
    · rw [if_pos hn]; exact ⟨h1, h2, h3, h4, h5⟩
    · rw [if_neg hn]
      refine ⟨h1, h2, h3, ?_, h5⟩
      dsimp only
      rw [List.map_append]
      exact nodup_snoc _ _ h4 (fun hh => hn ((has_iff _ _).mpr hh))

theorem new_inv (hk : Nat) : Inv (App.new hk) := ⟨by simp [App.new], by simp [App.new], by simp [App.new], by simp [App.new], rfl⟩

theorem run_inv (a : App) (ops : List Op) (h : Inv a) : Inv (run a ops) := by
  induction ops generalizing a with
  | nil => exact h
  | cons o ops ih => exact ih _ (step_inv a o h)

/-- The entities an application has, by kind. -/
inductive Kind where
  | conn | struct | task
  deriving DecidableEq

/-- The entity of a kind and name; a deferred connection counts. -/
def entity (a : App) : Kind → String → Option Nat
  | .conn, n => dget (a.conns ++ a.deferred) n
  | .struct, n => dget a.structs n
  | .task, n => dget a.tasks n

def Op.target : Op → Option (Kind × String × Nat)
  | .conn n e _ => some (.conn, n, e)
  | .struct n e => some (.struct, n, e)
  | .task n e => some (.task, n, e)
  | .proc _ _ => none

theorem dget_snoc (d : Reg) (n m : String) (e : Nat) (h : n ∉ d.map (·.1)) :
    dget (d ++ [(n, e)]) m = if n = m then some e else dget d m := by
  rw [dget_append, dget_cons, dget_nil]
  by_cases hm : n = m
  · subst hm
    have : dget d n = none := by
      cases hd : dget d n with
      | none => rfl
      | some v => exact absurd ((has_iff d n).mp (by rw [has, hd]; rfl)) h
    simp [this]
  · simp [hm]

theorem dget_none_of (d : Reg) (n : String) (h : n ∉ d.map (·.1)) : dget d n = none := by
  cases hd : dget d n with
  | none => rfl
  | some v => exact absurd ((has_iff d n).mp (by rw [has, hd]; rfl)) h

theorem step_entity (a : App) (o : Op) (k : Kind) (n : String) :
    entity (step a o).1 k n =
      match o.target with
      | some (k', n', e) => if (step a o).2 = true ∧ k' = k ∧ n' = n then some e else entity a k n
      | none => entity a k n := by
  cases o with
  | conn m e d =>
    by_cases hn : (!has a.conns m && !has a.deferred m) = true
    · simp only [step, Op.target, hn, if_true]
      simp only [Bool.and_eq_true, Bool.not_eq_true'] at hn
      have hc := (has_false _ _).mp hn.1
      have hd := (has_false _ _).mp hn.2
      have hx : m ∉ (a.conns ++ a.deferred).map (·.1) := by
        simp only [List.map_append, List.mem_append]
        exact fun hh => hh.elim hc hd
      cases k with
      | conn =>
        cases d with
        | true =>
          simp only [entity, if_true, true_and]
          rw [← List.append_assoc, dget_snoc _ _ _ _ hx]
        | false =>
          simp only [entity, if_false, true_and, Bool.false_eq_true]
          rw [dget_append, dget_snoc _ _ _ _ hc, dget_append]
          by_cases hm : m = n
          · simp [hm]
          · simp [hm]
      | struct => cases d <;> simp [entity]
      | task => cases d <;> simp [entity]
    · simp only [step, Op.target, hn]; simp
  | struct m e =>
    by_cases hn : has a.structs m = true
    · simp only [step, Op.target, hn]; simp
    · simp only [step, Op.target, hn, if_false, Bool.false_eq_true]
      cases k with
      | struct =>
        simp only [entity, true_and]
        rw [dget_snoc _ _ _ _ (fun hh => hn ((has_iff _ _).mpr hh))]
      | conn => simp [entity]
      | task => simp [entity]
  | task m e =>
    by_cases hn : has a.tasks m = true
    · simp only [step, Op.target, hn]; simp
    · simp only [step, Op.target, hn, if_false, Bool.false_eq_true]
      cases k with
      | task =>
        simp only [entity, true_and]
        rw [dget_snoc _ _ _ _ (fun hh => hn ((has_iff _ _).mpr hh))]
      | conn => simp [entity]
      | struct => simp [entity]
  | proc m p =>
    simp only [step, Op.target]
    split
    · rfl
    · cases k <;> rfl

/-- A registration is accepted exactly when its name is free within its kind. -/
theorem step_accepts (a : App) (o : Op) (k : Kind) (n : String) (e : Nat) (ho : o.target = some (k, n, e)) :
    (step a o).2 = true ↔ entity a k n = none := by
  cases o with
  | conn m e' d =>
    cases ho
    rcases hc : dget a.conns n with _ | c <;> rcases hd : dget a.deferred n with _ | c' <;> cases d <;>
      simp [step, entity, has, hc, hd, dget_append]
  | struct m e' =>
    cases ho
    rcases hc : dget a.structs n with _ | c <;> simp [step, entity, has, hc]
  | task m e' =>
    cases ho
    rcases hc : dget a.tasks n with _ | c <;> simp [step, entity, has, hc]
  | proc m p => cases ho

/-- C74. A registration succeeds exactly when no entity of its kind has the name, and then the name is its
own for good, whatever else is registered; one that is refused changes nothing. -/
theorem C74_registered (hk : Nat) (ops : List Op) (o : Op) (k : Kind) (n : String) (e : Nat)
    (ho : o.target = some (k, n, e)) (ops' : List Op) :
    let a := run (App.new hk) ops
    ((step a o).2 = true ↔ entity a k n = none) ∧
    ((step a o).2 = true → entity (run (step a o).1 ops') k n = some e) ∧
    ((step a o).2 = false → (step a o).1 = a) := by
  intro a
  have hacc := step_accepts a o k n e ho
  refine ⟨hacc, ?_, ?_⟩
  · intro ht
    have h0 : entity (step a o).1 k n = some e := by
      rw [step_entity, ho]
      simp [ht]
    generalize (step a o).1 = b at h0
    clear hacc
    induction ops' generalizing b with
    | nil => exact h0
    | cons p ops' ih =>
      apply ih
      rw [step_entity]
      cases hp : p.target with
      | none => exact h0
      | some x =>
        obtain ⟨k', n', e'⟩ := x
        dsimp only
        by_cases hc : (step b p).2 = true ∧ k' = k ∧ n' = n
        · obtain ⟨h1, rfl, rfl⟩ := hc
          have := (step_accepts b p k' n' e' hp).mp h1
          rw [h0] at this
          cases this
        · rw [if_neg hc]; exact h0
  · intro hf
    cases o with
    | conn m e' d =>
      simp only [step] at hf ⊢
      split
      · rename_i hn
        rw [if_pos hn] at hf
        cases d <;> simp at hf
      · rfl
    | struct m e' =>
      simp only [step] at hf ⊢
      split
      · rfl
      · rename_i hn; rw [if_neg hn] at hf; cases hf
    | task m e' =>
      simp only [step] at hf ⊢
      split
      · rfl
      · rename_i hn; rw [if_neg hn] at hf; cases hf
    | proc m p => cases ho

/-! ### Start-up -/

theorem register_ok (g : Reg) (n : String) (e : Nat) (g' : Reg) (h : register g n e = .ok g') :
    (dget g n = none ∨ dget g n = some e) ∧ ∀ m, dget g' m = if n = m then some e else dget g m := by
  unfold register at h
  cases hd : dget g n with
  | some e' =>
    rw [hd] at h
    by_cases he : e' = e
    · subst he
      simp only [if_true] at h
      cases h
      refine ⟨.inr rfl, ?_⟩
      intro m
      by_cases hm : n = m
      · subst hm; simp [hd]
      · simp [hm]
    · simp only [if_neg he] at h
      cases h
  | none =>
    rw [hd] at h
    cases h
    refine ⟨.inl rfl, ?_⟩
    intro m
    rw [dget_append, dget_cons, dget_nil]
    by_cases hm : n = m
    · subst hm; simp [hd]
    · simp [hm]

theorem register_error (g : Reg) (n : String) (e : Nat) (x : PyErr) :
    register g n e = .error x ↔ x = .assertion ∧ ∃ e', dget g n = some e' ∧ e' ≠ e := by
  unfold register
  cases hd : dget g n with
  | some e' =>
    by_cases he : e' = e
    · simp [he]
    · simp only [if_neg he]
      constructor
      · intro h; cases h; exact ⟨rfl, e', rfl, he⟩
      · rintro ⟨rfl, _⟩; rfl
  | none => simp

/-- Registering a list of entities: it succeeds exactly when no two have a name but not the environment in
common; then every name has its environment. -/
theorem registerAll_spec (l : List (String × Nat)) (g : Reg) :
    ((∃ g', registerAll g l = .ok g') ↔
      ((∀ n e e', (n, e) ∈ l → (n, e') ∈ l → e = e') ∧ ∀ n e e', (n, e) ∈ l → dget g n = some e' → e = e')) ∧
    (∀ g', registerAll g l = .ok g' → ∀ n e, dget g' n = some e ↔ dget g n = some e ∨ (n, e) ∈ l) ∧
    (∀ x, registerAll g l = .error x → x = .assertion) := by
  induction l generalizing g with
  | nil =>
    refine ⟨⟨fun _ => ⟨by simp, by simp⟩, fun _ => ⟨g, rfl⟩⟩, ?_, by intro x h; cases h⟩
    intro g' h n e
    cases h
    simp
  | cons p l ih =>
    obtain ⟨n, e⟩ := p
    cases hr : register g n e with
    | error x =>
      obtain ⟨rfl, e', he', hne⟩ := (register_error g n e x).mp hr
      have hall : registerAll g ((n, e) :: l) = .error .assertion := by rw [registerAll, hr]
      refine ⟨⟨?_, ?_⟩, ?_, ?_⟩
      · rintro ⟨g', h⟩; rw [hall] at h; cases h
      · rintro ⟨_, h⟩
        exact absurd (h n e e' List.mem_cons_self he').symm hne
      · intro g' h; rw [hall] at h; cases h
      · intro x h; rw [hall] at h; cases h; rfl
    | ok g1 =>
      obtain ⟨hfree, hget⟩ := register_ok g n e g1 hr
      have hall : registerAll g ((n, e) :: l) = registerAll g1 l := by rw [registerAll, hr]
      obtain ⟨h1, h2, h3⟩ := ih g1
      rw [hall]
      refine ⟨?_, ?_, h3⟩
      · rw [h1]
        constructor
        · rintro ⟨ha, hb⟩
          refine ⟨?_, ?_⟩
          · intro m x y hx hy
            rcases List.mem_cons.mp hx with hx | hx <;> rcases List.mem_cons.mp hy with hy | hy
            · cases hx; cases hy; rfl
            · cases hx
              exact (hb n y e hy (by rw [hget, if_pos rfl])).symm
            · cases hy
              exact hb n x e hx (by rw [hget, if_pos rfl])
            · exact ha m x y hx hy
          · intro m x y hx hy
            rcases List.mem_cons.mp hx with hx | hx
            · cases hx
              rcases hfree with h | h
              · rw [h] at hy; cases hy
              · rw [h] at hy; cases hy; rfl
            · by_cases hm : n = m
              · subst hm
                rcases hfree with h | h
                · rw [h] at hy; cases hy
                · rw [h] at hy; cases hy
                  exact hb n x e hx (by rw [hget, if_pos rfl])
              · exact hb m x y hx (by rw [hget, if_neg hm]; exact hy)
        · rintro ⟨ha, hb⟩
          refine ⟨fun m x y hx hy => ha m x y (List.mem_cons_of_mem _ hx) (List.mem_cons_of_mem _ hy), ?_⟩
          intro m x y hx hy
          rw [hget] at hy
          by_cases hm : n = m
          · subst hm
            rw [if_pos rfl] at hy
            cases hy
            exact ha n x e (List.mem_cons_of_mem _ hx) List.mem_cons_self
          · rw [if_neg hm] at hy
            exact hb m x y (List.mem_cons_of_mem _ hx) hy
      · intro g' hg' m x
        rw [h2 g' hg' m x, hget]
        by_cases hm : n = m
        · subst hm
          rw [if_pos rfl]
          constructor
          · rintro (h | h)
            · cases h; exact .inr List.mem_cons_self
            · exact .inr (List.mem_cons_of_mem _ h)
          · rintro (h | h)
            · rcases hfree with h' | h'
              · rw [h'] at h; cases h
              · rw [h'] at h; cases h; exact .inl rfl
            · rcases List.mem_cons.mp h with h | h
              · cases h; exact .inl rfl
              · exact .inr h
        · rw [if_neg hm]
          constructor
          · rintro (h | h)
            · exact .inl h
            · exact .inr (List.mem_cons_of_mem _ h)
          · rintro (h | h)
            · exact .inl h
            · rcases List.mem_cons.mp h with h | h
              · cases h; exact absurd rfl hm
              · exact .inr h

/-- The names processes are registered under. -/
def procRegs (l : List (String × Proc)) : Reg :=
  l.flatMap fun x => if x.2.shared then [(x.1 ++ ".host", x.2.host), (x.1 ++ ".peer", x.2.peer)] else []

theorem host_inj (m m' : String) (h : m ++ ".host" = m' ++ ".host") : m = m' := by
  have := congrArg String.toList h
  simp only [String.toList_append] at this
  exact String.toList_injective (List.append_cancel_right this)

theorem peer_inj (m m' : String) (h : m ++ ".peer" = m' ++ ".peer") : m = m' := by
  have := congrArg String.toList h
  simp only [String.toList_append] at this
  exact String.toList_injective (List.append_cancel_right this)

theorem host_ne_peer (m m' : String) : m ++ ".host" ≠ m' ++ ".peer" := by
  intro h
  have := congrArg (fun s => s.toList.getLast?) h
  simp [String.toList_append] at this

theorem mem_procRegs (l : List (String × Proc)) (n : String) (e : Nat) :
    (n, e) ∈ procRegs l ↔
      ∃ m p, (m, p) ∈ l ∧ p.shared = true ∧ (n = m ++ ".host" ∧ e = p.host ∨ n = m ++ ".peer" ∧ e = p.peer) := by
  simp only [procRegs, List.mem_flatMap]
  constructor
  · rintro ⟨⟨m, p⟩, hm, h⟩
    by_cases hs : p.shared = true
    · simp only [hs, if_true, List.mem_cons, List.not_mem_nil, or_false, Prod.mk.injEq] at h
      exact ⟨m, p, hm, hs, h⟩
    · simp [hs] at h
  · rintro ⟨m, p, hm, hs, h⟩
    refine ⟨(m, p), hm, ?_⟩
    simp only [hs, if_true, List.mem_cons, List.not_mem_nil, or_false, Prod.mk.injEq]
    exact h

theorem register_fresh (g : Reg) (n : String) (e : Nat) (h : n ∉ g.map (·.1)) : register g n e = .ok (g ++ [(n, e)]) := by
  rw [register, dget_none_of g n h]

theorem startProcs_eq (l : List (String × Proc)) (g : Reg) (hl : (l.map (·.1)).Nodup)
    (hg : ∀ n ∈ g.map (·.1), ∀ m ∈ l.map (·.1), n ≠ m ++ ".host" ∧ n ≠ m ++ ".peer") :
    startProcs g l = g ++ procRegs l := by
  induction l generalizing g with
  | nil => simp [startProcs, procRegs]
  | cons x l ih =>
    obtain ⟨m, p⟩ := x
    simp only [List.map_cons, List.nodup_cons] at hl
    have hx : procRegs ((m, p) :: l) = (if p.shared then [(m ++ ".host", p.host), (m ++ ".peer", p.peer)] else []) ++ procRegs l := by
      simp [procRegs]
    rw [hx]
    by_cases hs : p.shared = true
    · have h1 : m ++ ".host" ∉ g.map (·.1) := fun hh => (hg _ hh m (by simp)).1 rfl
      have h2 : m ++ ".peer" ∉ (g ++ [(m ++ ".host", p.host)]).map (·.1) := by
        simp only [List.map_append, List.map_cons, List.map_nil, List.mem_append, List.mem_singleton]
        rintro (hh | hh)
        · exact (hg _ hh m (by simp)).2 rfl
        · exact host_ne_peer m m hh.symm
      rw [startProcs, if_pos hs, register_fresh _ _ _ h1]
      dsimp only
      rw [register_fresh _ _ _ h2]
      dsimp only
      rw [ih _ hl.2, if_pos hs]
      · simp
      · intro n hn m' hm'
        have hne : m ≠ m' := fun e => hl.1 (e ▸ hm')
        simp only [List.map_append, List.map_cons, List.map_nil, List.mem_append, List.mem_singleton] at hn
        rcases hn with (hn | rfl) | rfl
        · exact hg n hn m' (List.mem_cons_of_mem _ hm')
        · exact ⟨fun h => hne (host_inj _ _ h), host_ne_peer _ _⟩
        · exact ⟨fun h => host_ne_peer _ _ h.symm, fun h => hne (peer_inj _ _ h)⟩
    · rw [startProcs, if_neg hs, if_neg hs, ih _ hl.2 (fun n hn m' hm' => hg n hn m' (List.mem_cons_of_mem _ hm'))]
      rfl

theorem foldl_dset_fresh (l c : Reg) (h : ((c ++ l).map (·.1)).Nodup) : l.foldl (fun c p => dset c p.1 p.2) c = c ++ l := by
  induction l generalizing c with
  | nil => simp
  | cons p l ih =>
    have hp : p.1 ∉ c.map (·.1) := by
      rw [List.map_append, List.nodup_append] at h
      intro hh
      exact h.2.2 p.1 hh p.1 (by simp) rfl
    have : dset c p.1 p.2 = c ++ [(p.1, p.2)] := dset_fresh _ _ _ ((dget_none_iff _ _).mp (dget_none_of _ _ hp))
    rw [List.foldl_cons, this, ih]
    · simp
    · simpa using h

/-- A name an application uses once it runs, and the environment it should lead to. -/
inductive Entity (a : App) : String → Nat → Prop where
  | own (k : Kind) (n : String) (e : Nat) : entity a k n = some e → Entity a n e
  | host (m : String) (p : Proc) : (m, p) ∈ a.procs → p.shared = true → Entity a (m ++ ".host") p.host
  | peer (m : String) (p : Proc) : (m, p) ∈ a.procs → p.shared = true → Entity a (m ++ ".peer") p.peer

theorem dget_iff_mem (d : Reg) (h : (d.map (·.1)).Nodup) (n : String) (e : Nat) : dget d n = some e ↔ (n, e) ∈ d := by
  induction d with
  | nil => simp [dget_nil]
  | cons p d ih =>
    obtain ⟨m, x⟩ := p
    simp only [List.map_cons, List.nodup_cons] at h
    rw [dget_cons]
    by_cases hm : m = n
    · subst hm
      simp only [if_true, Option.some.injEq, List.mem_cons, Prod.mk.injEq, true_and]
      constructor
      · rintro rfl; exact .inl rfl
      · rintro (h' | h')
        · exact h'.symm
        · exact absurd (List.mem_map.mpr ⟨(m, e), h', rfl⟩) h.1
    · rw [if_neg hm, ih h.2]
      simp [Ne.symm hm]

theorem entity_iff (a : App) (h : Inv a) (n : String) (e : Nat) :
    Entity a n e ↔ (n, e) ∈ procRegs a.procs ∨ (n, e) ∈ a.conns ++ a.deferred ++ a.structs ++ a.tasks := by
  constructor
  · rintro (⟨k, _, _, hk⟩ | ⟨m, p, hm, hs⟩ | ⟨m, p, hm, hs⟩)
    · right
      cases k with
      | conn =>
        have := (dget_iff_mem _ h.conns n e).mp hk
        simp only [List.mem_append] at this ⊢
        exact .inl (.inl this)
      | struct =>
        have := (dget_iff_mem _ h.structs n e).mp hk
        simp only [List.mem_append]
        exact .inl (.inr this)
      | task =>
        have := (dget_iff_mem _ h.tasks n e).mp hk
        simp only [List.mem_append]
        exact .inr this
    · exact .inl ((mem_procRegs _ _ _).mpr ⟨m, p, hm, hs, .inl ⟨rfl, rfl⟩⟩)
    · exact .inl ((mem_procRegs _ _ _).mpr ⟨m, p, hm, hs, .inr ⟨rfl, rfl⟩⟩)
  · rintro (hp | hp)
    · obtain ⟨m, p, hm, hs, ⟨rfl, rfl⟩ | ⟨rfl, rfl⟩⟩ := (mem_procRegs _ _ _).mp hp
      · exact .host m p hm hs
      · exact .peer m p hm hs
    · rcases List.mem_append.mp hp with hp | hp
      · rcases List.mem_append.mp hp with hp | hp
        · exact .own .conn n e ((dget_iff_mem _ h.conns n e).mpr hp)
        · exact .own .struct n e ((dget_iff_mem _ h.structs n e).mpr hp)
      · exact .own .task n e ((dget_iff_mem _ h.tasks n e).mpr hp)

theorem procRegs_keys (l : List (String × Proc)) (hl : (l.map (·.1)).Nodup) : ((procRegs l).map (·.1)).Nodup := by
  induction l with
  | nil => simp [procRegs]
  | cons x l ih =>
    obtain ⟨m, p⟩ := x
    simp only [List.map_cons, List.nodup_cons] at hl
    have hx : procRegs ((m, p) :: l) = (if p.shared then [(m ++ ".host", p.host), (m ++ ".peer", p.peer)] else []) ++ procRegs l := by
      simp [procRegs]
    rw [hx]
    by_cases hs : p.shared = true
    · rw [if_pos hs, List.map_append, List.nodup_append]
      refine ⟨?_, ih hl.2, ?_⟩
      · simp
      · intro n hn n' hn' he
        subst he
        obtain ⟨⟨n', e⟩, he, rfl⟩ := List.mem_map.mp hn'
        obtain ⟨m', p', hm', _, h⟩ := (mem_procRegs _ _ _).mp he
        have hne : m ≠ m' := fun e => hl.1 (e ▸ List.mem_map.mpr ⟨_, hm', rfl⟩)
        simp only [List.map_cons, List.map_nil, List.mem_cons, List.not_mem_nil, or_false] at hn
        rcases hn with hn | hn <;> rcases h with ⟨h, _⟩ | ⟨h, _⟩
        · exact hne (host_inj _ _ (hn.symm.trans h))
        · exact host_ne_peer _ _ (hn.symm.trans h)
        · exact host_ne_peer _ _ (h.symm.trans hn)
        · exact hne (peer_inj _ _ (hn.symm.trans h))
    · rw [if_neg hs]; exact ih hl.2

theorem procRegs_unique (l : List (String × Proc)) (hl : (l.map (·.1)).Nodup) (n : String) (e e' : Nat)
    (h : (n, e) ∈ procRegs l) (h' : (n, e') ∈ procRegs l) : e = e' := by
  have hk := procRegs_keys l hl
  have h1 := (dget_iff_mem _ hk _ _).mpr h
  rw [(dget_iff_mem _ hk _ _).mpr h'] at h1
  cases h1; rfl

/-- Start-up in full: what it needs and what it leaves. -/
theorem start_spec (a : App) (h : Inv a) :
    ((∃ g, (start a).2 = .ok g) ↔ ∀ n e e', Entity a n e → Entity a n e' → e = e') ∧
    (∀ g, (start a).2 = .ok g → ∀ n e, dget g n = some e ↔ Entity a n e) ∧
    (∀ x, (start a).2 = .error x → x = .assertion) := by
  have hp : startProcs [] a.procs = procRegs a.procs := by
    rw [startProcs_eq _ _ h.procs (by simp)]; rfl
  have hc : (initConns a).conns = a.conns ++ a.deferred := foldl_dset_fresh _ _ h.conns
  have hst : (start a).2 = registerAll (procRegs a.procs) (a.conns ++ a.deferred ++ a.structs ++ a.tasks) := by
    show registerAll (startProcs [] a.procs) ((initConns a).conns ++ a.structs ++ a.tasks) = _
    rw [hp, hc]
  have hk := procRegs_keys _ h.procs
  obtain ⟨h1, h2, h3⟩ := registerAll_spec (a.conns ++ a.deferred ++ a.structs ++ a.tasks) (procRegs a.procs)
  rw [hst]
  refine ⟨?_, ?_, h3⟩
  · rw [h1]
    constructor
    · rintro ⟨ha, hb⟩ n e e' he he'
      rcases (entity_iff a h n e).mp he with he | he <;> rcases (entity_iff a h n e').mp he' with he' | he'
      · exact procRegs_unique _ h.procs n e e' he he'
      · exact (hb n e' e he' ((dget_iff_mem _ hk _ _).mpr he)).symm
      · exact hb n e e' he ((dget_iff_mem _ hk _ _).mpr he')
      · exact ha n e e' he he'
    · intro hall
      refine ⟨fun n e e' he he' => hall n e e' ((entity_iff a h _ _).mpr (.inr he)) ((entity_iff a h _ _).mpr (.inr he')), ?_⟩
      intro n e e' he he'
      exact hall n e e' ((entity_iff a h _ _).mpr (.inr he))
        ((entity_iff a h _ _).mpr (.inl ((dget_iff_mem _ hk _ _).mp he')))
  · intro g hg n e
    rw [h2 g hg n e, entity_iff a h, dget_iff_mem _ hk]

/-- C74 (partial: only when names are unique across kinds). After any registrations: if no two entities
with different environments share a name, the application starts and every name leads to its own
environment, and to nothing else. -/
theorem C74_start_partial (hk : Nat) (ops : List Op) :
    let a := run (App.new hk) ops
    (∀ n e e', Entity a n e → Entity a n e' → e = e') →
      ∃ g, (start a).2 = .ok g ∧ ∀ n e, dget g n = some e ↔ Entity a n e := by
  intro a hd
  obtain ⟨h1, h2, _⟩ := start_spec a (run_inv _ ops (new_inv hk))
  obtain ⟨g, hg⟩ := h1.mpr hd
  exact ⟨g, hg, h2 g hg⟩

/-- C74 (negation). Nothing checks names across kinds before start-up: when any two entities share a name
the application does not start, although every registration was accepted. -/
theorem C74_clash_fails (hk : Nat) (ops : List Op) (n : String) (e e' : Nat) :
    let a := run (App.new hk) ops
    Entity a n e → Entity a n e' → e ≠ e' → (start a).2 = .error .assertion := by
  intro a he he' hne
  obtain ⟨h1, _, h3⟩ := start_spec a (run_inv _ ops (new_inv hk))
  cases hs : (start a).2 with
  | ok g => exact absurd (h1.mp ⟨g, hs⟩ n e e' he he') hne
  | error x => rw [h3 x hs]

theorem housekeeping_kept (hk : Nat) (ops : List Op) : entity (run (App.new hk) ops) .task "housekeeping" = some hk := by
  have h0 : entity (App.new hk) .task "housekeeping" = some hk := by simp [entity, App.new, dget_cons]
  generalize App.new hk = b at h0
  induction ops generalizing b with
  | nil => exact h0
  | cons p ops ih =>
    apply ih
    rw [step_entity]
    cases hp : p.target with
    | none => exact h0
    | some x =>
      obtain ⟨k', n', e'⟩ := x
      dsimp only
      by_cases hc : (step b p).2 = true ∧ k' = .task ∧ n' = "housekeeping"
      · obtain ⟨h1, rfl, rfl⟩ := hc
        have := (step_accepts b p _ _ e' hp).mp h1
        rw [h0] at this
        cases this
      · rw [if_neg hc]; exact h0

/-- C74 (negation). A connection or struct may be called "housekeeping", but an application that has one
never starts: the arbiter's own task has that name. A task of that name is refused. -/
theorem C74_housekeeping_fails (hk : Nat) (ops : List Op) (e : Nat) (he : e ≠ hk) :
    (∀ o, o = .struct "housekeeping" e ∨ (∃ d, o = .conn "housekeeping" e d) →
      (step (run (App.new hk) ops) o).2 = true →
      ∀ ops', (start (run (App.new hk) (ops ++ o :: ops'))).2 = .error .assertion) ∧
    (step (run (App.new hk) ops) (.task "housekeeping" e)).2 = false := by
  constructor
  · intro o ho hacc ops'
    have hrun : run (App.new hk) (ops ++ o :: ops') = run (step (run (App.new hk) ops) o).1 ops' := by
      simp [run, List.foldl_append]
    refine C74_clash_fails hk (ops ++ o :: ops') "housekeeping" e hk ?_ (.own .task _ _ (housekeeping_kept hk _)) he
    rw [hrun]
    rcases ho with rfl | ⟨d, rfl⟩
    · exact .own .struct _ _ ((C74_registered hk ops (.struct "housekeeping" e) .struct _ e rfl ops').2.1 hacc)
    · exact .own .conn _ _ ((C74_registered hk ops (.conn "housekeeping" e d) .conn _ e rfl ops').2.1 hacc)
  · cases hb : (step (run (App.new hk) ops) (.task "housekeeping" e)).2 with
    | false => rfl
    | true =>
      have := (step_accepts _ _ .task "housekeeping" e rfl).mp hb
      rw [housekeeping_kept] at this
      cases this

/-- C74. Once started, every connection that was registered, deferred or not, is known by its name and has
been queued for the connection manager once per registration. -/
theorem C74_queued (hk : Nat) (ops : List Op) :
    let a := run (App.new hk) ops
    let b := (start a).1
    (∀ n, dget b.conns n = entity a .conn n) ∧ b.queue = b.conns.map (·.2) ∧ (b.conns.map (·.1)).Nodup := by
  intro a b
  have h : Inv a := run_inv _ ops (new_inv hk)
  have hc : b.conns = a.conns ++ a.deferred := foldl_dset_fresh _ _ h.conns
  refine ⟨fun n => by rw [hc]; rfl, ?_, by rw [hc]; exact h.conns⟩
  rw [hc]
  show a.queue ++ a.deferred.map (·.2) = _
  rw [h.queue, List.map_append]

/-- C74. A process is registered exactly if its name is free, the first of a name stays, and a refused one changes
nothing. -/
theorem C74_process (a : App) (n : String) (p : Proc) (ops : List Op) :
    ((step a (.proc n p)).2 = true ↔ n ∉ a.procs.map (·.1)) ∧
    ((step a (.proc n p)).2 = true → dget (run (step a (.proc n p)).1 ops).procs n = some p) ∧
    ((step a (.proc n p)).2 = false → (step a (.proc n p)).1 = a) := by
  cases h : has a.procs n with
  | true =>
    have e : step a (.proc n p) = (a, false) := by simp [step, h]
    rw [e]
    exact ⟨⟨fun x => (by cases x), fun x => absurd ((has_iff _ _).mp h) x⟩, fun x => (by cases x), fun _ => rfl⟩
  | false =>
    have e : step a (.proc n p) = ({ a with procs := a.procs ++ [(n, p)] }, true) := by simp [step, h]
    rw [e]
    refine ⟨⟨fun _ => (has_false _ _).mp h, fun _ => rfl⟩, fun _ => ?_, fun x => by cases x⟩
    have h0 : dget (a.procs ++ [(n, p)]) n = some p := by
      have hn : dget a.procs n = none := by
        cases hd : dget a.procs n with
        | none => rfl
        | some v => rw [has, hd] at h; cases h
      rw [dget_append, hn]
      simp [dget_cons]
    have key : ∀ (ops : List Op) (b : App), dget b.procs n = some p → dget (run b ops).procs n = some p := by
      intro ops
      induction ops with
      | nil => exact fun _ h => h
      | cons o ops ih =>
        intro b hb
        refine ih (step b o).1 ?_
        cases o with
        | conn m e d => simp only [step]; (repeat' split) <;> exact hb
        | struct m e => simp only [step]; split <;> exact hb
        | task m e => simp only [step]; split <;> exact hb
        | proc m q =>
          simp only [step]
          split
          · exact hb
          · dsimp only
            rw [dget_append, hb]
            rfl
    exact key ops _ h0

/-- A connection, a deferred one, a struct, a task and a process, each with its own name; a second
connection "a" is refused. -/
theorem C74_cases :
    let ops := [.conn "a" 1 false, .conn "b" 2 true, .conn "a" 3 false, .struct "s" 4, .task "t" 5, .proc "p" ⟨6, 7, true⟩]
    let a := run (App.new 0) ops
    a.conns = [("a", 1)] ∧ a.deferred = [("b", 2)] ∧
    (start a).2.toOption = some [("p.host", 6), ("p.peer", 7), ("a", 1), ("b", 2), ("s", 4), ("housekeeping", 0), ("t", 5)] ∧
    (start a).1.queue = [1, 2] ∧
    (start (run (App.new 0) [.conn "x" 1 false, .struct "x" 2])).2.toOption = none ∧
    (start (run (App.new 0) [.proc "p" ⟨6, 7, true⟩, .conn "p.host" 1 true])).2.toOption = none := by
  decide +kernel

end Verif.Arbiter.Names
