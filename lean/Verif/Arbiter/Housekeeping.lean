/-!
C97: commands that wait for the housekeeping task: `net/arbiter/housekeeping/__init__.py` 50–74 with
`mixins/async_command.py` 45–66, `net/connection.py` 367–383 and 171–187, `net/manager.py` 40–45 and
`task/basic/periodic.py` 139–186.

Connections, tasks and structs that process commands are numbered, and so are the tasks of connections. A
command's handler runs between `take` and `ret`; `gather` of asyncio is modelled as documented: it returns
when everything it was given has returned, it raises as soon as one raises or is cancelled, and the others
then go on by themselves. Whether the task is paused or asked to stop is left out.
-/
namespace Verif.Housekeeping

variable {C : Type}

/-- The task waits for its next period, awaits `gather`, or has ended. -/
inductive Phase where
  | idle | busy | dead
  deriving DecidableEq

structure St (C : Type) where
  phase : Phase
  /-- commands waiting -/
  queue : Nat → List C
  /-- commands whose handlers were started, in that order -/
  taken : Nat → List C
  /-- the command whose handler is running -/
  handling : Nat → Option C
  /-- `process_command_queue` coroutines that have not ended -/
  going : List Nat
  /-- tasks of connections that are not done -/
  running : List Nat
  /-- those that `gather` waits for -/
  awaited : List Nat

def St.init : St C := ⟨.idle, fun _ => [], fun _ => [], fun _ => none, [], [], []⟩

inductive Ev (C : Type) where
  /-- a command is queued, async_command.py 45–50 -/
  | put (i : Nat) (c : C)
  /-- a connection starts a task -/
  | spawn (n : Nat)
  /-- a task of a connection ends: returns, or raises or is cancelled (`disable`, connection.py 180–184) -/
  | finish (n : Nat) (ok : Bool)
  /-- `dispatch` up to `gather`, housekeeping 53–71 -/
  | dispatch
  /-- one turn of `while not self.outgoing_commands.empty()`, async_command.py 55–62 -/
  | take (i : Nat)
  /-- the handler returns or raises -/
  | ret (i : Nat) (ok : Bool)

def upd {α : Type} (f : Nat → α) (i : Nat) (x : α) : Nat → α := fun j => if j = i then x else f j

/-- `gather` returns when all have. -/
def St.settle (s : St C) : St C :=
  if s.phase = .busy ∧ s.going = [] ∧ s.awaited = [] then { s with phase := .idle } else s

/-- `gather` raises: `dispatch` raises, `run` raises, the task has ended. -/
def St.fail (s : St C) : St C := if s.phase = .busy then { s with phase := .dead, awaited := [] } else s

def St.step (items : List Nat) (s : St C) : Ev C → St C
  | .put i c => { s with queue := upd s.queue i (s.queue i ++ [c]) }
  | .spawn n => { s with running := n :: s.running }
  | .finish n ok =>
    let t := { s with running := s.running.filter (· ≠ n), awaited := s.awaited.filter (· ≠ n) }
    if ok = false ∧ n ∈ s.awaited then t.fail else t.settle
  | .dispatch =>
    if s.phase = .idle then St.settle { s with phase := .busy, going := items, awaited := s.running } else s
  | .take i =>
    if i ∈ s.going ∧ s.handling i = none then
      match s.queue i with
      | [] => St.settle { s with going := s.going.filter (· ≠ i) }
      | c :: q => { s with queue := upd s.queue i q, taken := upd s.taken i (s.taken i ++ [c]),
                           handling := upd s.handling i (some c) }
    else s
  | .ret i ok =>
    if i ∈ s.going ∧ s.handling i ≠ none then
      let t := { s with handling := upd s.handling i none }
      if ok then t else St.fail { t with going := t.going.filter (· ≠ i) }
    else s

def St.run (items : List Nat) (s : St C) (es : List (Ev C)) : St C := es.foldl (St.step items) s

/-- The commands queued for one of them. -/
def puts (i : Nat) : List (Ev C) → List C
  | [] => []
  | .put j c :: es => if j = i then c :: puts i es else puts i es
  | _ :: es => puts i es

theorem settle_queue (s : St C) : s.settle.queue = s.queue := by unfold St.settle; split <;> rfl
theorem settle_taken (s : St C) : s.settle.taken = s.taken := by unfold St.settle; split <;> rfl
theorem settle_handling (s : St C) : s.settle.handling = s.handling := by unfold St.settle; split <;> rfl
theorem settle_going (s : St C) : s.settle.going = s.going := by unfold St.settle; split <;> rfl
theorem settle_awaited (s : St C) : s.settle.awaited = s.awaited := by unfold St.settle; split <;> rfl
theorem settle_running (s : St C) : s.settle.running = s.running := by unfold St.settle; split <;> rfl
theorem fail_queue (s : St C) : s.fail.queue = s.queue := by unfold St.fail; split <;> rfl
theorem fail_taken (s : St C) : s.fail.taken = s.taken := by unfold St.fail; split <;> rfl
theorem fail_going (s : St C) : s.fail.going = s.going := by unfold St.fail; split <;> rfl
theorem fail_handling (s : St C) : s.fail.handling = s.handling := by unfold St.fail; split <;> rfl

theorem run_append (items : List Nat) (s : St C) (es fs : List (Ev C)) :
    s.run items (es ++ fs) = (s.run items es).run items fs := by
  unfold St.run
  rw [List.foldl_append]

theorem run_cons (items : List Nat) (s : St C) (e : Ev C) (es : List (Ev C)) :
    s.run items (e :: es) = (s.step items e).run items es := rfl

/-! ### Order -/

theorem step_order (items : List Nat) (s : St C) (e : Ev C) (i : Nat) :
    (s.step items e).taken i ++ (s.step items e).queue i = s.taken i ++ s.queue i ++ puts i [e] ∧
      s.taken i <+: (s.step items e).taken i := by
  cases e with
  | put j c =>
    unfold St.step puts upd
    by_cases h : j = i
    · subst h; simp [puts]
    · have h' : ¬ i = j := fun e => h e.symm
      simp [h, h', puts]
  | spawn n => unfold St.step; simp [puts]
  | finish n ok =>
    unfold St.step
    dsimp only
    split
    · rw [fail_taken, fail_queue]; simp [puts]
    · rw [settle_taken, settle_queue]; simp [puts]
  | dispatch =>
    unfold St.step
    dsimp only
    split
    · rw [settle_taken, settle_queue]; simp [puts]
    · simp [puts]
  | take j =>
    unfold St.step
    dsimp only
    split
    · split
      · rw [settle_taken, settle_queue]; simp [puts]
      · rename_i c q hq
        dsimp only [upd]
        by_cases h : i = j
        · subst h; simp [hq, puts]
        · simp [h, puts]
    · simp [puts]
  | ret j ok =>
    unfold St.step
    dsimp only
    split
    · split
      · simp [puts]
      · rw [fail_taken, fail_queue]; simp [puts]
    · simp [puts]

theorem puts_append (i : Nat) (es fs : List (Ev C)) : puts i (es ++ fs) = puts i es ++ puts i fs := by
  induction es with
  | nil => rfl
  | cons e es ih =>
    cases e with
    | put j c =>
      simp only [List.cons_append, puts]
      split
      · rw [ih]; rfl
      · exact ih
    | _ => exact ih

theorem run_order (items : List Nat) (es : List (Ev C)) : ∀ (s : St C) (i : Nat),
    (s.run items es).taken i ++ (s.run items es).queue i = s.taken i ++ s.queue i ++ puts i es ∧
      s.taken i <+: (s.run items es).taken i := by
  induction es with
  | nil => intro s i; exact ⟨by simp [St.run, puts], List.prefix_refl _⟩
  | cons e es ih =>
    intro s i
    have h1 := step_order items s e i
    have h2 := ih (s.step items e) i
    rw [run_cons]
    refine ⟨?_, h1.2.trans h2.2⟩
    rw [h2.1, h1.1, List.append_assoc]
    have := puts_append i [e] es
    rw [← this]
    rfl

/-- C97: of the commands queued for a connection, task or struct, always the first were started, in order
and each once, and the rest waits. -/
theorem C97_order (items : List Nat) (es : List (Ev C)) (i : Nat) :
    ((St.init.run items es : St C).taken i ++ (St.init.run items es : St C).queue i) = puts i es := by
  have := (run_order items es (St.init : St C) i).1
  simpa [St.init] using this

/-! ### A round -/

/-- Between dispatches nothing is going. -/
theorem idle_step (items : List Nat) (s : St C) (h : s.phase = .idle → s.going = [] ∧ s.awaited = []) (e : Ev C) :
    (s.step items e).phase = .idle → (s.step items e).going = [] ∧ (s.step items e).awaited = [] := by
  have hset : ∀ t : St C, (t.phase = .idle → t.going = [] ∧ t.awaited = []) →
      t.settle.phase = .idle → t.settle.going = [] ∧ t.settle.awaited = [] := by
    intro t ht
    unfold St.settle
    split
    · rename_i hh; intro _; exact hh.2
    · exact ht
  have hfail : ∀ t : St C, (t.phase = .idle → t.going = [] ∧ t.awaited = []) →
      t.fail.phase = .idle → t.fail.going = [] ∧ t.fail.awaited = [] := by
    intro t ht
    unfold St.fail
    split
    · intro hp; cases hp
    · exact ht
  cases e with
  | put j c => exact h
  | spawn n => exact h
  | finish n ok =>
    unfold St.step
    dsimp only
    have : ∀ hp : s.phase = .idle, s.going = [] ∧ s.awaited.filter (· ≠ n) = [] := by
      intro hp; rw [(h hp).1, (h hp).2]; exact ⟨rfl, rfl⟩
    split
    · exact hfail _ this
    · exact hset _ this
  | dispatch =>
    unfold St.step
    dsimp only
    split
    · apply hset
      intro hp
      cases hp
    · exact h
  | take j =>
    unfold St.step
    dsimp only
    split
    · split
      · apply hset
        intro hp
        have := h hp
        dsimp only
        rw [this.1]
        exact ⟨rfl, this.2⟩
      · exact h
    · exact h
  | ret j ok =>
    unfold St.step
    dsimp only
    split
    · split
      · exact h
      · apply hfail
        intro hp
        have := h hp
        dsimp only
        rw [this.1]
        exact ⟨rfl, this.2⟩
    · exact h

theorem idle_run (items : List Nat) (es : List (Ev C)) : ∀ s : St C, (s.phase = .idle → s.going = [] ∧ s.awaited = []) →
    (s.run items es).phase = .idle → (s.run items es).going = [] ∧ (s.run items es).awaited = [] := by
  induction es with
  | nil => intro s h; exact h
  | cons e es ih => intro s h; exact ih _ (idle_step items s h e)

/-- A coroutine ends only when its queue is empty, or its handler raised. -/
theorem round_step (items : List Nat) (s : St C) (i : Nat) (hi : i ∈ items) (l : List C) (e : Ev C)
    (he : e ≠ .ret i false) (h : (i ∈ s.going ∧ l <+: s.taken i ++ s.queue i) ∨ l <+: s.taken i) :
    (i ∈ (s.step items e).going ∧ l <+: (s.step items e).taken i ++ (s.step items e).queue i)
      ∨ l <+: (s.step items e).taken i := by
  have ho := step_order items s e i
  rcases h with ⟨hg, hl⟩ | hl
  · have hl' : l <+: (s.step items e).taken i ++ (s.step items e).queue i := by
      rw [ho.1]
      exact hl.trans (List.prefix_append _ _)
    have keep : i ∈ (s.step items e).going ∨ (s.step items e).queue i = [] := by
      cases e with
      | put j c => exact Or.inl hg
      | spawn n => exact Or.inl hg
      | finish n ok =>
        left
        unfold St.step
        dsimp only
        split
        · rw [fail_going]; exact hg
        · rw [settle_going]; exact hg
      | dispatch =>
        left
        unfold St.step
        dsimp only
        split
        · rw [settle_going]; exact hi
        · exact hg
      | take j =>
        unfold St.step
        dsimp only
        split
        · split
          · rename_i hq
            rw [settle_going, settle_queue]
            by_cases hij : i = j
            · right; subst hij; exact hq
            · left
              dsimp only
              rw [List.mem_filter]
              exact ⟨hg, by simpa using hij⟩
          · exact Or.inl hg
        · exact Or.inl hg
      | ret j ok =>
        left
        unfold St.step
        dsimp only
        split
        · split
          · exact hg
          · rename_i hok
            rw [fail_going]
            dsimp only
            rw [List.mem_filter]
            refine ⟨hg, ?_⟩
            have : ¬ i = j := by
              intro hij
              subst hij
              apply he
              cases ok
              · rfl
              · exact absurd rfl hok
            simpa using this
        · exact hg
    rcases keep with h | h
    · exact Or.inl ⟨h, hl'⟩
    · right
      rw [h, List.append_nil] at hl'
      exact hl'
  · exact Or.inr (hl.trans ho.2)

theorem round_run (items : List Nat) (i : Nat) (hi : i ∈ items) (l : List C) (es : List (Ev C)) : ∀ s : St C,
    Ev.ret i false ∉ es → ((i ∈ s.going ∧ l <+: s.taken i ++ s.queue i) ∨ l <+: s.taken i) →
    (i ∈ (s.run items es).going ∧ l <+: (s.run items es).taken i ++ (s.run items es).queue i)
      ∨ l <+: (s.run items es).taken i := by
  induction es with
  | nil => intro s _ h; exact h
  | cons e es ih =>
    intro s hn h
    rw [List.mem_cons, not_or] at hn
    exact ih _ hn.2 (round_step items s i hi l e (fun e' => hn.1 e'.symm) h)

/-- C97: when the task dispatches, everything queued until then is started before it is ready for its
next period, unless a handler of the same queue raises. -/
theorem C97_round (items : List Nat) (es fs : List (Ev C)) (i : Nat) (hi : i ∈ items)
    (hidle : (St.init.run items es : St C).phase = .idle) (hraise : Ev.ret i false ∉ fs)
    (hend : (St.init.run items (es ++ .dispatch :: fs) : St C).phase = .idle) :
    puts i es <+: (St.init.run items (es ++ .dispatch :: fs) : St C).taken i := by
  have hrun : (St.init.run items (es ++ .dispatch :: fs) : St C)
      = ((St.init.run items es).step items .dispatch).run items fs := by
    rw [run_append]; rfl
  have hord := C97_order items es i
  have hgo := idle_run items (es ++ .dispatch :: fs) (St.init : St C) (fun _ => ⟨rfl, rfl⟩) hend
  rw [hrun] at hgo ⊢
  revert hidle hord hgo
  generalize (St.init.run items es : St C) = s
  intro hidle hord hgo
  have h0 : i ∈ (s.step items .dispatch).going ∧
      puts i es <+: (s.step items .dispatch).taken i ++ (s.step items .dispatch).queue i := by
    unfold St.step
    dsimp only
    rw [if_pos hidle, settle_going, settle_taken, settle_queue]
    exact ⟨hi, hord ▸ List.prefix_refl _⟩
  rcases round_run items i hi (puts i es) fs _ hraise (Or.inl h0) with h | h
  · rw [hgo.1] at h
    exact absurd h.1 (List.not_mem_nil)
  · exact h

/-! ### Progress -/

/-- The turns that finish a queue. -/
def turns (i n : Nat) : List (Ev C) := (List.replicate n [Ev.take i, Ev.ret i true]).flatten ++ [.take i]

theorem turns_run (items : List Nat) (i : Nat) : ∀ (n : Nat) (s : St C), (s.queue i).length = n → i ∈ s.going →
    s.handling i = none →
    (s.run items (turns i n)).queue = upd s.queue i [] ∧
    (s.run items (turns i n)).handling = s.handling ∧
    (s.run items (turns i n)).going = s.going.filter (· ≠ i) ∧
    (s.run items (turns i n)).awaited = s.awaited ∧
    (s.phase = .busy → (s.run items (turns i n)).phase =
      if s.going.filter (· ≠ i) = [] ∧ s.awaited = [] then .idle else .busy) := by
  intro n
  induction n with
  | zero =>
    intro s hn hg hh
    have hq : s.queue i = [] := List.length_eq_zero_iff.mp hn
    have e : s.run items (turns i 0) = St.settle { s with going := s.going.filter (· ≠ i) } := by
      show s.step items (.take i) = _
      unfold St.step
      dsimp only
      rw [if_pos ⟨hg, hh⟩, hq]
    rw [e, settle_queue, settle_handling, settle_going, settle_awaited]
    refine ⟨?_, rfl, rfl, rfl, ?_⟩
    · funext j
      unfold upd
      by_cases h : j = i
      · rw [if_pos h, h]; exact hq
      · rw [if_neg h]
    · intro hb
      unfold St.settle
      dsimp only
      by_cases h : s.going.filter (· ≠ i) = [] ∧ s.awaited = []
      · rw [if_pos ⟨hb, h⟩, if_pos h]
      · rw [if_neg (fun hh => h hh.2), if_neg h]; exact hb
  | succ n ih =>
    intro s hn hg hh
    obtain ⟨c, q, hq⟩ : ∃ c q, s.queue i = c :: q := by
      cases hs : s.queue i with
      | nil => rw [hs] at hn; cases hn
      | cons c q => exact ⟨c, q, rfl⟩
    have hhand : upd (upd s.handling i (some c)) i none = s.handling := by
      funext j
      unfold upd
      by_cases h : j = i
      · rw [if_pos h, h]; exact hh.symm
      · rw [if_neg h, if_neg h]
    have e1 : s.step items (.take i) = { s with queue := upd s.queue i q, taken := upd s.taken i (s.taken i ++ [c]), handling := upd s.handling i (some c) } := by
      unfold St.step
      dsimp only
      rw [if_pos ⟨hg, hh⟩, hq]
    have e2 : (s.step items (.take i)).step items (.ret i true)
        = { s with queue := upd s.queue i q, taken := upd s.taken i (s.taken i ++ [c]) } := by
      rw [e1]
      unfold St.step
      dsimp only
      rw [if_pos ⟨hg, by unfold upd; simp⟩, if_pos rfl, hhand]
    have e3 : s.run items (turns i (n + 1)) = ({ s with queue := upd s.queue i q, taken := upd s.taken i (s.taken i ++ [c]) } : St C).run items (turns i n) := by
      rw [← e2]
      unfold turns
      rw [List.replicate_succ, List.flatten_cons, List.append_assoc]
      rfl
    have := ih { s with queue := upd s.queue i q, taken := upd s.taken i (s.taken i ++ [c]) }
      (by dsimp only [upd]; rw [if_pos rfl]; rw [hq] at hn; simpa using hn) hg hh
    rw [e3]
    refine ⟨?_, this.2⟩
    rw [this.1]
    funext j
    unfold upd
    by_cases h : j = i
    · rw [if_pos h, if_pos h]
    · rw [if_neg h, if_neg h]; dsimp only; rw [if_neg h]

/-- The turns that finish all queues. -/
def allTurns (items : List Nat) (len : Nat → Nat) : List (Ev C) := items.flatMap fun i => turns i (len i)

theorem allTurns_run (items : List Nat) (len : Nat → Nat) : ∀ (todo : List Nat) (s : St C), todo.Nodup → todo ≠ [] →
    s.going = todo → s.phase = .busy → s.awaited = [] → (∀ i, s.handling i = none) →
    (∀ i ∈ todo, (s.queue i).length = len i) →
    (s.run items (allTurns todo len)).phase = .idle ∧
    ∀ i, (s.run items (allTurns todo len)).queue i = if i ∈ todo then [] else s.queue i := by
  intro todo
  induction todo with
  | nil => intro s _ h; exact absurd rfl h
  | cons i todo ih =>
    intro s hnd _ hg hb ha hh hl
    have hmem : i ∈ s.going := by rw [hg]; exact List.mem_cons_self ..
    obtain ⟨h1, h2, h3, h4, h5⟩ := turns_run items i (len i) s (hl i (List.mem_cons_self ..)) hmem (hh i)
    have hrun : s.run items (allTurns (i :: todo) len) = (s.run items (turns i (len i))).run items (allTurns todo len) := by
      unfold allTurns
      rw [List.flatMap_cons, run_append]
    rw [List.nodup_cons] at hnd
    have hf : s.going.filter (· ≠ i) = todo := by
      rw [hg, List.filter_cons, if_neg (by simp)]
      rw [List.filter_eq_self]
      intro j hj
      have : j ≠ i := fun e => hnd.1 (e ▸ hj)
      simpa using this
    rw [hf] at h3 h5
    rw [hrun]
    by_cases ht : todo = []
    · subst ht
      have hp := h5 hb
      rw [if_pos ⟨rfl, ha⟩] at hp
      refine ⟨hp, ?_⟩
      intro j
      show (s.run items (turns i (len i))).queue j = _
      rw [h1]
      unfold upd
      by_cases h : j = i <;> simp [h]
    · have hp := h5 hb
      rw [if_neg (fun hh => ht hh.1)] at hp
      obtain ⟨r1, r2⟩ := ih (s.run items (turns i (len i))) hnd.2 ht h3 hp (h4.trans ha) (by rw [h2]; exact hh) (by
        intro j hj
        rw [h1]
        unfold upd
        have hji : ¬ j = i := fun e => hnd.1 (e ▸ hj)
        rw [if_neg hji]
        exact hl j (List.mem_cons_of_mem _ hj))
      refine ⟨r1, ?_⟩
      intro j
      rw [r2 j, h1]
      unfold upd
      by_cases h : j ∈ todo
      · rw [if_pos h, if_pos (List.mem_cons_of_mem _ h)]
      · rw [if_neg h]
        by_cases h' : j = i
        · rw [if_pos h', if_pos (by rw [h']; exact List.mem_cons_self ..)]
        · rw [if_neg h', if_neg]
          intro hm
          rcases List.mem_cons.mp hm with h'' | h''
          · exact h' h''
          · exact h h''

theorem drains_from (items : List Nat) (hnd : items.Nodup) (hne : items ≠ []) (s : St C) (hidle : s.phase = .idle)
    (hr : s.running = []) (hh : ∀ i, s.handling i = none) :
    ∃ es : List (Ev C), (∀ e ∈ es, ∃ i ∈ items, e = .take i ∨ e = .ret i true) ∧
      (s.run items (.dispatch :: es)).phase = .idle ∧ ∀ i ∈ items, (s.run items (.dispatch :: es)).queue i = [] := by
  refine ⟨allTurns items (fun i => (s.queue i).length), ?_, ?_⟩
  · intro e he
    obtain ⟨i, hi, he⟩ := List.mem_flatMap.mp he
    refine ⟨i, hi, ?_⟩
    unfold turns at he
    rcases List.mem_append.mp he with h | h
    · obtain ⟨l, hl, hel⟩ := List.mem_flatten.mp h
      have := (List.mem_replicate.mp hl).2
      subst this
      simpa using hel
    · left
      simpa using h
  · have e : s.step items .dispatch = { s with phase := .busy, going := items, awaited := s.running } := by
      unfold St.step
      dsimp only
      rw [if_pos hidle]
      unfold St.settle
      rw [if_neg (fun h => hne h.2.1)]
    rw [run_cons, e]
    obtain ⟨h1, h2⟩ := allTurns_run items (fun i => (s.queue i).length) items
      { s with phase := .busy, going := items, awaited := s.running } hnd hne rfl rfl hr hh (fun _ _ => rfl)
    refine ⟨h1, ?_⟩
    intro i hi
    rw [h2 i, if_pos hi]

/-- Handlers run only in coroutines that have not ended. -/
theorem handling_step (items : List Nat) (s : St C) (h : ∀ i, s.handling i ≠ none → i ∈ s.going)
    (hidle : s.phase = .idle → s.going = [] ∧ s.awaited = []) (e : Ev C) :
    ∀ i, (s.step items e).handling i ≠ none → i ∈ (s.step items e).going := by
  intro i
  cases e with
  | put j c => exact h i
  | spawn n => exact h i
  | finish n ok =>
    unfold St.step
    dsimp only
    split
    · rw [fail_handling, fail_going]; exact h i
    · rw [settle_handling, settle_going]; exact h i
  | dispatch =>
    unfold St.step
    dsimp only
    split
    · rename_i hp
      rw [settle_handling, settle_going]
      intro hi
      have := h i hi
      rw [(hidle hp).1] at this
      cases this
    · exact h i
  | take j =>
    unfold St.step
    dsimp only
    split
    · rename_i hj
      split
      · rw [settle_handling, settle_going]
        intro hi
        dsimp only
        rw [List.mem_filter]
        refine ⟨h i hi, ?_⟩
        have : ¬ i = j := fun e => hi (by rw [e]; exact hj.2)
        simpa using this
      · dsimp only [upd]
        intro hi
        by_cases hij : i = j
        · rw [hij]; exact hj.1
        · rw [if_neg hij] at hi; exact h i hi
    · exact h i
  | ret j ok =>
    have hu : upd s.handling j none i ≠ none → i ≠ j ∧ i ∈ s.going := by
      unfold upd
      intro hi
      by_cases hij : i = j
      · rw [if_pos hij] at hi; exact absurd rfl hi
      · rw [if_neg hij] at hi; exact ⟨hij, h i hi⟩
    unfold St.step
    dsimp only
    split
    · split
      · intro hi; exact (hu hi).2
      · rw [fail_handling, fail_going]
        intro hi
        dsimp only
        rw [List.mem_filter]
        exact ⟨(hu hi).2, by simpa using (hu hi).1⟩
    · exact h i

theorem handling_run (items : List Nat) (es : List (Ev C)) : ∀ s : St C, (∀ i, s.handling i ≠ none → i ∈ s.going) →
    (s.phase = .idle → s.going = [] ∧ s.awaited = []) →
    ∀ i, (s.run items es).handling i ≠ none → i ∈ (s.run items es).going := by
  induction es with
  | nil => intro s h _; exact h
  | cons e es ih => intro s h hi; exact ih _ (handling_step items s h hi e) (idle_step items s hi e)

/-- C97: whenever the task waits for its next period and no task of a connection is running, a dispatch
whose handlers return empties every queue, and the task waits for its next period again. -/
theorem C97_drains (items : List Nat) (hnd : items.Nodup) (es : List (Ev C))
    (hidle : (St.init.run items es : St C).phase = .idle) (hr : (St.init.run items es : St C).running = []) :
    ∃ fs : List (Ev C), (∀ e ∈ fs, ∃ i ∈ items, e = .take i ∨ e = .ret i true) ∧
      (St.init.run items (es ++ .dispatch :: fs) : St C).phase = .idle ∧
      ∀ i ∈ items, (St.init.run items (es ++ .dispatch :: fs) : St C).taken i = puts i es := by
  have hgo := idle_run items es (St.init : St C) (fun _ => ⟨rfl, rfl⟩) hidle
  have hh := handling_run items es (St.init : St C) (fun i h => absurd rfl h) (fun _ => ⟨rfl, rfl⟩)
  have hnone : ∀ i, (St.init.run items es : St C).handling i = none := by
    intro i
    by_cases h : (St.init.run items es : St C).handling i = none
    · exact h
    · have := hh i h
      rw [hgo.1] at this
      cases this
  by_cases hne : items = []
  · subst hne
    refine ⟨[], by simp, ?_, by simp⟩
    rw [run_append]
    show (St.step [] _ .dispatch).phase = _
    unfold St.step
    dsimp only
    rw [if_pos hidle]
    unfold St.settle
    rw [if_pos ⟨rfl, rfl, hr⟩]
  · obtain ⟨fs, h1, h2, h3⟩ := drains_from items hnd hne _ hidle hr hnone
    refine ⟨fs, h1, by rw [run_append]; exact h2, ?_⟩
    intro i hi
    have ho := C97_order items (es ++ .dispatch :: fs) i
    have hp : puts i (es ++ .dispatch :: fs) = puts i es := by
      rw [puts_append]
      have : puts i (Ev.dispatch :: fs) = [] := by
        show puts i fs = []
        have hall : ∀ l : List (Ev C), (∀ e ∈ l, ∃ i ∈ items, e = .take i ∨ e = .ret i true) → puts i l = [] := by
          intro l
          induction l with
          | nil => intro _; rfl
          | cons e l ih =>
            intro hl
            obtain ⟨j, _, h | h⟩ := hl e (List.mem_cons_self ..)
            · subst h; exact ih (fun e he => hl e (List.mem_cons_of_mem _ he))
            · subst h; exact ih (fun e he => hl e (List.mem_cons_of_mem _ he))
        exact hall fs h1
      rw [this, List.append_nil]
    rw [hp] at ho
    have h3' : (St.init.run items (es ++ .dispatch :: fs) : St C).queue i = [] := by
      rw [run_append]; exact h3 i hi
    rw [h3', List.append_nil] at ho
    exact ho

/-! ### What ends it -/

theorem dead_step (items : List Nat) (s : St C) (hd : s.phase = .dead) (i : Nat) (hg : i ∉ s.going) (e : Ev C) :
    (s.step items e).phase = .dead ∧ i ∉ (s.step items e).going ∧ (s.step items e).taken i = s.taken i := by
  have hset : ∀ {t : St C}, t.phase = .dead → t.settle = t := by
    intro t ht; unfold St.settle; rw [if_neg (by rw [ht]; intro h; cases h.1)]
  have hfail : ∀ {t : St C}, t.phase = .dead → t.fail = t := by
    intro t ht; unfold St.fail; rw [if_neg (by rw [ht]; intro h; cases h)]
  cases e with
  | put j c => exact ⟨hd, hg, rfl⟩
  | spawn n => exact ⟨hd, hg, rfl⟩
  | finish n ok =>
    unfold St.step
    dsimp only
    split
    · rw [hfail (by exact hd)]
      exact ⟨hd, hg, rfl⟩
    · rw [hset (by exact hd)]
      exact ⟨hd, hg, rfl⟩
  | dispatch =>
    unfold St.step
    dsimp only
    rw [if_neg (by rw [hd]; intro h; cases h)]
    exact ⟨hd, hg, rfl⟩
  | take j =>
    unfold St.step
    dsimp only
    split
    · rename_i hj
      split
      · rw [hset (by exact hd)]
        exact ⟨hd, fun h => hg (List.mem_filter.mp h).1, rfl⟩
      · refine ⟨hd, hg, ?_⟩
        dsimp only [upd]
        rw [if_neg (fun e => hg (by rw [e]; exact hj.1))]
    · exact ⟨hd, hg, rfl⟩
  | ret j ok =>
    unfold St.step
    dsimp only
    split
    · split
      · exact ⟨hd, hg, rfl⟩
      · rw [hfail (by exact hd)]
        exact ⟨hd, fun h => hg (List.mem_filter.mp h).1, rfl⟩
    · exact ⟨hd, hg, rfl⟩

theorem dead_run (items : List Nat) (i : Nat) (es : List (Ev C)) : ∀ s : St C, s.phase = .dead → i ∉ s.going →
    (s.run items es).phase = .dead ∧ (s.run items es).taken i = s.taken i := by
  induction es with
  | nil => intro s hd _; exact ⟨hd, rfl⟩
  | cons e es ih =>
    intro s hd hg
    obtain ⟨h1, h2, h3⟩ := dead_step items s hd i hg e
    obtain ⟨h4, h5⟩ := ih _ h1 h2
    exact ⟨h4, h5.trans h3⟩

/-- C97 fails when a handler raises, such as that of a remote command whose answer does not come in time:
no command of the same queue, and none of a queue that was empty by then, is ever started again. -/
theorem C97_raise_fails (items : List Nat) (s : St C) (i : Nat) (hb : s.phase = .busy) (hg : i ∈ s.going)
    (hh : s.handling i ≠ none) (j : Nat) (hj : j = i ∨ j ∉ s.going) (es : List (Ev C)) :
    (s.run items (.ret i false :: es)).taken j = s.taken j ∧ (s.run items (.ret i false :: es)).phase = .dead := by
  have e : s.step items (.ret i false) = { s with handling := upd s.handling i none, going := s.going.filter (· ≠ i), phase := .dead, awaited := [] } := by
    unfold St.step
    dsimp only
    rw [if_pos ⟨hg, hh⟩, if_neg (by decide)]
    unfold St.fail
    rw [if_pos hb]
  rw [run_cons, e]
  have hnot : j ∉ s.going.filter (· ≠ i) := by
    intro hm
    obtain ⟨h1, h2⟩ := List.mem_filter.mp hm
    rcases hj with h | h
    · simp [h] at h2
    · exact h h1
  have := dead_run items j es { s with handling := upd s.handling i none, going := s.going.filter (· ≠ i), phase := .dead, awaited := [] } rfl hnot
  exact ⟨this.2, this.1⟩

/-- C97 fails when a task of a connection is cancelled (the connection is disabled) or raises while it is
awaited: the same happens. -/
theorem C97_cancel_fails (items : List Nat) (s : St C) (n : Nat) (hb : s.phase = .busy) (hn : n ∈ s.awaited)
    (j : Nat) (hj : j ∉ s.going) (es : List (Ev C)) :
    (s.run items (.finish n false :: es)).taken j = s.taken j ∧ (s.run items (.finish n false :: es)).phase = .dead := by
  have e : s.step items (.finish n false) = { s with running := s.running.filter (· ≠ n), phase := .dead, awaited := [] } := by
    unfold St.step
    dsimp only
    rw [if_pos ⟨rfl, hn⟩]
    unfold St.fail
    dsimp only
    rw [if_pos hb]
  rw [run_cons, e]
  have := dead_run items j es { s with running := s.running.filter (· ≠ n), phase := .dead, awaited := [] } rfl hj
  exact ⟨this.2, this.1⟩

/-- C97: it does no harm if the task is not awaited, having started after the last dispatch. -/
theorem C97_unawaited (items : List Nat) (s : St C) (n : Nat) (hn : n ∉ s.awaited) (ok : Bool) (hs : s.phase ≠ .dead) :
    (s.step items (.finish n ok)).phase ≠ .dead ∧ (s.step items (.finish n ok)).going = s.going ∧
      (s.phase = .idle → (s.step items (.finish n ok)).phase = .idle) := by
  unfold St.step
  dsimp only
  rw [if_neg (fun h => hn h.2)]
  refine ⟨?_, settle_going _, ?_⟩
  · unfold St.settle
    split
    · intro h; cases h
    · exact hs
  · intro hi
    unfold St.settle
    rw [if_neg (by dsimp only; rw [hi]; intro h; cases h.1)]
    exact hi

theorem blocked_step (items : List Nat) (s : St C) (n : Nat) (i : Nat) (e : Ev C) (he : ∀ ok, e ≠ .finish n ok)
    (h : (s.phase = .dead ∨ (s.phase = .busy ∧ n ∈ s.awaited)) ∧ i ∉ s.going) :
    (((s.step items e).phase = .dead ∨ ((s.step items e).phase = .busy ∧ n ∈ (s.step items e).awaited)) ∧
      i ∉ (s.step items e).going) ∧ (s.step items e).taken i = s.taken i := by
  obtain ⟨hd | ⟨hb, hn⟩, hg⟩ := h
  · obtain ⟨h1, h2, h3⟩ := dead_step items s hd i hg e
    exact ⟨⟨Or.inl h1, h2⟩, h3⟩
  · have hset : ∀ {t : St C}, n ∈ t.awaited → t.settle = t := by
      intro t ht
      unfold St.settle
      rw [if_neg]
      intro h
      rw [h.2.2] at ht
      cases ht
    cases e with
    | put j c => exact ⟨⟨Or.inr ⟨hb, hn⟩, hg⟩, rfl⟩
    | spawn m => exact ⟨⟨Or.inr ⟨hb, hn⟩, hg⟩, rfl⟩
    | finish m ok =>
      have hm : n ≠ m := fun h => he ok (by rw [h])
      have hn' : n ∈ s.awaited.filter (· ≠ m) := List.mem_filter.mpr ⟨hn, by simpa using hm⟩
      unfold St.step
      dsimp only
      split
      · unfold St.fail
        dsimp only
        rw [if_pos hb]
        exact ⟨⟨Or.inl rfl, hg⟩, rfl⟩
      · rw [hset (by exact hn')]
        exact ⟨⟨Or.inr ⟨hb, hn'⟩, hg⟩, rfl⟩
    | dispatch =>
      unfold St.step
      dsimp only
      rw [if_neg (by rw [hb]; intro h; cases h)]
      exact ⟨⟨Or.inr ⟨hb, hn⟩, hg⟩, rfl⟩
    | take j =>
      unfold St.step
      dsimp only
      split
      · rename_i hj
        split
        · rw [hset (by exact hn)]
          exact ⟨⟨Or.inr ⟨hb, hn⟩, fun h => hg (List.mem_filter.mp h).1⟩, rfl⟩
        · refine ⟨⟨Or.inr ⟨hb, hn⟩, hg⟩, ?_⟩
          dsimp only [upd]
          rw [if_neg (fun e => hg (by rw [e]; exact hj.1))]
      · exact ⟨⟨Or.inr ⟨hb, hn⟩, hg⟩, rfl⟩
    | ret j ok =>
      unfold St.step
      dsimp only
      split
      · split
        · exact ⟨⟨Or.inr ⟨hb, hn⟩, hg⟩, rfl⟩
        · unfold St.fail
          dsimp only
          rw [if_pos hb]
          exact ⟨⟨Or.inl rfl, fun h => hg (List.mem_filter.mp h).1⟩, rfl⟩
      · exact ⟨⟨Or.inr ⟨hb, hn⟩, hg⟩, rfl⟩

/-- C97 fails while a task of a connection that was running at the last dispatch goes on, such as the
repetitions of a TFTP acknowledgement: no command of a queue that was empty by then is started. -/
theorem C97_blocked_fails (items : List Nat) (n i : Nat) (es : List (Ev C)) : ∀ (s : St C), s.phase = .busy →
    n ∈ s.awaited → i ∉ s.going → (∀ ok, Ev.finish n ok ∉ es) → (s.run items es).taken i = s.taken i := by
  have key : ∀ (es : List (Ev C)) (s : St C), ((s.phase = .dead ∨ (s.phase = .busy ∧ n ∈ s.awaited)) ∧ i ∉ s.going) →
      (∀ ok, Ev.finish n ok ∉ es) → (s.run items es).taken i = s.taken i := by
    intro es
    induction es with
    | nil => intro s _ _; rfl
    | cons e es ih =>
      intro s h hn
      have hs := blocked_step items s n i e (fun ok he => hn ok (by rw [he]; exact List.mem_cons_self ..)) h
      rw [run_cons, ih _ hs.1 (fun ok hm => hn ok (List.mem_cons_of_mem _ hm)), hs.2]
  intro s hb ha hg hn
  exact key es s ⟨Or.inr ⟨hb, ha⟩, hg⟩ hn

/-! ### A concrete application -/

/-- Two queues; the command of the first raises while the second is empty. -/
def exRaise : List (Ev String) := [.put 0 "toggle", .dispatch, .take 1, .take 0]

theorem C97_cases :
    (St.init.run [0, 1] exRaise : St String).phase = .busy
    ∧ (St.init.run [0, 1] exRaise : St String).handling 0 = some "toggle"
    ∧ (St.init.run [0, 1] exRaise : St String).going = [0]
    ∧ (St.init.run [0, 1] (exRaise ++ [.ret 0 false, .put 1 "x", .dispatch, .take 1]) : St String).taken 1 = []
    ∧ (St.init.run [0, 1] (exRaise ++ [.ret 0 true, .take 0, .put 1 "x", .dispatch, .take 1]) : St String).taken 1 = ["x"]
    ∧ (St.init.run [0] [.spawn 7, .dispatch, .take 0] : St String).phase = .busy
    ∧ (St.init.run [0] [.spawn 7, .dispatch, .take 0] : St String).awaited = [7]
    ∧ (St.init.run [0] [.spawn 7, .dispatch, .take 0, .put 0 "x", .take 0, .dispatch] : St String).taken 0 = []
    ∧ (St.init.run [0] [.spawn 7, .dispatch, .take 0, .finish 7 true] : St String).phase = .idle
    ∧ (St.init.run [0] [.spawn 7, .dispatch, .take 0, .finish 7 false] : St String).phase = .dead := by
  decide +kernel

end Verif.Housekeeping
