/-!
C99: starting and stopping a periodic task: `task/basic/periodic.py` 131–221 once more, now with the calls of
`stop` and `task` as coroutines that wait for the old run to end, and with the dispatches that `shield` keeps
going. (C53 is about the loop of one run.)

A run is one event-loop task that executes `run`. Time and metrics are left out; `stop_extra` returns.
-/
namespace Verif.Stop

inductive Phase where
  /-- created, its first step still to come -/
  | created
  /-- awaits `shield(self.dispatch())`, 166–168 -/
  | dispatching
  /-- awaits `sleep`, 182 -/
  | sleeping
  | ended
  deriving DecidableEq

structure St where
  /-- `_enabled` -/
  enabled : Bool
  runs : List Phase
  /-- runs whose `cancel` was called -/
  cancelled : List Nat
  /-- `_task` -/
  cur : Option Nat
  /-- callers that await a run in `stop`, and whether they are in `task` -/
  waiting : List (Nat × Bool)
  /-- dispatches whose run has ended -/
  orphans : Nat
  /-- dispatches started so far -/
  starts : Nat
  deriving DecidableEq

def St.init : St := ⟨false, [], [], none, [], 0, 0⟩

/-- The state of a run. -/
def St.at (s : St) (r : Nat) : Phase := s.runs.getD r .ended

/-- Dispatches going on. -/
def St.active (s : St) : Nat := s.orphans + s.runs.countP (· == .dispatching)

inductive Ev where
  /-- `stop()`, or `task()` if true, up to where it waits -/
  | call (task : Bool)
  /-- a waiting caller goes on, its run having ended -/
  | resume (k : Nat)
  /-- first step of a run; `paused` as found, and the stop signal if one was given -/
  | begin (r : Nat) (paused : Bool) (sig : Option Bool)
  /-- the dispatch of a run returns, or raises if none -/
  | dispatched (r : Nat) (result : Option Bool) (sig : Option Bool)
  /-- the sleep is over -/
  | wake (r : Nat) (paused : Bool) (sig : Option Bool)
  /-- the cancellation arrives -/
  | cancel (r : Nat)
  /-- a dispatch without run ends -/
  | orphan
  /-- `disable()`, 131–137 -/
  | disable

/-- `create_task(self.run(..))`, 217–220. -/
def St.create (s : St) : St := { s with runs := s.runs ++ [.created], cur := some s.runs.length }

/-- periodic.py 171–178: the stop signal, then sleep or end. -/
def St.after (s : St) (r : Nat) (sig : Option Bool) : St :=
  let e := match sig with | some b => !b | none => s.enabled
  { s with enabled := e, runs := s.runs.set r (if e then .sleeping else .ended) }

/-- The head of the loop, periodic.py 158–168, `_enabled` being set. -/
def St.iterate (s : St) (r : Nat) (paused : Bool) (sig : Option Bool) : St :=
  if paused then s.after r sig
  else { s with runs := s.runs.set r .dispatching, starts := s.starts + 1 }

def St.step (s : St) : Ev → St
  | .call task =>
    match s.cur with
    | none => if task then s.create else s
    | some c =>
      if s.at c = .ended then
        let s := { s with cur := none }
        if task then s.create else s
      else { s with enabled := false, cancelled := c :: s.cancelled, waiting := s.waiting ++ [(c, task)] }
  | .resume k =>
    match s.waiting[k]? with
    | none => s
    | some w =>
      if s.at w.1 = .ended then
        let s := { s with cur := none, waiting := s.waiting.eraseIdx k }
        if w.2 then s.create else s
      else s
  | .begin r paused sig =>
    if s.at r = .created ∧ r ∉ s.cancelled then
      if s.enabled then { s with runs := s.runs.set r .ended }
      else { s with enabled := true }.iterate r paused sig
    else s
  | .dispatched r result sig =>
    if s.at r = .dispatching ∧ r ∉ s.cancelled then
      match result with
      | none => { s with runs := s.runs.set r .ended }
      | some b => { s with enabled := b }.after r sig
    else s
  | .wake r paused sig =>
    if s.at r = .sleeping ∧ r ∉ s.cancelled then
      if s.enabled then s.iterate r paused sig else { s with runs := s.runs.set r .ended }
    else s
  | .cancel r =>
    if r ∈ s.cancelled then
      match s.at r with
      | .created => { s with runs := s.runs.set r .ended }
      | .dispatching => { s with runs := s.runs.set r .ended, orphans := s.orphans + 1 }
      | .sleeping => { s with enabled := false, runs := s.runs.set r .ended }
      | .ended => s
    else s
  | .orphan => { s with orphans := s.orphans - 1 }
  | .disable => { s with enabled := false }

def St.run (s : St) (es : List Ev) : St := es.foldl St.step s

theorem run_append (s : St) (es fs : List Ev) : s.run (es ++ fs) = (s.run es).run fs := by
  unfold St.run
  rw [List.foldl_append]

theorem run_nil (s : St) : s.run [] = s := rfl

theorem run_cons (s : St) (e : Ev) (es : List Ev) : s.run (e :: es) = (s.step e).run es := rfl

/-- Histories in which `stop` and `task` are not called while another call of them waits. -/
def serial : St → List Ev → Prop
  | _, [] => True
  | s, e :: es => (∀ t, e = .call t → s.waiting = []) ∧ serial (s.step e) es

/-! ### One run at a time -/

theorem at_set (s : St) (runs : List Phase) (r j : Nat) (p : Phase) :
    ({ s with runs := runs.set r p } : St).at j = if j = r ∧ r < runs.length then p else runs.getD j .ended := by
  unfold St.at
  dsimp only
  rw [List.getD_eq_getElem?_getD, List.getElem?_set]
  by_cases h : r = j
  · subst h
    rw [if_pos rfl]
    by_cases hl : r < runs.length
    · rw [if_pos hl, if_pos ⟨rfl, hl⟩]; rfl
    · rw [if_neg hl, if_neg (fun h => hl h.2), List.getD_eq_getElem?_getD, List.getElem?_eq_none (by omega)]
  · rw [if_neg h, if_neg (fun h' => h h'.1.symm), List.getD_eq_getElem?_getD]

theorem at_create (s : St) (j : Nat) : s.create.at j = if j = s.runs.length then .created else s.at j := by
  unfold St.create St.at
  dsimp only
  rw [List.getD_eq_getElem?_getD, List.getD_eq_getElem?_getD]
  by_cases h : j = s.runs.length
  · subst h; simp
  · rw [if_neg h]
    by_cases hl : j < s.runs.length
    · rw [List.getElem?_append_left hl]
    · rw [List.getElem?_append_right (by omega), List.getElem?_eq_none (l := s.runs) (by omega)]
      rw [List.getElem?_eq_none]
      simp; omega

/-- Only the current run is alive; a caller waits for the current run, cancelled. -/
structure Inv (s : St) : Prop where
  alive : ∀ j, s.at j ≠ .ended → s.cur = some j
  waits : ∀ w ∈ s.waiting, s.cur = some w.1 ∧ w.1 ∈ s.cancelled
  few : s.waiting.length ≤ 1
  fresh : ∀ j ∈ s.cancelled, j < s.runs.length

theorem inv_create (s : St) (h : Inv s) (hd : ∀ j, s.at j = .ended) (hw : s.waiting = []) : Inv s.create := by
  refine ⟨?_, ?_, h.few, ?_⟩
  · intro j hj
    rw [at_create] at hj
    by_cases e : j = s.runs.length
    · subst e; rfl
    · rw [if_neg e] at hj; exact absurd (hd j) hj
  · intro w hm
    have : s.create.waiting = s.waiting := rfl
    rw [this, hw] at hm; cases hm
  · intro j hj
    have := h.fresh j hj
    show j < (s.runs ++ [Phase.created]).length
    rw [List.length_append]; omega

/-- Changing the state of a run that is alive keeps it so. -/
theorem inv_set (s : St) (h : Inv s) (r : Nat) (p : Phase) (hr : s.at r ≠ .ended) (e : Bool) (o n : Nat) :
    Inv { s with enabled := e, runs := s.runs.set r p, orphans := o, starts := n } := by
  refine ⟨?_, h.waits, h.few, ?_⟩
  · intro j hj
    rw [show ({ s with enabled := e, runs := s.runs.set r p, orphans := o, starts := n } : St).at j = _ from at_set s s.runs r j p] at hj
    by_cases hc : j = r ∧ r < s.runs.length
    · rw [hc.1]; exact h.alive r hr
    · rw [if_neg hc] at hj; exact h.alive j hj
  · intro j hj
    have := h.fresh j hj
    simpa using this

theorem inv_step (s : St) (h : Inv s) (e : Ev) (he : ∀ t, e = .call t → s.waiting = []) : Inv (s.step e) := by
  have hafter : ∀ (r : Nat) (sig : Option Bool) (b : Bool), s.at r ≠ .ended → Inv (St.after { s with enabled := b } r sig) := by
    intro r sig b hr
    exact inv_set s h r _ hr _ s.orphans s.starts
  have hiter : ∀ (r : Nat) (paused : Bool) (sig : Option Bool) (b : Bool), s.at r ≠ .ended → Inv (St.iterate { s with enabled := b } r paused sig) := by
    intro r paused sig b hr
    unfold St.iterate
    split
    · exact hafter r sig b hr
    · exact inv_set s h r .dispatching hr b s.orphans (s.starts + 1)
  cases e with
  | call t =>
    have hw := he t rfl
    unfold St.step
    dsimp only
    cases hc : s.cur with
    | none =>
      dsimp only
      have hd : ∀ j, s.at j = .ended := by
        intro j
        by_cases hj : s.at j = .ended
        · exact hj
        · have := h.alive j hj; rw [hc] at this; cases this
      split
      · exact inv_create s h hd hw
      · exact h
    | some c =>
      dsimp only
      by_cases hend : s.at c = .ended
      · rw [if_pos hend]
        have hd : ∀ j, s.at j = .ended := by
          intro j
          by_cases hj : s.at j = .ended
          · exact hj
          · have := h.alive j hj
            rw [hc] at this
            rw [← Option.some.inj this] at hj
            exact absurd hend hj
        have h' : Inv { s with cur := none } := by
          refine ⟨fun j hj => absurd (hd j) hj, ?_, h.few, h.fresh⟩
          intro w hm
          have : w ∈ s.waiting := hm
          rw [hw] at this; cases this
        split
        · exact inv_create _ h' hd hw
        · exact h'
      · rw [if_neg hend]
        refine ⟨?_, ?_, ?_, ?_⟩
        · intro j hj
          have := h.alive j hj
          rw [hc] at this; exact this
        · intro w hm
          dsimp only at hm ⊢
          rw [hw, List.nil_append, List.mem_singleton] at hm
          subst hm
          exact ⟨rfl, List.mem_cons_self ..⟩
        · dsimp only; rw [hw]; simp
        · intro j hj
          rcases List.mem_cons.mp hj with e | hj
          · subst e
            dsimp only
            by_cases hl : j < s.runs.length
            · exact hl
            · exfalso; apply hend
              unfold St.at
              rw [List.getD_eq_getElem?_getD, List.getElem?_eq_none (by omega)]; rfl
          · exact h.fresh j hj
  | resume k =>
    unfold St.step
    dsimp only
    split
    · exact h
    · rename_i w hk
      split
      · rename_i hend
        have hw := List.mem_of_getElem? hk
        obtain ⟨hcur, _⟩ := h.waits w hw
        have hd : ∀ j, s.at j = .ended := by
          intro j
          by_cases hj : s.at j = .ended
          · exact hj
          · have := h.alive j hj
            rw [hcur] at this
            rw [← Option.some.inj this] at hj
            exact absurd hend hj
        have hempty : s.waiting.eraseIdx k = [] := by
          have hlt : k < s.waiting.length := by
            rw [List.getElem?_eq_some_iff] at hk; exact hk.1
          have := h.few
          apply List.length_eq_zero_iff.mp
          rw [List.length_eraseIdx_of_lt hlt]; omega
        have h' : Inv { s with cur := none, waiting := s.waiting.eraseIdx k } := by
          refine ⟨fun j hj => absurd (hd j) hj, ?_, ?_, h.fresh⟩
          · intro w hm
            dsimp only at hm
            rw [hempty] at hm; cases hm
          · dsimp only; rw [hempty]; decide
        split
        · exact inv_create _ h' hd hempty
        · exact h'
      · exact h
  | begin r paused sig =>
    unfold St.step
    dsimp only
    split
    · rename_i hr
      have hne : s.at r ≠ .ended := by rw [hr.1]; decide
      split
      · exact inv_set s h r .ended hne s.enabled s.orphans s.starts
      · exact hiter r paused sig true hne
    · exact h
  | dispatched r result sig =>
    unfold St.step
    dsimp only
    split
    · rename_i hr
      have hne : s.at r ≠ .ended := by rw [hr.1]; decide
      split
      · exact inv_set s h r .ended hne s.enabled s.orphans s.starts
      · exact hafter r sig _ hne
    · exact h
  | wake r paused sig =>
    unfold St.step
    dsimp only
    split
    · rename_i hr
      have hne : s.at r ≠ .ended := by rw [hr.1]; decide
      split
      · exact hiter r paused sig s.enabled hne
      · exact inv_set s h r .ended hne s.enabled s.orphans s.starts
    · exact h
  | cancel r =>
    unfold St.step
    dsimp only
    split
    · split
      · rename_i hr; exact inv_set s h r .ended (by rw [hr]; decide) s.enabled s.orphans s.starts
      · rename_i hr; exact inv_set s h r .ended (by rw [hr]; decide) s.enabled (s.orphans + 1) s.starts
      · rename_i hr; exact inv_set s h r .ended (by rw [hr]; decide) false s.orphans s.starts
      · exact h
    · exact h
  | orphan => exact ⟨h.alive, h.waits, h.few, h.fresh⟩
  | disable => exact ⟨h.alive, h.waits, h.few, h.fresh⟩

theorem inv_init : Inv St.init := by
  refine ⟨?_, ?_, ?_, ?_⟩
  · intro j hj; exact absurd rfl hj
  · intro w hw; cases hw
  · decide
  · intro j hj; cases hj

theorem inv_run (es : List Ev) : ∀ s : St, Inv s → serial s es → Inv (s.run es) := by
  induction es with
  | nil => intro s h _; exact h
  | cons e es ih => intro s h hs; exact ih _ (inv_step s h e hs.1) hs.2

/-- C99: if `stop` and `task` are called one after the other, at most one run is alive at any time, and it
is the one that `stop` stops. -/
theorem C99_single (es : List Ev) (hs : serial St.init es) (i j : Nat)
    (hi : (St.init.run es).at i ≠ .ended) (hj : (St.init.run es).at j ≠ .ended) :
    i = j ∧ (St.init.run es).cur = some i := by
  have h := inv_run es St.init inv_init hs
  have h1 := h.alive i hi
  have h2 := h.alive j hj
  rw [h1] at h2
  exact ⟨Option.some.inj h2, h1⟩

/-! ### After stopping -/

theorem quiet_step (s : St) (h : ∀ j, s.at j = .ended) (hc : s.cur = none) (hw : s.waiting = []) (e : Ev)
    (he : e ≠ .call true) :
    (∀ j, (s.step e).at j = .ended) ∧ (s.step e).cur = none ∧ (s.step e).waiting = [] ∧ (s.step e).starts = s.starts := by
  cases e with
  | call t =>
    cases t with
    | true => exact absurd rfl he
    | false => unfold St.step; dsimp only; rw [hc]; exact ⟨h, hc, hw, rfl⟩
  | resume k =>
    unfold St.step
    dsimp only
    have hk : s.waiting[k]? = none := by rw [hw]; rfl
    rw [hk]
    exact ⟨h, hc, hw, rfl⟩
  | begin r paused sig =>
    unfold St.step
    dsimp only
    rw [if_neg (by rw [h r]; rintro ⟨h', _⟩; cases h')]
    exact ⟨h, hc, hw, rfl⟩
  | dispatched r result sig =>
    unfold St.step
    dsimp only
    rw [if_neg (by rw [h r]; rintro ⟨h', _⟩; cases h')]
    exact ⟨h, hc, hw, rfl⟩
  | wake r paused sig =>
    unfold St.step
    dsimp only
    rw [if_neg (by rw [h r]; rintro ⟨h', _⟩; cases h')]
    exact ⟨h, hc, hw, rfl⟩
  | cancel r =>
    unfold St.step
    dsimp only
    split
    · rw [h r]; exact ⟨h, hc, hw, rfl⟩
    · exact ⟨h, hc, hw, rfl⟩
  | orphan => exact ⟨h, hc, hw, rfl⟩
  | disable => exact ⟨h, hc, hw, rfl⟩

/-- C99: once `stop` has returned, no dispatch starts until `task` is called. -/
theorem C99_quiet (es fs : List Ev) (hs : serial St.init es) (hc : (St.init.run es).cur = none)
    (hf : Ev.call true ∉ fs) : (St.init.run (es ++ fs)).starts = (St.init.run es).starts := by
  have h := inv_run es St.init inv_init hs
  rw [run_append]
  revert hc h
  generalize St.init.run es = s
  intro hc h
  have hd : ∀ j, s.at j = .ended := by
    intro j
    by_cases hj : s.at j = .ended
    · exact hj
    · have := h.alive j hj; rw [hc] at this; cases this
  have hw : s.waiting = [] := by
    cases hl : s.waiting with
    | nil => rfl
    | cons w ws =>
      have := (h.waits w (by rw [hl]; exact List.mem_cons_self ..)).1
      rw [hc] at this; cases this
  clear h hs
  induction fs generalizing s with
  | nil => rfl
  | cons e fs ih =>
    rw [List.mem_cons, not_or] at hf
    obtain ⟨h1, h2, h3, h4⟩ := quiet_step s hd hc hw e (fun e' => hf.1 e'.symm)
    rw [run_cons, ih hf.2 _ h2 h1 h3, h4]

/-- C99: a run whose dispatch has returned ends when the stop signal is set, or, without signal, when it returned
false; the task can then be started again, and the new run dispatches. -/
theorem C99_ends (s : St) (r : Nat) (b : Bool) (sig : Option Bool) (hc : s.cur = some r) (hd : s.at r = .dispatching)
    (hn : r ∉ s.cancelled) (hm : s.runs.length ∉ s.cancelled) (hs : sig = some true ∨ sig = none ∧ b = false) :
    (s.run [.dispatched r (some b) sig]).at r = .ended ∧
    (s.run [.dispatched r (some b) sig, .call true, .begin s.runs.length false none]).at s.runs.length = .dispatching ∧
    (s.run [.dispatched r (some b) sig, .call true, .begin s.runs.length false none]).starts = s.starts + 1 := by
  have hr : r < s.runs.length := by
    by_cases h : r < s.runs.length
    · exact h
    · simp [St.at, List.getD_eq_getElem?_getD, List.getElem?_eq_none (Nat.le_of_not_lt h)] at hd
  have e1 : s.step (.dispatched r (some b) sig) = { s with enabled := false, runs := s.runs.set r .ended } := by
    rcases hs with h | ⟨h, hb⟩
    · subst h; simp [St.step, hd, hn, St.after]
    · subst h; subst hb; simp [St.step, hd, hn, St.after]
  have e0 : (s.step (.dispatched r (some b) sig)).at r = .ended := by
    rw [e1]; simp [St.at, List.getD_eq_getElem?_getD, List.getElem?_set, hr]
  refine ⟨e0, ?_⟩
  rw [run_cons, run_cons, run_cons, run_nil]
  have e2 : (s.step (.dispatched r (some b) sig)).step (.call true) =
      { s with enabled := false, runs := s.runs.set r .ended ++ [.created], cur := some s.runs.length } := by
    rw [e1] at e0 ⊢
    have e0' : St.at { s with enabled := false, runs := s.runs.set r .ended } r = .ended := e0
    unfold St.step
    dsimp only
    rw [hc]
    dsimp only
    rw [if_pos (by rw [hc] at e0'; exact e0')]
    simp [St.create]
  rw [e2]
  have e3 : (s.runs.set r .ended ++ [Phase.created]).getD s.runs.length Phase.ended = .created := by
    simp [List.getD_eq_getElem?_getD]
  have e4 : (s.runs.set r .ended ++ [Phase.created]).set s.runs.length .dispatching =
      s.runs.set r .ended ++ [.dispatching] := by
    rw [List.set_append_right _ _ (by simp)]
    simp
  simp only [St.step, St.at, e3, hm, not_false_eq_true, and_self, if_true, Bool.false_eq_true, if_false, St.iterate, e4,
    and_true]
  simp [List.getD_eq_getElem?_getD]

/-- C99: `stop` ends whatever run there is: when the cancellation has arrived, the caller goes on, and
nothing is left to stop; the same caller in `task` then has a new run. -/
theorem C99_stops (es : List Ev) (hs : serial St.init es) (c : Nat) (hw : (St.init.run es).waiting = [])
    (hc : (St.init.run es).cur = some c) (ha : (St.init.run es).at c ≠ .ended) :
    (∀ j, (St.init.run (es ++ [.call false, .cancel c, .resume 0])).at j = .ended) ∧
    (St.init.run (es ++ [.call false, .cancel c, .resume 0])).cur = none ∧
    (St.init.run (es ++ [.call true, .cancel c, .resume 0])).cur = some (St.init.run es).runs.length ∧
    (St.init.run (es ++ [.call true, .cancel c, .resume 0])).at (St.init.run es).runs.length = .created := by
  have hinv := inv_run es St.init inv_init hs
  have key : ∀ t, ∃ e, ∃ o, (St.init.run (es ++ [.call t, .cancel c]))
      = { St.init.run es with enabled := e, cancelled := c :: (St.init.run es).cancelled, waiting := [(c, t)],
                               runs := (St.init.run es).runs.set c .ended, orphans := o } := by
    intro t
    rw [run_append]
    generalize St.init.run es = s at *
    have e1 : s.step (.call t) = { s with enabled := false, cancelled := c :: s.cancelled, waiting := [(c, t)] } := by
      unfold St.step
      dsimp only
      rw [hc]
      dsimp only
      rw [if_neg ha, hw]
      rfl
    show ∃ e o, (s.step (.call t)).step (.cancel c) = _
    rw [e1]
    unfold St.step
    dsimp only
    rw [if_pos (List.mem_cons_self ..)]
    have hat : ({ s with enabled := false, cancelled := c :: s.cancelled, waiting := [(c, t)] } : St).at c = s.at c := rfl
    rw [hat]
    cases hp : s.at c with
    | created => exact ⟨false, s.orphans, rfl⟩
    | dispatching => exact ⟨false, s.orphans + 1, rfl⟩
    | sleeping => exact ⟨false, s.orphans, rfl⟩
    | ended => exact absurd hp ha
  have split3 : ∀ t, es ++ [Ev.call t, .cancel c, .resume 0] = (es ++ [Ev.call t, .cancel c]) ++ [.resume 0] := by
    intro t; simp
  have hends : ∀ j, ({ St.init.run es with runs := (St.init.run es).runs.set c .ended } : St).at j = .ended := by
    intro j
    rw [at_set]
    by_cases hj : j = c ∧ c < (St.init.run es).runs.length
    · rw [if_pos hj]
    · rw [if_neg hj]
      by_cases hjc : (St.init.run es).at j = .ended
      · exact hjc
      · have := hinv.alive j hjc
        rw [hc] at this
        have hjc' : c = j := Option.some.inj this
        subst hjc'
        have : ¬ c < (St.init.run es).runs.length := fun hl => hj ⟨rfl, hl⟩
        exfalso; apply hjc
        unfold St.at
        rw [List.getD_eq_getElem?_getD, List.getElem?_eq_none (by omega)]; rfl
  obtain ⟨e0, o0, h0⟩ := key false
  obtain ⟨e1, o1, h1⟩ := key true
  rw [split3, split3, run_append _ (es ++ [Ev.call false, .cancel c]), run_append _ (es ++ [Ev.call true, .cancel c]), h0, h1]
  generalize St.init.run es = s at *
  have r : ∀ (t : Bool) (e : Bool) (o : Nat), St.run { s with enabled := e, cancelled := c :: s.cancelled, waiting := [(c, t)], runs := s.runs.set c .ended, orphans := o } [.resume 0]
      = (if t then St.create { s with enabled := e, cancelled := c :: s.cancelled, waiting := [], cur := none, runs := s.runs.set c .ended, orphans := o }
         else { s with enabled := e, cancelled := c :: s.cancelled, waiting := [], cur := none, runs := s.runs.set c .ended, orphans := o }) := by
    intro t e o
    rw [run_cons, run_nil]
    unfold St.step
    dsimp only
    rw [show ([(c, t)] : List (Nat × Bool))[0]? = some (c, t) from rfl]
    dsimp only
    rw [if_pos (by exact hends c)]
    rfl
  rw [r false, r true]
  refine ⟨hends, rfl, ?_, ?_⟩
  · show some (s.runs.set c Phase.ended).length = _
    rw [List.length_set]
  · rw [if_pos rfl, at_create]
    have : s.runs.length = (s.runs.set c Phase.ended).length := (List.length_set ..).symm
    rw [if_pos this]

/-! ### Dispatches -/

/-- Serial histories in which no call comes while a dispatch goes on. -/
def calm : St → List Ev → Prop
  | _, [] => True
  | s, e :: es => (∀ t, e = .call t → s.waiting = [] ∧ s.active = 0) ∧ calm (s.step e) es

theorem calm_serial (es : List Ev) : ∀ s, calm s es → serial s es := by
  induction es with
  | nil => intro s h; exact h
  | cons e es ih => intro s h; exact ⟨fun t ht => (h.1 t ht).1, ih _ h.2⟩

/-- No dispatch is left without run, and none is in a run that was cancelled. -/
structure Calm (s : St) : Prop where
  inv : Inv s
  orphans : s.orphans = 0
  safe : ∀ j, s.at j = .dispatching → j ∉ s.cancelled

theorem count_zero (s : St) (h : s.active = 0) (j : Nat) : s.at j ≠ .dispatching := by
  intro hj
  unfold St.active at h
  have h0 : s.runs.countP (· == .dispatching) = 0 := by omega
  rw [List.countP_eq_zero] at h0
  unfold St.at at hj
  rw [List.getD_eq_getElem?_getD] at hj
  cases hg : s.runs[j]? with
  | none => rw [hg] at hj; cases hj
  | some p =>
    rw [hg] at hj
    have := h0 p (List.mem_of_getElem? hg)
    simp at hj
    rw [hj] at this
    exact this (by decide)

theorem calm_step (s : St) (h : Calm s) (e : Ev) (he : ∀ t, e = .call t → s.waiting = [] ∧ s.active = 0) :
    Calm (s.step e) := by
  have hi := inv_step s h.inv e (fun t ht => (he t ht).1)
  have hset : ∀ (r : Nat) (p : Phase) (j : Nat), (p = .dispatching → r ∉ s.cancelled) →
      ({ s with runs := s.runs.set r p } : St).at j = .dispatching → j ∉ s.cancelled := by
    intro r p j hp hj
    rw [at_set] at hj
    by_cases hc : j = r ∧ r < s.runs.length
    · rw [if_pos hc] at hj; rw [hc.1]; exact hp hj
    · rw [if_neg hc] at hj; exact h.safe j hj
  cases e with
  | call t =>
    obtain ⟨hw, ha⟩ := he t rfl
    refine ⟨hi, ?_, ?_⟩
    · unfold St.step
      dsimp only
      split
      · split <;> exact h.orphans
      · split
        · split <;> exact h.orphans
        · exact h.orphans
    · intro j hj
      exfalso
      have hno : ∀ j, s.at j ≠ .dispatching := count_zero s ha
      revert hj
      unfold St.step
      dsimp only
      split
      · split
        · rw [at_create]; split
          · intro hx; cases hx
          · exact hno j
        · exact hno j
      · split
        · split
          · rw [at_create]; split
            · intro hx; cases hx
            · exact hno j
          · exact hno j
        · exact hno j
  | resume k =>
    refine ⟨hi, ?_, ?_⟩
    · unfold St.step
      dsimp only
      split
      · exact h.orphans
      · split
        · split <;> exact h.orphans
        · exact h.orphans
    · intro j
      unfold St.step
      dsimp only
      split
      · exact h.safe j
      · split
        · split
          · intro hj
            rw [at_create] at hj
            split at hj
            · cases hj
            · exact h.safe j hj
          · exact h.safe j
        · exact h.safe j
  | begin r paused sig =>
    refine ⟨hi, ?_, ?_⟩
    · unfold St.step St.iterate St.after
      dsimp only
      split
      · split
        · exact h.orphans
        · split <;> exact h.orphans
      · exact h.orphans
    · intro j
      unfold St.step St.iterate St.after
      dsimp only
      split
      · rename_i hr
        split
        · exact hset r .ended j (fun e => by cases e)
        · split
          · exact hset r _ j (fun _ => hr.2)
          · exact hset r .dispatching j (fun _ => hr.2)
      · exact h.safe j
  | dispatched r result sig =>
    refine ⟨hi, ?_, ?_⟩
    · unfold St.step St.after
      dsimp only
      split
      · split <;> exact h.orphans
      · exact h.orphans
    · intro j
      unfold St.step St.after
      dsimp only
      split
      · rename_i hr
        split
        · exact hset r .ended j (fun e => by cases e)
        · exact hset r _ j (fun _ => hr.2)
      · exact h.safe j
  | wake r paused sig =>
    refine ⟨hi, ?_, ?_⟩
    · unfold St.step St.iterate St.after
      dsimp only
      split
      · split
        · split <;> exact h.orphans
        · exact h.orphans
      · exact h.orphans
    · intro j
      unfold St.step St.iterate St.after
      dsimp only
      split
      · rename_i hr
        split
        · split
          · exact hset r _ j (fun _ => hr.2)
          · exact hset r .dispatching j (fun _ => hr.2)
        · exact hset r .ended j (fun e => by cases e)
      · exact h.safe j
  | cancel r =>
    refine ⟨hi, ?_, ?_⟩
    · unfold St.step
      dsimp only
      split
      · rename_i hm
        split
        · exact h.orphans
        · rename_i hr; exact absurd hm (h.safe r hr)
        · exact h.orphans
        · exact h.orphans
      · exact h.orphans
    · intro j
      unfold St.step
      dsimp only
      split
      · split
        · exact hset r .ended j (fun e => by cases e)
        · exact hset r .ended j (fun e => by cases e)
        · exact hset r .ended j (fun e => by cases e)
        · exact h.safe j
      · exact h.safe j
  | orphan => exact ⟨hi, by show s.orphans - 1 = 0; rw [h.orphans], h.safe⟩
  | disable => exact ⟨hi, h.orphans, h.safe⟩

theorem calm_run (es : List Ev) : ∀ s, Calm s → calm s es → Calm (s.run es) := by
  induction es with
  | nil => intro s h _; exact h
  | cons e es ih => intro s h hs; exact ih _ (calm_step s h e hs.1) hs.2

theorem count_le_one (l : List Phase) (h : ∀ i j, l.getD i .ended ≠ .ended → l.getD j .ended ≠ .ended → i = j) :
    l.countP (· == .dispatching) ≤ 1 := by
  induction l with
  | nil => exact Nat.zero_le _
  | cons p l ih =>
    have hl : ∀ i j, l.getD i .ended ≠ .ended → l.getD j .ended ≠ .ended → i = j := by
      intro i j hi hj
      have := h (i + 1) (j + 1) (by simpa using hi) (by simpa using hj)
      omega
    rw [List.countP_cons]
    by_cases hp : p = .dispatching
    · subst hp
      have hz : l.countP (· == .dispatching) = 0 := by
        rw [List.countP_eq_zero]
        intro q hq hqd
        have hqd : q = .dispatching := by simpa using hqd
        subst hqd
        obtain ⟨i, hi⟩ := List.mem_iff_getElem?.mp hq
        have := h 0 (i + 1) (by simp) (by simp [List.getD_eq_getElem?_getD, hi])
        omega
      rw [hz]; decide
    · have : (p == Phase.dispatching) = false := by simpa using hp
      rw [this]
      simpa using ih hl

/-- C99: at most one dispatch goes on at any time, if `stop` and `task` are called one after the other and
not during a dispatch. -/
theorem C99_one_partial (es : List Ev) (hs : calm St.init es) : (St.init.run es).active ≤ 1 := by
  have h := calm_run es St.init ⟨inv_init, rfl, fun j hj => by cases hj⟩ hs
  unfold St.active
  rw [h.orphans, Nat.zero_add]
  apply count_le_one
  intro i j hi hj
  have h1 := h.inv.alive i hi
  have h2 := h.inv.alive j hj
  rw [h1] at h2
  exact Option.some.inj h2

/-- C99 fails for calls during a dispatch: `stop` returns while the dispatch goes on. -/
theorem C99_shield_fails (s : St) (c : Nat) (hw : s.waiting = []) (hc : s.cur = some c) (hd : s.at c = .dispatching) :
    (s.run [.call false, .cancel c, .resume 0]).cur = none ∧
    (s.run [.call false, .cancel c, .resume 0]).waiting = [] ∧
    (s.run [.call false, .cancel c, .resume 0]).orphans = s.orphans + 1 := by
  have e1 : s.step (.call false) = { s with enabled := false, cancelled := c :: s.cancelled, waiting := [(c, false)] } := by
    unfold St.step
    dsimp only
    rw [hc]
    dsimp only
    rw [if_neg (by rw [hd]; decide), hw]
    rfl
  have e2 : ({ s with enabled := false, cancelled := c :: s.cancelled, waiting := [(c, false)] } : St).step (.cancel c)
      = { s with enabled := false, cancelled := c :: s.cancelled, waiting := [(c, false)], runs := s.runs.set c .ended, orphans := s.orphans + 1 } := by
    unfold St.step
    dsimp only
    rw [if_pos (List.mem_cons_self ..)]
    have hat : ({ s with enabled := false, cancelled := c :: s.cancelled, waiting := [(c, false)] } : St).at c = .dispatching := hd
    rw [hat]
  have hlt : c < s.runs.length := by
    by_cases hl : c < s.runs.length
    · exact hl
    · exfalso
      unfold St.at at hd
      rw [List.getD_eq_getElem?_getD, List.getElem?_eq_none (by omega)] at hd
      cases hd
  have hend : ({ s with enabled := false, cancelled := c :: s.cancelled, waiting := [(c, false)], runs := s.runs.set c .ended, orphans := s.orphans + 1 } : St).at c = .ended := by
    unfold St.at
    dsimp only
    rw [List.getD_eq_getElem?_getD, List.getElem?_set, if_pos rfl, if_pos hlt]
    rfl
  have e3 : s.run [.call false, .cancel c, .resume 0]
      = { s with enabled := false, cancelled := c :: s.cancelled, waiting := [], cur := none, runs := s.runs.set c .ended, orphans := s.orphans + 1 } := by
    rw [run_cons, run_cons, e1, e2, run_cons, run_nil]
    generalize hs' : ({ s with enabled := false, cancelled := c :: s.cancelled, waiting := [(c, false)], runs := s.runs.set c .ended, orphans := s.orphans + 1 } : St) = s' at hend
    have hw' : s'.waiting[0]? = some (c, false) := by rw [← hs']; rfl
    unfold St.step
    dsimp only
    rw [hw']
    dsimp only
    rw [if_pos hend]
    rw [← hs']
    rfl
  rw [e3]
  exact ⟨rfl, rfl, rfl⟩

/-- n times: start, begin the first dispatch, start again. -/
def overlap : Nat → List Ev
  | 0 => []
  | n + 1 => overlap n ++ [.begin n false none, .call true, .cancel n, .resume 0]

/-- C99 fails without bound: a task started again during its dispatches has any number of them going on at
once. -/
theorem C99_overlap_fails (n : Nat) : serial St.init (.call true :: overlap n) ∧
    (St.init.run (.call true :: overlap n)).active = n := by
  have key : ∀ n, serial St.init (.call true :: overlap n) ∧ ∃ l x,
      St.init.run (.call true :: overlap n) = ⟨false, List.replicate n .ended ++ [.created], l, some n, [], n, x⟩ ∧ (∀ j ∈ l, j < n) := by
    have ser_append : ∀ (a b : List Ev) (s : St), serial s a → serial (s.run a) b → serial s (a ++ b) := by
      intro a
      induction a with
      | nil => intro b s _ h; exact h
      | cons e a ih => intro b s h h'; exact ⟨h.1, ih b _ h.2 h'⟩
    intro n
    induction n with
    | zero => exact ⟨⟨fun t _ => rfl, trivial⟩, [], 0, rfl, fun j hj => by cases hj⟩
    | succ n ih =>
      obtain ⟨hser, l, x, hrun, hl⟩ := ih
      have hn : n ∉ l := fun hm => Nat.lt_irrefl _ (hl n hm)
      have happ : Ev.call true :: overlap (n + 1) = (.call true :: overlap n) ++ [.begin n false none, .call true, .cancel n, .resume 0] := rfl
      have s1 : St.step ⟨false, List.replicate n .ended ++ [.created], l, some n, [], n, x⟩ (.begin n false none)
          = ⟨true, List.replicate n .ended ++ [.dispatching], l, some n, [], n, x + 1⟩ := by
        have hat : St.at ⟨false, List.replicate n .ended ++ [.created], l, some n, [], n, x⟩ n = .created := by
          simp [St.at]
        unfold St.step
        dsimp only
        rw [if_pos ⟨hat, hn⟩]
        simp [St.iterate]
      have s2 : St.step ⟨true, List.replicate n .ended ++ [.dispatching], l, some n, [], n, x + 1⟩ (.call true)
          = ⟨false, List.replicate n .ended ++ [.dispatching], n :: l, some n, [(n, true)], n, x + 1⟩ := by
        have hat : St.at ⟨true, List.replicate n .ended ++ [.dispatching], l, some n, [], n, x + 1⟩ n = .dispatching := by
          simp [St.at]
        unfold St.step
        dsimp only
        rw [if_neg (by rw [hat]; decide)]
        rfl
      have s3 : St.step ⟨false, List.replicate n .ended ++ [.dispatching], n :: l, some n, [(n, true)], n, x + 1⟩ (.cancel n)
          = ⟨false, List.replicate (n + 1) .ended, n :: l, some n, [(n, true)], n + 1, x + 1⟩ := by
        have hat : St.at ⟨false, List.replicate n .ended ++ [.dispatching], n :: l, some n, [(n, true)], n, x + 1⟩ n = .dispatching := by
          simp [St.at]
        unfold St.step
        dsimp only
        rw [if_pos (List.mem_cons_self ..), hat]
        simp [List.replicate_succ']
      have s4 : St.step ⟨false, List.replicate (n + 1) .ended, n :: l, some n, [(n, true)], n + 1, x + 1⟩ (.resume 0)
          = ⟨false, List.replicate (n + 1) .ended ++ [.created], n :: l, some (n + 1), [], n + 1, x + 1⟩ := by
        have hat : St.at ⟨false, List.replicate (n + 1) .ended, n :: l, some n, [(n, true)], n + 1, x + 1⟩ n = .ended := by
          unfold St.at
          dsimp only
          rw [List.getD_eq_getElem?_getD, List.getElem?_replicate]
          split <;> rfl
        unfold St.step
        dsimp only
        rw [show ([(n, true)] : List (Nat × Bool))[0]? = some (n, true) from rfl]
        dsimp only
        rw [if_pos hat]
        simp [St.create]
      refine ⟨?_, n :: l, x + 1, ?_, ?_⟩
      · rw [happ]
        apply ser_append _ _ _ hser
        rw [hrun]
        refine ⟨?_, ?_, ?_, ?_, trivial⟩
        · intro t ht; cases ht
        · intro t _; rw [s1]
        · intro t ht; cases ht
        · intro t ht; cases ht
      · rw [happ, run_append, hrun]
        rw [run_cons, run_cons, run_cons, run_cons, run_nil, s1, s2, s3, s4]
      · intro j hj
        rcases List.mem_cons.mp hj with e | e
        · omega
        · have := hl j e; omega
  obtain ⟨h1, l, x, h2, _⟩ := key n
  refine ⟨h1, ?_⟩
  rw [h2]
  unfold St.active
  simp [List.countP_replicate]

/-! ### Concurrent calls -/

/-- Two calls of `task` at once, while a run sleeps. -/
def exTwice : List Ev := [.call true, .begin 0 false none, .dispatched 0 (some true) none, .call true, .call true,
  .cancel 0, .resume 0, .begin 1 false none, .resume 0]

/-- C99 fails for concurrent calls: there is a run that no number of calls of `stop` stops. -/
theorem C99_lost_fails (n : Nat) :
    (St.init.run exTwice).at 1 = .dispatching ∧
    (St.init.run (exTwice ++ [.begin 2 false none] ++ List.replicate n (.call false) ++ [.dispatched 1 (some true) none])).at 1 = .sleeping := by
  have h2 : St.init.run (exTwice ++ [.begin 2 false none]) = ⟨true, [.ended, .dispatching, .ended], [0, 0], some 2, [], 0, 2⟩ := by
    decide +kernel
  refine ⟨by decide +kernel, ?_⟩
  rw [run_append, run_append, h2]
  have h3 : ∀ n, (St.run ⟨true, [.ended, .dispatching, .ended], [0, 0], none, [], 0, 2⟩ (List.replicate n (.call false)))
      = ⟨true, [.ended, .dispatching, .ended], [0, 0], none, [], 0, 2⟩ := by
    intro n
    induction n with
    | zero => rfl
    | succ n ih => rw [List.replicate_succ, run_cons]; exact ih
  cases n with
  | zero => decide +kernel
  | succ n =>
    rw [List.replicate_succ]
    have h4 : St.step ⟨true, [.ended, .dispatching, .ended], [0, 0], some 2, [], 0, 2⟩ (.call false)
        = ⟨true, [.ended, .dispatching, .ended], [0, 0], none, [], 0, 2⟩ := by decide +kernel
    rw [run_cons _ (.call false) (List.replicate n (.call false)), h4, h3]
    decide +kernel

/-! ### A concrete history -/

def exCalm : List Ev := [.call true, .begin 0 false none, .dispatched 0 (some true) none, .call true, .cancel 0, .resume 0,
  .begin 1 false none]

theorem calm_dec : calm St.init exCalm := by
  refine ⟨?_, ?_, ?_, ?_, ?_, ?_, ?_, trivial⟩ <;> intro t ht <;> first | (cases ht; done) | decide +kernel

theorem C99_cases :
    (St.init.run exCalm).active = 1 ∧ (St.init.run exCalm).at 1 = .dispatching ∧ (St.init.run exCalm).at 0 = .ended
    ∧ (St.init.run (exCalm ++ [.dispatched 1 (some true) none, .call false, .cancel 1, .resume 0])).cur = none
    ∧ (St.init.run (exCalm ++ [.call false, .cancel 1, .resume 0])).active = 1 := by
  decide +kernel

end Verif.Stop
