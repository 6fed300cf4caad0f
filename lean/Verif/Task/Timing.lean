import Mathlib.Algebra.Order.Field.Rat
import Mathlib.Algebra.Order.Field.Basic
import Mathlib.Tactic.Linarith
import Mathlib.Tactic.Ring
/-!
C101: timing and metrics of a periodic task: the loop of `PeriodicTask.run` (`task/basic/periodic.py` 139–187)
with `PeriodicTaskMetrics.measure` (`metrics/task.py` 49–77). (C53 and C99 are about starting and stopping.)

Times are exact seconds (the code has them as floats made from nanoseconds). `rate_hz`, `average_s`, `max_s` and
`min_s` are left out: they are computed by `vcorelib`. What the dispatches do and how long everything takes
is arbitrary.
-/
namespace Verif.Timing

/-- How a turn of the loop ends. -/
inductive Outcome where
  /-- the task stays enabled -/
  | goes
  /-- it is not enabled afterwards: the dispatch returned `False`, or the stop signal is set -/
  | ends
  /-- the dispatch raises or is cancelled -/
  | raises
  deriving DecidableEq

/-- What one turn of the loop meets. -/
structure Turn where
  paused : Bool
  /-- `period_s` when the dispatch starts -/
  period : ℚ
  /-- how long the dispatch takes -/
  took : ℚ
  outcome : Outcome
  /-- `period_s` when the loop goes to sleep -/
  later : ℚ
  /-- what passes between the end of the dispatch and the next turn beyond the sleep asked for -/
  late : ℚ
  deriving DecidableEq

structure St where
  now : ℚ
  /-- `iter_time`, periodic.py 156 -/
  iter : ℚ
  /-- `dispatches`, a `Uint32` -/
  dispatches : Nat
  /-- `overruns`, a `Uint16` -/
  overruns : Nat
  running : Bool
  /-- the dispatches and when they started (not in the code) -/
  starts : List (ℚ × Turn)
  deriving DecidableEq

/-- A run that starts at time `t`, periodic.py 147–156; the metrics are those of the task and may have counted
earlier runs. -/
def St.begin (t : ℚ) (d o : Nat) : St := ⟨t, 0, d, o, true, []⟩

/-- The updates of `measure` after the dispatch, metrics/task.py 68–77: counters wrap as `Uint32` and `Uint16`
do (C03); `period` was passed when the dispatch started. -/
def St.measured (s : St) (took period : ℚ) : St :=
  { s with
    iter := took
    dispatches := (s.dispatches + 1) % 2 ^ 32
    overruns := if took > period then (s.overruns + 1) % 2 ^ 16 else s.overruns }

/-- The sleep, periodic.py 176–182. -/
def St.sleep (s : St) (later late : ℚ) : St := { s with now := s.now + max (later - s.iter) 0 + late }

/-- periodic.py 171–185. -/
def St.after (s : St) (t : Turn) : St :=
  if t.outcome = .goes then s.sleep t.later t.late else { s with running := false }

/-- One turn, periodic.py 157–185. -/
def St.turn (s : St) (t : Turn) : St :=
  if s.running then
    if t.paused then s.after t
    else
      let b := { s with starts := s.starts ++ [(s.now, t)], now := s.now + t.took }
      if t.outcome = .raises then { b with running := false }
      else (b.measured t.took t.period).after t
  else s

def St.run (s : St) (ts : List Turn) : St := ts.foldl St.turn s

theorem run_nil (s : St) : s.run [] = s := rfl
theorem run_cons (s : St) (t : Turn) (ts : List Turn) : s.run (t :: ts) = (s.turn t).run ts := rfl
theorem run_append (s : St) (ts us : List Turn) : s.run (ts ++ us) = (s.run ts).run us := by
  unfold St.run
  rw [List.foldl_append]

theorem run_halted (s : St) (h : s.running = false) (ts : List Turn) : s.run ts = s := by
  induction ts with
  | nil => rfl
  | cons t ts ih => rw [run_cons, show s.turn t = s by simp [St.turn, h]]; exact ih

/-! ### What was counted -/

/-- The turns the loop goes through: up to the first that does not leave the task enabled. -/
def executed : List Turn → List Turn
  | [] => []
  | t :: ts => if t.outcome = .goes then t :: executed ts else [t]

/-- A dispatch that came to an end. (A paused turn dispatches nothing.) -/
def Turn.completed (t : Turn) : Bool := !t.paused && t.outcome != .raises

/-- A dispatch that came to an end and took longer than the period. -/
def Turn.overran (t : Turn) : Bool := t.completed && decide (t.period < t.took)

theorem after_dispatches (s : St) (t : Turn) : (s.after t).dispatches = s.dispatches := by
  unfold St.after; split <;> rfl
theorem after_overruns (s : St) (t : Turn) : (s.after t).overruns = s.overruns := by
  unfold St.after; split <;> rfl
theorem after_iter (s : St) (t : Turn) : (s.after t).iter = s.iter := by
  unfold St.after; split <;> rfl
theorem after_starts (s : St) (t : Turn) : (s.after t).starts = s.starts := by
  unfold St.after; split <;> rfl
theorem after_running (s : St) (t : Turn) : (s.after t).running = (s.running && decide (t.outcome = .goes)) := by
  unfold St.after; split <;> simp_all [St.sleep]

theorem turn_running (s : St) (t : Turn) (h : s.running = true) :
    (s.turn t).running = decide (t.outcome = .goes) := by
  unfold St.turn
  rw [if_pos h]
  split
  · rw [after_running, h, Bool.true_and]
  · dsimp only
    split
    · rename_i hr; simp [hr]
    · rw [after_running]
      show (s.running && _) = _
      rw [h, Bool.true_and]

theorem turn_dispatches (s : St) (t : Turn) (h : s.running = true) :
    (s.turn t).dispatches = if t.completed then (s.dispatches + 1) % 2 ^ 32 else s.dispatches := by
  unfold St.turn Turn.completed
  rw [if_pos h]
  by_cases hp : t.paused = true
  · rw [if_pos hp, after_dispatches]; simp [hp]
  · rw [if_neg hp]
    dsimp only
    by_cases hr : t.outcome = .raises
    · rw [if_pos hr]; simp [hr]
    · rw [if_neg hr, after_dispatches]
      rw [if_pos (by simp [hp, hr])]
      rfl

theorem turn_overruns (s : St) (t : Turn) (h : s.running = true) :
    (s.turn t).overruns = if t.overran then (s.overruns + 1) % 2 ^ 16 else s.overruns := by
  unfold St.turn Turn.overran Turn.completed
  rw [if_pos h]
  by_cases hp : t.paused = true
  · rw [if_pos hp, after_overruns]; simp [hp]
  · rw [if_neg hp]
    dsimp only
    by_cases hr : t.outcome = .raises
    · rw [if_pos hr]; simp [hr]
    · rw [if_neg hr, after_overruns]
      by_cases ho : t.period < t.took
      · rw [if_pos (by simp [hp, hr, ho])]
        simp only [St.measured, gt_iff_lt, ho, if_true]
      · rw [if_neg (by simp [ho])]
        simp only [St.measured, gt_iff_lt, ho, if_false]

theorem run_executed (s : St) (ts : List Turn) (h : s.running = true) : s.run ts = s.run (executed ts) := by
  induction ts generalizing s with
  | nil => rfl
  | cons t ts ih =>
    unfold executed
    split
    · rename_i hg
      rw [run_cons, run_cons]
      exact ih _ (by rw [turn_running s t h]; simpa using hg)
    · rename_i hg
      rw [run_cons, run_cons, run_nil]
      exact run_halted _ (by rw [turn_running s t h]; simpa using hg) ts

theorem mod_count (m a b c : Nat) (h : a = (b + c) % m) : (a + 1) % m = (b + (c + 1)) % m := by
  subst h
  rw [Nat.mod_add_mod, Nat.add_assoc]

theorem counts_aux (ts : List Turn) : ∀ (s : St) (d o c e : Nat), s.running = true →
    s.dispatches = (d + c) % 2 ^ 32 → s.overruns = (o + e) % 2 ^ 16 →
    (s.run ts).dispatches = (d + (c + (executed ts).countP Turn.completed)) % 2 ^ 32 ∧
      (s.run ts).overruns = (o + (e + (executed ts).countP Turn.overran)) % 2 ^ 16 := by
  induction ts with
  | nil => intro s d o c e _ h1 h2; exact ⟨h1, h2⟩
  | cons t ts ih =>
    intro s d o c e hr h1 h2
    have hd : (s.turn t).dispatches = (d + (c + if t.completed then 1 else 0)) % 2 ^ 32 := by
      rw [turn_dispatches s t hr]
      split
      · exact mod_count _ _ _ _ h1
      · exact h1
    have ho : (s.turn t).overruns = (o + (e + if t.overran then 1 else 0)) % 2 ^ 16 := by
      rw [turn_overruns s t hr]
      split
      · exact mod_count _ _ _ _ h2
      · exact h2
    rw [run_cons]
    unfold executed
    by_cases hg : t.outcome = .goes
    · rw [if_pos hg]
      have := ih (s.turn t) d o _ _ (by rw [turn_running s t hr]; simpa using hg) hd ho
      rw [List.countP_cons, List.countP_cons]
      rw [this.1, this.2]
      constructor
      · congr 2; omega
      · congr 2; omega
    · rw [if_neg hg, run_halted _ (by rw [turn_running s t hr]; simpa using hg)]
      rw [List.countP_cons, List.countP_cons, List.countP_nil, List.countP_nil, Nat.zero_add, Nat.zero_add]
      exact ⟨hd, ho⟩

/-- C101: whatever happens, the counters are those at the start of the run plus the number of dispatches that
came to an end, and of those that took longer than the period they started with, each modulo its width. -/
theorem C101_counts (t : ℚ) (d o : Nat) (hd : d < 2 ^ 32) (ho : o < 2 ^ 16) (ts : List Turn) :
    ((St.begin t d o).run ts).dispatches = (d + (executed ts).countP Turn.completed) % 2 ^ 32 ∧
      ((St.begin t d o).run ts).overruns = (o + (executed ts).countP Turn.overran) % 2 ^ 16 := by
  have := counts_aux ts (St.begin t d o) d o 0 0 rfl (Nat.mod_eq_of_lt hd).symm (Nat.mod_eq_of_lt ho).symm
  simpa using this

/-- C101 fails for dispatches that raise: they are not in the count, nor in the overruns, however long they
took; the run is over. -/
theorem C101_raising_fails (s : St) (hr : s.running = true) (t : Turn) (hp : t.paused = false)
    (ht : t.outcome = .raises) (ts : List Turn) :
    (s.run (t :: ts)).starts.length = s.starts.length + 1 ∧ (s.run (t :: ts)).dispatches = s.dispatches ∧
      (s.run (t :: ts)).overruns = s.overruns ∧ (s.run (t :: ts)).running = false := by
  rw [run_cons, run_halted _ (by rw [turn_running s t hr]; simp [ht])]
  simp [St.turn, hr, hp, ht]

/-- C101 fails for a period that is made shorter during the dispatch: the dispatch takes longer than the period
and the loop does not sleep, yet no overrun is counted. -/
theorem C101_shortened_fails (s : St) (hr : s.running = true) (t : Turn) (hp : t.paused = false)
    (ht : t.outcome = .goes) (h1 : t.took ≤ t.period) (h2 : t.later < t.took) :
    (s.turn t).overruns = s.overruns ∧ (s.turn t).now = s.now + t.took + t.late := by
  refine ⟨?_, ?_⟩
  · rw [turn_overruns s t hr, if_neg (by simp [Turn.overran, not_lt.mpr h1])]
  · have : max (t.later - t.took) 0 = 0 := max_eq_right (by linarith)
    simp [St.turn, hr, hp, ht, St.after, St.sleep, St.measured, this]

/-! ### When dispatches start -/

/-- Time does not run backwards. -/
def Turn.real (t : Turn) : Prop := 0 ≤ t.took ∧ 0 ≤ t.late

instance (t : Turn) : Decidable t.real := inferInstanceAs (Decidable (_ ∧ _))

/-- Each dispatch starts at least the period and at least the duration of the one before later. -/
def Spaced (l : List (ℚ × Turn)) : Prop :=
  ∀ i, ∀ a b, l[i]? = some a → l[i + 1]? = some b → a.1 + max a.2.took a.2.later ≤ b.1

structure Inv (s : St) : Prop where
  spaced : Spaced s.starts
  last : ∀ a, s.starts.getLast? = some a → s.running = true → a.1 + max a.2.took a.2.later ≤ s.now

theorem spaced_snoc (l : List (ℚ × Turn)) (x : ℚ × Turn) (h : Spaced l)
    (hl : ∀ a, l.getLast? = some a → a.1 + max a.2.took a.2.later ≤ x.1) : Spaced (l ++ [x]) := by
  intro i a b ha hb
  by_cases hi : i + 1 < l.length
  · rw [List.getElem?_append_left (by omega)] at ha
    rw [List.getElem?_append_left hi] at hb
    exact h i a b ha hb
  · have hlen : i + 1 < (l ++ [x]).length := by
      by_contra hc
      rw [List.getElem?_eq_none (by omega)] at hb
      cases hb
    rw [List.length_append, List.length_singleton] at hlen
    have hi' : i + 1 = l.length := by omega
    rw [List.getElem?_append_left (by omega)] at ha
    rw [List.getElem?_append_right (by omega), hi', Nat.sub_self] at hb
    cases hb
    apply hl
    rw [List.getLast?_eq_getElem?, ← hi']
    exact ha

theorem after_now (s : St) (t : Turn) (ht : t.real) : s.now ≤ (s.after t).now := by
  unfold St.after
  split
  · show s.now ≤ s.now + max (t.later - s.iter) 0 + t.late
    have := le_max_right (t.later - s.iter) 0
    have := ht.2
    linarith
  · exact le_refl _

theorem inv_turn (s : St) (h : Inv s) (t : Turn) (ht : t.real) : Inv (s.turn t) := by
  unfold St.turn
  by_cases hr : s.running = true
  · rw [if_pos hr]
    by_cases hp : t.paused = true
    · rw [if_pos hp]
      refine ⟨by rw [after_starts]; exact h.spaced, ?_⟩
      rw [after_starts]
      intro a ha _
      exact le_trans (h.last a ha hr) (after_now s t ht)
    · rw [if_neg hp]
      dsimp only
      have hs : Spaced (s.starts ++ [(s.now, t)]) := spaced_snoc _ _ h.spaced (fun a ha => h.last a ha hr)
      by_cases hx : t.outcome = .raises
      · rw [if_pos hx]
        exact ⟨hs, fun a _ hf => by cases hf⟩
      · rw [if_neg hx]
        refine ⟨by rw [after_starts]; exact hs, ?_⟩
        rw [after_starts]
        intro a ha hrun
        have ha' : a = (s.now, t) := by
          have : (s.starts ++ [(s.now, t)]).getLast? = some a := ha
          rw [List.getLast?_append] at this
          simpa using this.symm
        subst ha'
        rw [after_running] at hrun
        have hg : t.outcome = .goes := by
          have := (Bool.and_eq_true _ _).mp hrun
          exact of_decide_eq_true this.2
        unfold St.after
        rw [if_pos hg]
        show s.now + max t.took t.later ≤ s.now + t.took + max (t.later - t.took) 0 + t.late
        have h1 : max t.took t.later ≤ t.took + max (t.later - t.took) 0 := by
          apply max_le
          · have := le_max_right (t.later - t.took) 0; linarith
          · have := le_max_left (t.later - t.took) 0; linarith
        have := ht.2
        linarith
  · rw [if_neg hr]; exact h

theorem inv_run (ts : List Turn) : ∀ (s : St), Inv s → (∀ t ∈ ts, t.real) → Inv (s.run ts) := by
  induction ts with
  | nil => intro s h _; exact h
  | cons t ts ih =>
    intro s h ht
    rw [run_cons]
    exact ih _ (inv_turn s h t (ht t List.mem_cons_self)) (fun u hu => ht u (List.mem_cons_of_mem _ hu))

theorem inv_begin (t : ℚ) (d o : Nat) : Inv (St.begin t d o) :=
  ⟨fun i a b ha _ => by simp [St.begin] at ha, fun a ha _ => by simp [St.begin] at ha⟩

/-- C101: however long dispatches, sleeps and pauses take and however the period is changed, a dispatch starts
no sooner after the one before than that one took, and no sooner than the period. -/
theorem C101_spacing (t : ℚ) (d o : Nat) (ts : List Turn) (ht : ∀ t ∈ ts, t.real) :
    Spaced ((St.begin t d o).run ts).starts :=
  (inv_run ts _ (inv_begin t d o) ht).spaced

theorem spaced_far (l : List (ℚ × Turn)) (h : Spaced l) (p : ℚ) (hp : ∀ a ∈ l, p ≤ a.2.later) (i : Nat) :
    ∀ (k : Nat) (a b : ℚ × Turn), l[i]? = some a → l[i + k]? = some b → a.1 + k * p ≤ b.1 := by
  intro k
  induction k with
  | zero => intro a b ha hb; rw [Nat.add_zero, ha] at hb; cases hb; simp
  | succ k ih =>
    intro a b ha hb
    have hk : i + k < l.length := by
      by_contra hc
      rw [List.getElem?_eq_none (by omega)] at hb
      cases hb
    have h1 := ih a l[i + k] ha (List.getElem?_eq_getElem hk)
    have h2 := h (i + k) _ b (List.getElem?_eq_getElem hk) hb
    have h3 := le_max_right (l[i + k]).2.took (l[i + k]).2.later
    have h4 := hp _ (List.getElem_mem hk)
    push_cast
    linarith

/-- C101: a task is never faster than its period: among dispatches of one run, with a period of at least `p`
throughout, any two that are `k` apart start at least `k * p` apart. -/
theorem C101_rate (t : ℚ) (d o : Nat) (ts : List Turn) (ht : ∀ t ∈ ts, t.real) (p : ℚ)
    (hp : ∀ a ∈ ((St.begin t d o).run ts).starts, p ≤ a.2.later) (i k : Nat) (a b : ℚ × Turn)
    (ha : ((St.begin t d o).run ts).starts[i]? = some a)
    (hb : ((St.begin t d o).run ts).starts[i + k]? = some b) : a.1 + k * p ≤ b.1 :=
  spaced_far _ (C101_spacing t d o ts ht) p hp i k a b ha hb

/-- The total of what sleeps take too long. -/
def lates (ts : List Turn) : ℚ := (ts.map Turn.late).sum

/-- A turn that dispatches within a constant period. -/
def Turn.steady (p : ℚ) (t : Turn) : Prop := t.paused = false ∧ t.outcome = .goes ∧ t.later = p ∧ t.took ≤ p

theorem steady_turn (s : St) (hr : s.running = true) (p : ℚ) (t : Turn) (h : t.steady p) :
    (s.turn t).now = s.now + p + t.late ∧ (s.turn t).running = true ∧
      (s.turn t).starts = s.starts ++ [(s.now, t)] := by
  obtain ⟨h1, h2, h3, h4⟩ := h
  have : max (t.later - t.took) 0 = p - t.took := by rw [h3]; exact max_eq_left (by linarith)
  refine ⟨?_, by rw [turn_running s t hr, h2]; rfl, ?_⟩
  · simp only [St.turn, hr, h1, h2, St.after, St.sleep, St.measured, if_true]
    simp only [this, Bool.false_eq_true, if_false, reduceCtorEq]
    ring
  · simp [St.turn, hr, h1, h2, St.after, St.sleep, St.measured]

/-- C101: with a constant period, dispatches that take no longer and no pause, the loop is after `n` turns
exactly where `n` periods and the delays of its sleeps put it: durations of dispatches do not add up, delays do,
and are never made good. -/
theorem C101_drift (p : ℚ) (ts : List Turn) : ∀ (s : St), s.running = true → (∀ t ∈ ts, t.steady p) →
    (s.run ts).now = s.now + ts.length * p + lates ts ∧ (s.run ts).running = true ∧
      (s.run ts).starts.length = s.starts.length + ts.length := by
  induction ts with
  | nil => intro s h _; simp [run_nil, lates, h]
  | cons t ts ih =>
    intro s hr hts
    obtain ⟨h1, h2, h3⟩ := steady_turn s hr p t (hts t List.mem_cons_self)
    obtain ⟨g1, g2, g3⟩ := ih (s.turn t) h2 (fun u hu => hts u (List.mem_cons_of_mem _ hu))
    rw [run_cons]
    refine ⟨?_, g2, ?_⟩
    · rw [g1, h1]
      simp only [lates, List.map_cons, List.sum_cons, List.length_cons]
      push_cast
      ring
    · rw [g3, h3]
      simp only [List.length_append, List.length_cons, List.length_nil]
      omega

/-! ### Pausing -/

/-- A paused turn. -/
def Turn.idle (t : Turn) : Prop := t.paused = true ∧ t.outcome = .goes

theorem idle_turn (s : St) (hr : s.running = true) (t : Turn) (h : t.idle) :
    s.turn t = { s with now := s.now + max (t.later - s.iter) 0 + t.late } := by
  simp only [St.turn, hr, h.1, St.after, h.2, if_true, St.sleep]

/-- C101: while paused, a task counts and dispatches nothing, and keeps running. -/
theorem C101_paused (ts : List Turn) : ∀ (s : St), s.running = true → (∀ t ∈ ts, t.idle) →
    (s.run ts).dispatches = s.dispatches ∧ (s.run ts).overruns = s.overruns ∧ (s.run ts).starts = s.starts ∧
      (s.run ts).iter = s.iter ∧ (s.run ts).running = true := by
  induction ts with
  | nil => intro s h _; exact ⟨rfl, rfl, rfl, rfl, h⟩
  | cons t ts ih =>
    intro s hr hts
    rw [run_cons, idle_turn s hr t (hts t List.mem_cons_self)]
    exact ih _ hr (fun u hu => hts u (List.mem_cons_of_mem _ hu))

/-- C101: a paused task looks at its flags once a period, less the duration of its last dispatch: `n` turns
take at least that `n` times. -/
theorem C101_paused_pace_partial (p : ℚ) (ts : List Turn) : ∀ (s : St), s.running = true →
    (∀ t ∈ ts, t.idle ∧ t.real ∧ p ≤ t.later) → s.now + ts.length * (p - s.iter) ≤ (s.run ts).now := by
  induction ts with
  | nil => intro s _ _; simp [run_nil]
  | cons t ts ih =>
    intro s hr hts
    obtain ⟨h1, h2, h3⟩ := hts t List.mem_cons_self
    rw [run_cons, idle_turn s hr t h1]
    have := ih { s with now := s.now + max (t.later - s.iter) 0 + t.late } hr
      (fun u hu => hts u (List.mem_cons_of_mem _ hu))
    dsimp only at this
    have h4 := le_max_left (t.later - s.iter) 0
    have h5 := h2.2
    rw [List.length_cons]
    push_cast
    have e : s.now + (((ts.length : ℚ) + 1) * (p - s.iter)) = (s.now + (p - s.iter)) + ts.length * (p - s.iter) := by
      ring
    rw [e]
    linarith

/-- C101 fails for a task paused after a dispatch that took the period or longer: the duration of that dispatch
is subtracted from every sleep, so that the loop does not sleep at all: any number of turns passes in no more time
than the turns themselves need. -/
theorem C101_spin_fails (ts : List Turn) : ∀ (s : St), s.running = true →
    (∀ t ∈ ts, t.idle ∧ t.later ≤ s.iter) →
    (s.run ts).now = s.now + lates ts ∧ (s.run ts).running = true := by
  induction ts with
  | nil => intro s h _; simp [run_nil, lates, h]
  | cons t ts ih =>
    intro s hr hts
    obtain ⟨h1, h2⟩ := hts t List.mem_cons_self
    rw [run_cons, idle_turn s hr t h1]
    have hm : max (t.later - s.iter) 0 = 0 := max_eq_right (by linarith)
    have := ih { s with now := s.now + max (t.later - s.iter) 0 + t.late } hr
      (fun u hu => hts u (List.mem_cons_of_mem _ hu))
    refine ⟨?_, this.2⟩
    rw [this.1]
    simp only [hm, lates, List.map_cons, List.sum_cons]
    ring

/-- Such a state is reached by one long dispatch: after it, whatever was before. -/
theorem C101_spin_reached (s : St) (hr : s.running = true) (t : Turn) (hp : t.paused = false)
    (hg : t.outcome = .goes) : (s.turn t).iter = t.took ∧ (s.turn t).running = true := by
  refine ⟨?_, by rw [turn_running s t hr, hg]; rfl⟩
  unfold St.turn
  rw [if_pos hr, hp]
  simp only [Bool.false_eq_true, if_false, hg, reduceCtorEq, after_iter, St.measured]

/-! ### Cases -/

/-- Period 1/10: a short dispatch, one that overruns, three paused turns, a short dispatch, one that raises and
one that is never reached. -/
def exTurns : List Turn :=
  [⟨false, 1/10, 1/50, .goes, 1/10, 1/1000⟩, ⟨false, 1/10, 1/4, .goes, 1/10, 1/1000⟩,
   ⟨true, 1/10, 0, .goes, 1/10, 1/1000⟩, ⟨true, 1/10, 0, .goes, 1/10, 1/1000⟩, ⟨true, 1/10, 0, .goes, 1/10, 1/1000⟩,
   ⟨false, 1/10, 1/50, .goes, 1/10, 1/1000⟩, ⟨false, 1/10, 2, .raises, 1/10, 0⟩, ⟨false, 1/10, 1/50, .goes, 1/10, 0⟩]

theorem C101_cases :
    (∀ t ∈ exTurns, t.real) ∧
    ((St.begin 5 (2 ^ 32 - 2) 3).run exTurns).dispatches = 1 ∧
    ((St.begin 5 (2 ^ 32 - 2) 3).run exTurns).overruns = 4 ∧
    ((St.begin 5 0 0).run exTurns).starts.map (·.1) = [5, 5101/1000, 5355/1000, 5456/1000] ∧
    ((St.begin 5 0 0).run exTurns).running = false ∧
    (∀ t ∈ exTurns.take 1, t.steady (1/10)) ∧
    (∀ t ∈ (exTurns.drop 2).take 3, t.idle ∧ t.later ≤ ((St.begin 5 0 0).run (exTurns.take 2)).iter) := by
  refine ⟨by decide +kernel, by decide +kernel, by decide +kernel, by decide +kernel, by decide +kernel, ?_, ?_⟩
  · intro t ht
    simp only [exTurns, List.take_succ_cons, List.take_zero, List.mem_singleton] at ht
    subst ht
    exact ⟨rfl, rfl, rfl, by decide +kernel⟩
  · intro t ht
    simp only [exTurns, List.drop_succ_cons, List.drop_zero, List.take_succ_cons, List.take_zero, List.mem_cons,
      List.not_mem_nil, or_false] at ht
    rcases ht with rfl | rfl | rfl <;> exact ⟨⟨rfl, rfl⟩, by decide +kernel⟩

end Verif.Timing
