import Verif.Base
import Mathlib.Data.Rat.Defs
import Mathlib.Algebra.Order.Ring.Rat
import Mathlib.Tactic.Linarith
import Mathlib.Tactic.Ring
import Mathlib.Tactic.NormNum
/-!
C109: how often a browser asks the server for a frame: the render loop and `minTxPeriod` of `data/js/worker.js` 16–29
and 83–98, with the period from the settings slider or the address (`data/js/classes/App.js` 68–96,
`data/js/classes/WindowHashManager.js` 170–181).

Times are rationals (milliseconds). A period is none for NaN, which `Number` makes of a text that is no number; a
comparison with it is false.
-/
namespace Verif.Pacing

structure St where
  /-- `messageTxTime` -/
  tx : Rat
  /-- `minTxPeriod` -/
  period : Option Rat
  /-- times of the frames sent -/
  sent : List Rat

inductive Ev where
  /-- `render(time)` -/
  | frame (t : Rat)
  /-- a message `min-tx-period-ms` -/
  | set (p : Option Rat)

def St.init : St := ⟨0, some 0, []⟩

/-- worker.js 21–23 and 87–95. -/
def St.step (s : St) : Ev → St
  | .frame t =>
    match s.period with
    | none => s
    | some p => if s.tx + p ≤ t then { s with tx := t, sent := s.sent ++ [t] } else s
  | .set p => { s with period := p }

def St.run (s : St) (es : List Ev) : St := es.foldl St.step s

theorem run_cons (s : St) (e : Ev) (es : List Ev) : s.run (e :: es) = (s.step e).run es := rfl
theorem run_nil (s : St) : s.run [] = s := rfl
theorem run_append (s : St) (es fs : List Ev) : s.run (es ++ fs) = (s.run es).run fs := by
  simp [St.run, List.foldl_append]

/-- Times of the frames. -/
def times : List Ev → List Rat
  | [] => []
  | .frame t :: es => t :: times es
  | .set _ :: es => times es

/-- Each number is at least `p` after the one before it, the first after `x`. -/
def Apart (p : Rat) : Rat → List Rat → Prop
  | _, [] => True
  | x, y :: l => x + p ≤ y ∧ Apart p y l

/-- Each number is at most `p` after the one before it, the first after `x`. -/
def Within (p : Rat) : Rat → List Rat → Prop
  | _, [] => True
  | x, y :: l => y ≤ x + p ∧ Within p y l

/-- C109: with a period of at least `p` all the time, the frames sent are at least `p` apart, whenever frames come and
however the period changes. -/
theorem C109_apart (s : St) (p : Rat) (hs : ∀ q, s.period = some q → p ≤ q) (es : List Ev) (he : ∀ q, .set (some q) ∈ es → p ≤ q) :
    ∃ l, (s.run es).sent = s.sent ++ l ∧ Apart p s.tx l := by
  induction es generalizing s with
  | nil => exact ⟨[], by simp [run_nil], trivial⟩
  | cons e es ih =>
    have he' : ∀ q, .set (some q) ∈ es → p ≤ q := fun q hq => he q (List.mem_cons_of_mem _ hq)
    rw [run_cons]
    cases e with
    | set r =>
      obtain ⟨l, h1, h2⟩ := ih (s.step (.set r)) (by intro q hq; simp only [St.step] at hq; subst hq; exact he q List.mem_cons_self) he'
      exact ⟨l, h1, h2⟩
    | frame t =>
      cases hp : s.period with
      | none =>
        have e1 : s.step (.frame t) = s := by simp [St.step, hp]
        rw [e1]; exact ih s hs he'
      | some q =>
        by_cases hc : s.tx + q ≤ t
        · have e1 : s.step (.frame t) = { s with tx := t, sent := s.sent ++ [t] } := by simp [St.step, hp, hc]
          obtain ⟨l, h1, h2⟩ := ih { s with tx := t, sent := s.sent ++ [t] } hs he'
          rw [e1]
          exact ⟨t :: l, by rw [h1]; simp, by linarith [hs q hp], h2⟩
        · have e1 : s.step (.frame t) = s := by simp [St.step, hp, hc]
          rw [e1]; exact ih s hs he'

theorem apart_span (p : Rat) (l : List Rat) (x : Rat) (h : Apart p x l) : ∀ y, l.getLast? = some y → x + l.length * p ≤ y := by
  induction l generalizing x with
  | nil => intro y h; cases h
  | cons z l ih =>
    intro y hy
    cases l with
    | nil => simp at hy; subst hy; have := h.1; simpa using this
    | cons w m =>
      have := ih z h.2 y (by simpa using hy)
      simp only [List.length_cons] at this ⊢
      push_cast at this ⊢
      linarith [h.1]

/-- C109: so no more than one frame per `p` is sent: `n` of them take at least `n` periods after the one before. -/
theorem C109_rate (s : St) (p : Rat) (hs : ∀ q, s.period = some q → p ≤ q) (es : List Ev) (he : ∀ q, .set (some q) ∈ es → p ≤ q) :
    ∃ l, (s.run es).sent = s.sent ++ l ∧ ∀ y, l.getLast? = some y → l.length * p ≤ y - s.tx := by
  obtain ⟨l, h1, h2⟩ := C109_apart s p hs es he
  exact ⟨l, h1, fun y hy => by have := apart_span p l s.tx h2 y hy; linarith⟩

/-- C109: a frame that comes when the period is over is sent. -/
theorem C109_due (s : St) (p t : Rat) (hp : s.period = some p) (h : s.tx + p ≤ t) :
    (s.step (.frame t)).sent = s.sent ++ [t] := by
  simp [St.step, hp, h]

/-- C109: with a period of at most `p` all the time, and frames that come at most `d` apart, the frames sent are at most
`p + d` apart, and no frame is more than `p` after the latest one sent. -/
theorem C109_progress (p d : Rat) (hp0 : 0 ≤ p) (es : List Ev) (s : St) (hs : ∃ q, s.period = some q ∧ q ≤ p)
    (he : ∀ r, .set r ∈ es → ∃ q, r = some q ∧ q ≤ p) (hw : Within d s.tx (times es)) :
    ∃ l, (s.run es).sent = s.sent ++ l ∧ Within (p + d) s.tx l ∧ ∀ t, (times es).getLast? = some t → t ≤ (s.run es).tx + p := by
  have key : ∀ (es : List Ev) (s : St) (now : Rat), (∃ q, s.period = some q ∧ q ≤ p) →
      (∀ r, .set r ∈ es → ∃ q, r = some q ∧ q ≤ p) → Within d now (times es) → now ≤ s.tx + p →
      ∃ l, (s.run es).sent = s.sent ++ l ∧ Within (p + d) s.tx l ∧ ∀ t, (times es).getLast? = some t → t ≤ (s.run es).tx + p := by
    intro es
    induction es with
    | nil => intro s now _ _ _ _; exact ⟨[], by simp [run_nil], trivial, fun t h => by cases h⟩
    | cons e es ih =>
      intro s now hs he hw hn
      have he' : ∀ r, .set r ∈ es → ∃ q, r = some q ∧ q ≤ p := fun r hr => he r (List.mem_cons_of_mem _ hr)
      rw [run_cons]
      cases e with
      | set r =>
        obtain ⟨q, rfl, hq⟩ := he r List.mem_cons_self
        exact ih (s.step (.set (some q))) now ⟨q, rfl, hq⟩ he' hw hn
      | frame t =>
        obtain ⟨q, hq, hqp⟩ := hs
        obtain ⟨w1, w2⟩ := hw
        by_cases hc : s.tx + q ≤ t
        · have e1 : s.step (.frame t) = { s with tx := t, sent := s.sent ++ [t] } := by simp [St.step, hq, hc]
          rw [e1]
          obtain ⟨l, h1, h2, h3⟩ := ih { s with tx := t, sent := s.sent ++ [t] } t ⟨q, hq, hqp⟩ he' w2 (by simp only; linarith)
          refine ⟨t :: l, by rw [h1]; simp, ⟨by linarith, h2⟩, ?_⟩
          intro y hy
          cases hl : times es with
          | nil =>
            have : (St.run { s with tx := t, sent := s.sent ++ [t] } es).tx = t := by
              clear h1 h2 h3 ih he w2 hy
              have gen : ∀ (es : List Ev) (s : St), times es = [] → (s.run es).tx = s.tx := by
                intro es
                induction es with
                | nil => intro s _; rfl
                | cons e es ih =>
                  intro s h
                  cases e with
                  | frame t => cases h
                  | set r => exact ih (s.step (.set r)) h
              exact gen es _ hl
            simp only [times, hl, List.getLast?_singleton, Option.some.injEq] at hy
            subst hy
            rw [this]; linarith
          | cons z zs =>
            apply h3
            rw [hl]
            simpa [times, hl] using hy
        · have e1 : s.step (.frame t) = s := by simp [St.step, hq, hc]
          rw [e1]
          obtain ⟨l, h1, h2, h3⟩ := ih s t ⟨q, hq, hqp⟩ he' w2 (by linarith [not_le.mp hc])
          refine ⟨l, h1, h2, ?_⟩
          intro y hy
          cases hl : times es with
          | nil =>
            have gen : ∀ (es : List Ev) (s : St), times es = [] → (s.run es).tx = s.tx := by
              intro es
              induction es with
              | nil => intro s _; rfl
              | cons e es ih =>
                intro s h
                cases e with
                | frame t => cases h
                | set r => exact ih (s.step (.set r)) h
            simp only [times, hl, List.getLast?_singleton, Option.some.injEq] at hy
            subst hy
            rw [gen es s hl]; linarith [not_le.mp hc]
          | cons z zs =>
            apply h3
            rw [hl]
            simpa [times, hl] using hy
  exact key es s s.tx hs he hw (by linarith)

/-- C109: with the period 0 every frame is sent, if frames come in order. -/
theorem C109_every (ts : List Rat) (s : St) (hs : s.period = some 0) (ho : Apart 0 s.tx ts) :
    (s.run (ts.map .frame)).sent = s.sent ++ ts := by
  induction ts generalizing s with
  | nil => simp [run_nil]
  | cons t ts ih =>
    rw [List.map_cons, run_cons]
    have hc : s.tx + 0 ≤ t := ho.1
    have e1 : s.step (.frame t) = { s with tx := t, sent := s.sent ++ [t] } := by simp only [St.step, hs, if_pos hc]
    rw [e1, ih { s with tx := t, sent := s.sent ++ [t] } hs ho.2]
    simp

/-- C109 fails for an address whose period is no number: no frame is ever sent, so nothing is ever shown. -/
theorem C109_nan_fails (s : St) (ts : List Rat) : (s.run (.set none :: ts.map .frame)).sent = s.sent := by
  rw [run_cons]
  have key : ∀ (ts : List Rat) (s : St), s.period = none → s.run (ts.map .frame) = s := by
    intro ts
    induction ts with
    | nil => intro s _; rfl
    | cons t ts ih =>
      intro s h
      rw [List.map_cons, run_cons]
      have : s.step (.frame t) = s := by simp [St.step, h]
      rw [this]; exact ih s h
  rw [key ts _ rfl]
  rfl

/-- Case: a period of 40 ms with frames every 16 ms. -/
example : (St.init.run [.set (some 40), .frame 16, .frame 32, .frame 48, .frame 64, .frame 80, .frame 96]).sent = [48, 96] := by
  norm_num [St.run, St.step, St.init]

end Verif.Pacing
