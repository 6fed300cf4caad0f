import Verif.Base
/-!
C125: the divider between a tab's channels and its plot: `data/js/classes/TabInterface.js` 190–243, called from
36–62 and 141–145, and `setupCursorContext`, `data/js/init.js` 23–32; the layout of `data/css/bootstrap_extra.css`
48–56 and 85–89.

Assumed of the browser: the column starts at `left`, is as wide as its `style.width`, but no wider than its
`max-width`, and the divider follows it; a negative width is not a width, and assigning one changes nothing; an
element that is not displayed has the rectangle of zeros; `clientX` is undefined in an event of touching, `touches` in
one of a mouse; 0 counts as false. Lengths are whole numbers of pixels.
-/
namespace Verif.Divider
open Verif

/-- The window: `innerWidth`, the widest column allowed, the left edge of the column, the divider's width. -/
structure Win where
  inner : Int
  cap : Int
  left : Int
  bar : Int
  deriving DecidableEq, Repr

/-- A tab: the column's `style.width`, whether the tab is shown, `origX` of every handler that is registered for
mouse and touch, in order. -/
structure Tab where
  width : Int
  shown : Bool
  mouse : List Int
  touch : List Int
  deriving DecidableEq, Repr

/-- `getBoundingClientRect().width` of the column. -/
def Tab.used (w : Win) (t : Tab) : Int := if t.shown then min t.width w.cap else 0

/-- `rect.left` -/
def Tab.leftEdge (w : Win) (t : Tab) : Int := if t.shown then w.left else 0

/-- `elem.style.width = … + "px"` -/
def Tab.assign (t : Tab) (v : Int) : Tab := if v < 0 then t else { t with width := v }

/-- One `handleMouse`, lines 203–214, after `eventX` is known; `bar` was read when the button went down, which needs
the divider to be seen. -/
def Tab.drag (w : Win) (t : Tab) (orig x : Int) : Tab :=
  t.assign (min (w.inner - (t.leftEdge w + w.bar)) (t.used w - (orig - x)))

/-- All handlers of one kind, in order; each keeps its own `origX`. -/
def Tab.drags (w : Win) (t : Tab) (x : Int) : List Int → Tab
  | [] => t
  | o :: os => (t.drag w o x).drags w x os

/-- `correctVerticalBarPosition`, lines 227–240. -/
def Tab.correct (w : Win) (t : Tab) : Tab :=
  if t.shown then
    let margin := w.inner - (w.left + t.used w + w.bar)
    if margin < 0 then t.assign (t.used w + margin) else t
  else t

inductive Ev where
  | mouseDown (x : Int)
  | mouseMove (x : Int)
  | mouseUp
  | touchDown (x : Int)
  | touchMove (x : Int)
  | touchUp
  /-- the window gets another size -/
  | resize (w : Win)
  /-- the tab is chosen, or another one -/
  | show
  | hide

/-- A step. A button goes down on the divider only if that is shown; `event.clientX || event.touches[0].clientX`
raises for a mouse at 0, before anything is done (lines 194 and 204). -/
def step (s : Win × Tab) : Ev → Win × Tab
  | .mouseDown x => if s.2.shown ∧ x ≠ 0 then (s.1, { s.2 with mouse := s.2.mouse ++ [x] }) else s
  | .mouseMove x => if x ≠ 0 then (s.1, { s.2.drags s.1 x s.2.mouse with mouse := s.2.mouse.map fun _ => x }) else s
  | .mouseUp => (s.1, { s.2 with mouse := [] })
  | .touchDown x => if s.2.shown then (s.1, { s.2 with touch := s.2.touch ++ [x] }) else s
  | .touchMove x => (s.1, { s.2.drags s.1 x s.2.touch with touch := s.2.touch.map fun _ => x })
  | .touchUp => (s.1, { s.2 with touch := [] })
  | .resize w => (w, s.2.correct w)
  | .show => (s.1, { s.2 with shown := true }.correct s.1)
  | .hide => (s.1, { s.2 with shown := false })

def run (s : Win × Tab) (l : List Ev) : Win × Tab := l.foldl step s

/-! ### Lemmas -/

@[simp] theorem assign_shown (t : Tab) (v : Int) : (t.assign v).shown = t.shown := by
  unfold Tab.assign; split <;> rfl
@[simp] theorem assign_mouse (t : Tab) (v : Int) : (t.assign v).mouse = t.mouse := by
  unfold Tab.assign; split <;> rfl
@[simp] theorem assign_touch (t : Tab) (v : Int) : (t.assign v).touch = t.touch := by
  unfold Tab.assign; split <;> rfl
@[simp] theorem drag_shown (w : Win) (t : Tab) (o x : Int) : (t.drag w o x).shown = t.shown := assign_shown _ _
@[simp] theorem drag_mouse (w : Win) (t : Tab) (o x : Int) : (t.drag w o x).mouse = t.mouse := assign_mouse _ _
@[simp] theorem drag_touch (w : Win) (t : Tab) (o x : Int) : (t.drag w o x).touch = t.touch := assign_touch _ _
@[simp] theorem drags_shown (w : Win) (t : Tab) (x : Int) (os : List Int) :
    (t.drags w x os).shown = t.shown := by
  induction os generalizing t with
  | nil => rfl
  | cons o os ih => simp [Tab.drags, ih]
@[simp] theorem drags_touch (w : Win) (t : Tab) (x : Int) (os : List Int) :
    (t.drags w x os).touch = t.touch := by
  induction os generalizing t with
  | nil => rfl
  | cons o os ih => simp [Tab.drags, ih]
@[simp] theorem drags_mouse (w : Win) (t : Tab) (x : Int) (os : List Int) :
    (t.drags w x os).mouse = t.mouse := by
  induction os generalizing t with
  | nil => rfl
  | cons o os ih => simp [Tab.drags, ih]
@[simp] theorem correct_mouse (w : Win) (t : Tab) : (t.correct w).mouse = t.mouse := by
  unfold Tab.correct; dsimp only; (repeat' split) <;> simp
@[simp] theorem correct_touch (w : Win) (t : Tab) : (t.correct w).touch = t.touch := by
  unfold Tab.correct; dsimp only; (repeat' split) <;> simp
@[simp] theorem correct_shown (w : Win) (t : Tab) : (t.correct w).shown = t.shown := by
  unfold Tab.correct; dsimp only; (repeat' split) <;> simp

/-- What is kept: widths are widths, and the divider is in the window while the tab is shown. -/
structure Seen (w : Win) (t : Tab) : Prop where
  pos : 0 ≤ t.width
  inside : t.shown = true → w.left + min t.width w.cap + w.bar ≤ w.inner

theorem drag_seen {w : Win} {t : Tab} (h : Seen w t) (o x : Int) : Seen w (t.drag w o x) := by
  unfold Tab.drag Tab.assign
  split
  · exact h
  · rename_i hv
    refine ⟨by simp only; omega, fun hs => ?_⟩
    simp only [Tab.leftEdge] at *
    simp only [hs, if_true] at *
    omega

theorem drags_seen {w : Win} (x : Int) (os : List Int) : ∀ {t : Tab}, Seen w t → Seen w (t.drags w x os) := by
  induction os with
  | nil => intro t h; exact h
  | cons o os ih => intro t h; exact ih (drag_seen h o x)

theorem correct_seen {w : Win} {t : Tab} (hp : 0 ≤ t.width) (hw : w.left + w.bar ≤ w.inner) :
    Seen w (t.correct w) := by
  unfold Tab.correct
  dsimp only
  by_cases hs : t.shown = true
  · simp only [hs, if_true, Tab.used]
    split
    · unfold Tab.assign
      split
      · omega
      · exact ⟨by simp only; omega, fun _ => by simp only; omega⟩
    · exact ⟨hp, fun _ => by omega⟩
  · simp only [hs]
    exact ⟨hp, fun h => absurd h hs⟩

/-- A window that has room for the divider. -/
def Room (w : Win) : Prop := w.left + w.bar ≤ w.inner

theorem step_seen {s : Win × Tab} (h : Seen s.1 s.2) (hr : Room s.1) (e : Ev)
    (he : ∀ w, e = .resize w → Room w) : Seen (step s e).1 (step s e).2 ∧ Room (step s e).1 := by
  cases e with
  | mouseDown x => dsimp only [step]; split <;> exact ⟨⟨h.pos, h.inside⟩, hr⟩
  | mouseMove x =>
    dsimp only [step]
    split
    · have := drags_seen x s.2.mouse h
      exact ⟨⟨this.pos, this.inside⟩, hr⟩
    · exact ⟨h, hr⟩
  | mouseUp => exact ⟨⟨h.pos, h.inside⟩, hr⟩
  | touchDown x => dsimp only [step]; split <;> exact ⟨⟨h.pos, h.inside⟩, hr⟩
  | touchMove x =>
    have := drags_seen x s.2.touch h
    exact ⟨⟨this.pos, this.inside⟩, hr⟩
  | touchUp => exact ⟨⟨h.pos, h.inside⟩, hr⟩
  | resize w => exact ⟨correct_seen h.pos (he w rfl), he w rfl⟩
  | «show» => exact ⟨correct_seen (t := { s.2 with shown := true }) h.pos hr, hr⟩
  | hide => exact ⟨⟨h.pos, fun x => by simp [step] at x⟩, hr⟩

/-! ### Claims -/

/-- The divider never leaves the window: after any events, whatever the sizes of the window (each with room for the
divider), it is inside while its tab is shown. -/
theorem C125_visible (s : Win × Tab) (h0 : 0 ≤ s.2.width) (hh : s.2.shown = false) (hr : Room s.1) (l : List Ev)
    (hl : ∀ w, Ev.resize w ∈ l → Room w) :
    0 ≤ (run s l).2.width ∧
    ((run s l).2.shown = true →
      (run s l).1.left + (run s l).2.used (run s l).1 + (run s l).1.bar ≤ (run s l).1.inner) := by
  have key : ∀ (l : List Ev) (s : Win × Tab), Seen s.1 s.2 → Room s.1 → (∀ w, Ev.resize w ∈ l → Room w) →
      Seen (run s l).1 (run s l).2 := by
    intro l
    induction l with
    | nil => intro s h _ _; exact h
    | cons e l ih =>
      intro s h hr hl
      have := step_seen h hr e (fun w hw => hl w (by simp [hw]))
      exact ih (step s e) this.1 this.2 (fun w hw => hl w (by simp [hw]))
  have := key l s ⟨h0, fun x => by simp [hh] at x⟩ hr hl
  refine ⟨this.pos, fun hs => ?_⟩
  have hi := this.inside hs
  simp only [Tab.used, hs, if_true]
  exact hi

/-- The widest the column can be. -/
def widest (w : Win) : Int := min w.cap (w.inner - (w.left + w.bar))

/-- One drag with the mouse (`touch = false`) or a finger: moves to the given places. -/
def moves (touch : Bool) (xs : List Int) : List Ev := xs.map fun x => if touch then .touchMove x else .mouseMove x

theorem drag_used {w : Win} {t : Tab} (hs : t.shown = true) (o x : Int)
    (h0 : 0 ≤ t.used w - (o - x)) (hw : 0 ≤ w.inner - (w.left + w.bar)) :
    (t.drag w o x).used w = min (widest w) (t.used w - (o - x)) := by
  unfold Tab.drag Tab.assign
  simp only [Tab.leftEdge, hs, if_true]
  split
  · omega
  · have e : ∀ v, (Tab.mk v true t.mouse t.touch).used w = min v w.cap := fun v => by simp [Tab.used]
    rw [e]
    unfold widest
    omega

/-- A tab with one handler. -/
def Tab.held (t : Tab) (touch : Bool) (x : Int) : Tab :=
  ⟨t.width, t.shown, if touch then [] else [x], if touch then [x] else []⟩

/-- The divider follows the pointer exactly, as long as the place asked for is one the column can have. -/
theorem C125_follow (w : Win) (t : Tab) (hs : t.shown = true) (hr : Room w) (touch : Bool) (x0 : Int)
    (hm : t.mouse = if touch then [] else [x0]) (ht : t.touch = if touch then [x0] else []) (xs : List Int)
    (hx : ∀ x ∈ xs, (touch = false → x ≠ 0) ∧ 0 ≤ t.used w + (x - x0) ∧ t.used w + (x - x0) ≤ widest w) :
    (run (w, t) (moves touch xs)).1 = w ∧
    (run (w, t) (moves touch xs)).2.used w = t.used w + (xs.getLastD x0 - x0) := by
  induction xs generalizing t x0 with
  | nil => simp [run, moves]
  | cons x xs ih =>
    obtain ⟨hn, h0, h1⟩ := hx x (by simp)
    have hu : (t.drag w x0 x).used w = t.used w + (x - x0) := by
      rw [drag_used hs x0 x (by omega) (by unfold Room at hr; omega)]
      omega
    have hstep : step (w, t) (if touch then .touchMove x else .mouseMove x) =
        (w, (t.drag w x0 x).held touch x) := by
      cases touch with
      | true =>
        simp only [if_true] at *
        simp [step, ht, Tab.drags, Tab.held, hm]
      | false =>
        have hn := hn rfl
        simp only [Bool.false_eq_true, if_false] at *
        simp [step, hn, ht, Tab.drags, Tab.held, hm]
    have e : run (w, t) (moves touch (x :: xs)) = run (step (w, t) (if touch then .touchMove x else .mouseMove x))
        (moves touch xs) := rfl
    rw [e, hstep]
    have hu' : ((t.drag w x0 x).held touch x).used w = t.used w + (x - x0) := by
      rw [← hu]; rfl
    have := ih ((t.drag w x0 x).held touch x) (by simp [Tab.held, hs]) x rfl rfl (by
        intro y hy
        obtain ⟨a, b, c⟩ := hx y (by simp [hy])
        rw [hu']
        exact ⟨a, by omega, by omega⟩)
    refine ⟨this.1, ?_⟩
    rw [this.2, hu']
    cases xs with
    | nil => simp
    | cons y ys => simp only [List.getLastD_cons]; omega

/-- **False beyond the end.** If the pointer goes `d` pixels further than the column can grow and comes back to where
it was, the divider is `d` pixels to the left of where it was: it no longer is under the pointer. -/
theorem C125_drift_fails (w : Win) (t : Tab) (hs : t.shown = true) (hr : Room w) (x0 d : Int)
    (hm : t.mouse = [x0]) (hp : 0 ≤ t.used w) (hw : t.used w ≤ widest w) (hd : 0 < d) (hroom : d ≤ t.used w)
    (h0 : x0 ≠ 0) (h1 : x0 + (widest w - t.used w) + d ≠ 0) :
    (run (w, t) [.mouseMove (x0 + (widest w - t.used w) + d), .mouseMove x0]).2.used w = t.used w - d := by
  have h2 : (t.drag w x0 (x0 + (widest w - t.used w) + d)).used w = widest w := by
    rw [drag_used hs _ _ (by omega) (by unfold Room at hr; omega)]
    omega
  have e1 : step (w, t) (.mouseMove (x0 + (widest w - t.used w) + d)) =
      (w, { t.drag w x0 (x0 + (widest w - t.used w) + d) with mouse := [x0 + (widest w - t.used w) + d] }) := by
    simp only [step, ne_eq, h1, not_false_eq_true, if_true, hm, Tab.drags, List.map_cons, List.map_nil]
  simp only [run, List.foldl_cons, List.foldl_nil, e1]
  generalize hq : ({ t.drag w x0 (x0 + (widest w - t.used w) + d) with
    mouse := [x0 + (widest w - t.used w) + d] } : Tab) = q
  have hqs : q.shown = true := by rw [← hq]; simp [hs]
  have hqu : q.used w = widest w := by rw [← hq]; exact h2
  have hqm : q.mouse = [x0 + (widest w - t.used w) + d] := by rw [← hq]
  have e2 : (step (w, q) (.mouseMove x0)).2.used w = (q.drag w (x0 + (widest w - t.used w) + d) x0).used w := by
    simp only [step, ne_eq, h0, not_false_eq_true, if_true, hqm, Tab.drags, List.map_cons, List.map_nil]
    rfl
  rw [e2, drag_used hqs _ _ (by rw [hqu]; omega) (by unfold Room at hr; omega), hqu]
  omega

/-- **False with two fingers.** A second finger on the divider adds a second handler for the same finger: the divider
then moves twice as far as the finger. -/
theorem C125_double_fails (w : Win) (t : Tab) (hs : t.shown = true) (hr : Room w) (x0 x : Int)
    (ht : t.touch = []) (h0 : 0 ≤ t.used w + (x - x0)) (h1 : t.used w + (x - x0) ≤ widest w)
    (h2 : 0 ≤ t.used w + 2 * (x - x0)) (h3 : t.used w + 2 * (x - x0) ≤ widest w) :
    (run (w, t) [.touchDown x0, .touchDown x0, .touchMove x]).2.used w = t.used w + 2 * (x - x0) := by
  have e : (run (w, t) [.touchDown x0, .touchDown x0, .touchMove x]).2 =
      { ({ t with touch := [x0, x0] } : Tab).drags w x [x0, x0] with touch := [x, x] } := by
    simp [run, step, hs, ht]
  rw [e]
  generalize hq : ({ t with touch := [x0, x0] } : Tab) = q
  have hqs : q.shown = true := by rw [← hq]; exact hs
  have hqu : q.used w = t.used w := by rw [← hq]; rfl
  have e2 : ({ q.drags w x [x0, x0] with touch := [x, x] } : Tab).used w = ((q.drag w x0 x).drag w x0 x).used w := rfl
  have a1 : (q.drag w x0 x).used w = t.used w + (x - x0) := by
    rw [drag_used hqs _ _ (by rw [hqu]; omega) (by unfold Room at hr; omega), hqu]
    omega
  rw [e2, drag_used (by simp [hqs]) _ _ (by rw [a1]; omega) (by unfold Room at hr; omega), a1]
  omega

/-- Once released, however often it was pressed before, moving has no effect. -/
theorem C125_released (s : Win × Tab) (before : List Ev) (xs ys : List Int) :
    run s (before ++ .mouseUp :: .touchUp :: (moves false xs ++ moves true ys))
      = run s (before ++ [.mouseUp, .touchUp]) := by
  have key : ∀ (l : List Ev) (s : Win × Tab), s.2.mouse = [] → s.2.touch = [] →
      (∀ e ∈ l, ∃ x, e = .mouseMove x ∨ e = .touchMove x) → run s l = s := by
    intro l
    induction l with
    | nil => intros; rfl
    | cons e l ih =>
      intro s h1 h2 hl
      have : step s e = s := by
        obtain ⟨w, t⟩ := s
        simp only at h1 h2
        obtain ⟨x, rfl | rfl⟩ := hl e (by simp)
        · simp only [step, h1, Tab.drags, List.map_nil]
          rw [← h1]
          simp
        · simp only [step, h2, Tab.drags, List.map_nil]
          rw [← h2]
      show run (step s e) l = s
      rw [this]
      exact ih s h1 h2 (fun e he => hl e (by simp [he]))
  have e : ∀ r, run s (before ++ .mouseUp :: .touchUp :: r) = run (run s (before ++ [.mouseUp, .touchUp])) r := by
    intro r
    simp [run, List.foldl_append]
  rw [e]
  refine key _ _ ?_ ?_ ?_
  · simp [run, List.foldl_append, step]
  · simp [run, List.foldl_append, step]
  · intro e he
    simp only [moves, List.mem_append, List.mem_map] at he
    obtain ⟨x, _, rfl⟩ | ⟨x, _, rfl⟩ := he
    · exact ⟨x, .inl rfl⟩
    · exact ⟨x, .inr rfl⟩

/-- C125: another size of the window leaves the column's width alone if the divider is still in the window, and else
moves the divider to the window's edge. -/
theorem C125_resized (s : Win × Tab) (hs : s.2.shown = true) (w : Win) :
    (w.left + min s.2.width w.cap + w.bar ≤ w.inner → (step s (.resize w)).2 = s.2) ∧
    (w.inner < w.left + min s.2.width w.cap + w.bar → w.left + w.bar ≤ w.inner →
      (step s (.resize w)).2.width + w.left + w.bar = w.inner) := by
  constructor
  · intro h
    simp only [step, Tab.correct, Tab.used, hs, if_true]
    rw [if_neg (by omega)]
  · intro h hr
    simp only [step, Tab.correct, Tab.used, hs, if_true]
    rw [if_pos (by omega)]
    unfold Tab.assign
    rw [if_neg (by omega)]
    simp only
    omega

/-- **False at the left edge.** A mouse at 0 is not followed: the handler raises and the column keeps its width,
and a button pressed there starts nothing. A finger is followed. -/
theorem C125_edge_fails (s : Win × Tab) :
    step s (.mouseMove 0) = s ∧ step s (.mouseDown 0) = s ∧
    (s.2.shown = true → (step s (.touchDown 0)).2.touch = s.2.touch ++ [0]) := by
  refine ⟨rfl, by simp [step], fun h => by simp [step, h]⟩

/-! ### Cases -/

def exWin : Win := ⟨1000, 700, 50, 10⟩
def exTab : Tab := ⟨300, true, [], []⟩

theorem C125_cases :
    exWin.left + exWin.bar ≤ exWin.inner ∧ widest exWin = 700 ∧
    (run (exWin, exTab) [.mouseDown 355, .mouseMove 400, .mouseMove 455, .mouseUp, .mouseMove 10]).2.width = 400 ∧
    (run (exWin, exTab) [.mouseDown 355, .mouseMove 900, .mouseMove 355]).2.width = 155 ∧
    (run (exWin, exTab) [.touchDown 355, .touchDown 355, .touchMove 365]).2.width = 320 ∧
    (run (exWin, exTab) [.mouseDown 355, .mouseMove 20]).2.width = 300 ∧
    (run (exWin, exTab) [.resize ⟨200, 700, 50, 10⟩]).2.width = 140 ∧
    (run (exWin, exTab) [.hide, .resize ⟨200, 700, 50, 10⟩, .show]).2.width = 140 := by
  decide +kernel

end Verif.Divider
