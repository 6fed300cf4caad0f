import Verif.Metrics

/-!
# The terminal cursor (C61)

`Cursor` of `tui/cursor.py` 15-85. The coordinates are unsigned 32-bit
primitives. The window is left open: it tells its size when it is polled, and
it may refuse a move, which raises (curses refuses what lies outside of it;
the repository's `WindowMock`, `tui/mock.py` 33-39, refuses only what lies
beyond its size).
-/

namespace Verif.Cursor
open Verif.Wire

/-- `Cursor` (`cursor.py` 18-27). -/
structure Cur where
  x : Int
  y : Int
  maxX : Int
  maxY : Int
deriving DecidableEq

/-- `move` (`cursor.py` 29-43) on a window that accepts the positions
`accepts y x`. -/
def Cur.move (accepts : Int → Int → Bool) (c : Cur) (newY newX : Option Int) :
    Cur × Except PyErr Bool :=
  let y := newY.getD c.y
  let x := newX.getD c.x
  if y < c.maxY ∧ x < c.maxX then
    if accepts y x then (⟨wrap .uint32 x, wrap .uint32 y, c.maxX, c.maxY⟩, .ok true)
    else (c, .error .runtime)
  else (c, .ok false)

/-- `poll_max` (`cursor.py` 45-58) with the window's size. -/
def Cur.pollMax (c : Cur) (height width : Int) : Cur × Bool :=
  let c' : Cur := ⟨c.x, c.y, wrap .uint32 width, wrap .uint32 height⟩
  (c', c'.maxX ≠ c.maxX || c'.maxY ≠ c.maxY)

/-- `reset` (`cursor.py` 70-76). -/
def Cur.reset (accepts : Int → Int → Bool) (c : Cur) (height width : Int) :
    Cur × Except PyErr Unit :=
  let c' := (Cur.pollMax ⟨0, 0, c.maxX, c.maxY⟩ height width).1
  match c'.move accepts none none with
  | (c'', .ok true) => (c'', .ok ())
  | (c'', .ok false) => (c'', .error .assertion)
  | (c'', .error e) => (c'', .error e)

/-- What happens to a cursor. -/
inductive Op where
  | move (y x : Option Int)
  /-- `inc_x` (78-81) -/
  | incX (amount : Int)
  /-- `inc_y` (83-85) -/
  | incY (amount : Int)
  /-- the window is polled and has this size -/
  | poll (height width : Int)
  | reset (height width : Int)

def Op.run (accepts : Int → Int → Bool) (c : Cur) : Op → Cur
  | .move y x => (c.move accepts y x).1
  | .incX n => (c.move accepts none (some (c.x + n))).1
  | .incY n => (c.move accepts (some (c.y + n)) none).1
  | .poll h w => (c.pollMax h w).1
  | .reset h w => (c.reset accepts h w).1

/-- The cursor lies inside the last polled window. -/
def Inside (c : Cur) : Prop := 0 ≤ c.x ∧ c.x < c.maxX ∧ 0 ≤ c.y ∧ c.y < c.maxY

/-- The operation does not lead to a negative position, and a poll does not
find a window the cursor is outside of. Sizes are those of a window: at least
one, and less than 2^32. -/
def Fair (c : Cur) : Op → Prop
  | .move y x => (∀ v, y = some v → 0 ≤ v) ∧ (∀ v, x = some v → 0 ≤ v)
  | .incX n => 0 ≤ c.x + n
  | .incY n => 0 ≤ c.y + n
  | .poll h w => c.y < h ∧ c.x < w ∧ h < 4294967296 ∧ w < 4294967296
  | .reset h w => 0 < h ∧ 0 < w ∧ h < 4294967296 ∧ w < 4294967296

/-- Every operation of the history is fair when it happens. -/
def FairRun (accepts : Int → Int → Bool) : Cur → List Op → Prop
  | _, [] => True
  | c, o :: ops => Fair c o ∧ FairRun accepts (o.run accepts c) ops

structure CInv (c : Cur) : Prop where
  inside : Inside c
  wide : c.maxX < 4294967296 ∧ c.maxY < 4294967296

theorem move_inv (accepts : Int → Int → Bool) (c : Cur) (y x : Option Int) (h : CInv c)
    (hy : ∀ v, y = some v → 0 ≤ v) (hx : ∀ v, x = some v → 0 ≤ v) :
    CInv (c.move accepts y x).1 := by
  obtain ⟨⟨h1, h2, h3, h4⟩, h5, h6⟩ := h
  have hy' : 0 ≤ y.getD c.y := by
    cases y with
    | none => exact h3
    | some v => exact hy v rfl
  have hx' : 0 ≤ x.getD c.x := by
    cases x with
    | none => exact h1
    | some v => exact hx v rfl
  simp only [Cur.move]
  split
  · rename_i hlt
    split
    · refine ⟨⟨?_, ?_, ?_, ?_⟩, h5, h6⟩
      all_goals
        simp only [Metrics.wrap_uint32]
        omega
    · exact ⟨⟨h1, h2, h3, h4⟩, h5, h6⟩
  · exact ⟨⟨h1, h2, h3, h4⟩, h5, h6⟩

theorem poll_inv (c : Cur) (height width : Int) (hx : 0 ≤ c.x) (hy : 0 ≤ c.y)
    (h : c.y < height ∧ c.x < width ∧ height < 4294967296 ∧ width < 4294967296) :
    CInv (c.pollMax height width).1 := by
  obtain ⟨h1, h2, h3, h4⟩ := h
  have e1 : wrap .uint32 width = width := by rw [Metrics.wrap_uint32]; omega
  have e2 : wrap .uint32 height = height := by rw [Metrics.wrap_uint32]; omega
  simp only [Cur.pollMax, e1, e2]
  exact ⟨⟨hx, h2, hy, h1⟩, h4, h3⟩

theorem run_inv (accepts : Int → Int → Bool) (c : Cur) (o : Op) (h : CInv c) (hf : Fair c o) :
    CInv (o.run accepts c) := by
  cases o with
  | move y x => exact move_inv accepts c y x h hf.1 hf.2
  | incX n =>
    exact move_inv accepts c none _ h (fun v hv => (by cases hv))
      (fun v hv => by injection hv with hv; rw [← hv]; exact hf)
  | incY n =>
    exact move_inv accepts c _ none h
      (fun v hv => by injection hv with hv; rw [← hv]; exact hf) (fun v hv => (by cases hv))
  | poll ht wd => exact poll_inv c ht wd h.inside.1 h.inside.2.2.1 hf
  | reset ht wd =>
    obtain ⟨h1, h2, h3, h4⟩ := hf
    have hp := poll_inv ⟨0, 0, c.maxX, c.maxY⟩ ht wd (Int.le_refl _) (Int.le_refl _)
      ⟨h1, h2, h3, h4⟩
    have hm := move_inv accepts _ none none hp (fun v hv => (by cases hv))
      (fun v hv => (by cases hv))
    simp only [Op.run, Cur.reset]
    generalize hg : Cur.move accepts (Cur.pollMax ⟨0, 0, c.maxX, c.maxY⟩ ht wd).1 none none = r
      at hm
    obtain ⟨c', e⟩ := r
    cases e with
    | error e => exact hm
    | ok b => cases b <;> exact hm

/-- C61: from a position inside the window, every history of fair operations
keeps the cursor inside the last polled window, whatever moves the window
refuses. -/
theorem C61_inside_partial (accepts : Int → Int → Bool) (c : Cur) (ops : List Op)
    (h : Inside c) (hw : c.maxX < 4294967296 ∧ c.maxY < 4294967296)
    (hf : FairRun accepts c ops) : Inside (ops.foldl (Op.run accepts) c) := by
  have gen : ∀ (ops : List Op) (c : Cur), CInv c → FairRun accepts c ops →
      CInv (ops.foldl (Op.run accepts) c) := by
    intro ops
    induction ops with
    | nil => intro c h _; exact h
    | cons o ops ih => intro c h hf; exact ih _ (run_inv accepts c o h hf.1) hf.2
  exact (gen ops c ⟨h, hw⟩ hf).inside

/-- C61: a new cursor on a window of at least one by one that accepts the
corner is inside. -/
theorem C61_start (accepts : Int → Int → Bool) (height width : Int)
    (h : 0 < height ∧ 0 < width ∧ height < 4294967296 ∧ width < 4294967296)
    (ha : accepts 0 0 = true) :
    (Cur.reset accepts ⟨0, 0, 0, 0⟩ height width) = (⟨0, 0, width, height⟩, .ok ()) := by
  obtain ⟨h1, h2, h3, h4⟩ := h
  have e1 : wrap .uint32 width = width := by rw [Metrics.wrap_uint32]; omega
  have e2 : wrap .uint32 height = height := by rw [Metrics.wrap_uint32]; omega
  have e3 : wrap .uint32 0 = 0 := by rw [Metrics.wrap_uint32]; rfl
  simp [Cur.reset, Cur.pollMax, Cur.move, e1, e2, e3, h1, h2, ha]

/-- C61: a move is refused exactly when it would leave the window downwards or
to the right; then nothing changes. Otherwise, at a position that is not
negative, the cursor is at the place asked for. -/
theorem C61_move (accepts : Int → Int → Bool) (c : Cur) (y x : Int)
    (ha : accepts y x = true) (hy : 0 ≤ y) (hx : 0 ≤ x)
    (hw : c.maxX < 4294967296 ∧ c.maxY < 4294967296) :
    c.move accepts (some y) (some x) =
      if y < c.maxY ∧ x < c.maxX then (⟨x, y, c.maxX, c.maxY⟩, .ok true) else (c, .ok false) := by
  simp only [Cur.move, Option.getD_some, ha, if_true]
  split
  · have e1 : wrap .uint32 x = x := by rw [Metrics.wrap_uint32]; omega
    have e2 : wrap .uint32 y = y := by rw [Metrics.wrap_uint32]; omega
    rw [e1, e2]
  · rfl

/-- C61 is false of the code for negative moves: on a window that accepts
them, as the repository's `WindowMock` does, every move to a negative column
reports success and puts the cursor at the far end of the 32-bit range,
outside of any window that does not span it. -/
theorem C61_negative_fails (accepts : Int → Int → Bool) (c : Cur) (n : Int)
    (hn : 0 < n ∧ n ≤ 4294967296 - c.maxX) (hy : c.y < c.maxY) (hx : 0 < c.maxX)
    (ha : accepts c.y (-n) = true) :
    (c.move accepts none (some (-n))).2 = .ok true ∧
    (c.move accepts none (some (-n))).1.x = 4294967296 - n ∧
    ¬ Inside (c.move accepts none (some (-n))).1 := by
  have hlt : c.y < c.maxY ∧ -n < c.maxX := ⟨hy, by omega⟩
  have hm : c.move accepts none (some (-n))
      = (⟨wrap .uint32 (-n), wrap .uint32 c.y, c.maxX, c.maxY⟩, .ok true) := by
    simp [Cur.move, ha, hlt]
  have e : wrap .uint32 (-n) = 4294967296 - n := by
    rw [Metrics.wrap_uint32]; omega
  rw [hm, e]
  refine ⟨rfl, rfl, ?_⟩
  rintro ⟨_, h2, _⟩
  have h2 : 4294967296 - n < c.maxX := h2
  omega

/-- C61 is false of the code for shrinking windows: a poll that finds the
window no wider than the cursor's column leaves the cursor outside. -/
theorem C61_shrink_fails (c : Cur) (height width : Int) (hw : 0 ≤ width ∧ width ≤ c.x) :
    (c.pollMax height width).1.x = c.x ∧ ¬ Inside (c.pollMax height width).1 := by
  refine ⟨rfl, ?_⟩
  rintro ⟨_, h2, _⟩
  have h2 : c.x < wrap .uint32 width := h2
  rw [Metrics.wrap_uint32] at h2
  omega

/-- C61: outside of a shrunk window every relative move in the other direction
is refused, until the cursor is back in range: it is stuck in its row. -/
theorem C61_stuck_fails (accepts : Int → Int → Bool) (c : Cur) (n : Int) (h : c.maxX ≤ c.x) :
    (c.move accepts (some (c.y + n)) none) = (c, .ok false) := by
  simp only [Cur.move, Option.getD_none, Option.getD_some]
  rw [if_neg (by omega)]

/-- C61: a poll reports a change exactly if the window has another size than the one last polled. -/
theorem C61_reports (c : Cur) (height width : Int) (hh : 0 ≤ height ∧ height < 2 ^ 32) (hw : 0 ≤ width ∧ width < 2 ^ 32) :
    (c.pollMax height width).1 = ⟨c.x, c.y, width, height⟩ ∧
      ((c.pollMax height width).2 = true ↔ (height, width) ≠ (c.maxY, c.maxX)) := by
  have e1 : wrap .uint32 width = width := by rw [Metrics.wrap_uint32]; omega
  have e2 : wrap .uint32 height = height := by rw [Metrics.wrap_uint32]; omega
  simp only [Cur.pollMax, e1, e2]
  refine ⟨trivial, ?_⟩
  by_cases h1 : width = c.maxX <;> by_cases h2 : height = c.maxY <;> simp [h1, h2]

/-- A fair history on a window of 24 by 80 that grows. -/
example : FairRun (fun _ _ => true) ⟨0, 0, 80, 24⟩ [.incX 79, .incX 1, .poll 30 100, .incX 1] ∧
    ([.incX 79, .incX 1, .poll 30 100, .incX 1] : List Op).foldl (Op.run (fun _ _ => true))
      ⟨0, 0, 80, 24⟩ = ⟨80, 0, 100, 30⟩ := by
  constructor
  · simp only [FairRun, Fair]
    decide
  · decide

end Verif.Cursor
