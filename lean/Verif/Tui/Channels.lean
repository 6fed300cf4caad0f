import Verif.Base
/-!
C92: the channel list of the text interface (`tui/channels/__init__.py`, `tui/mixin.py`).

A window is a grid of characters. `addstr` is that of curses: a text that reaches the right edge goes
on in the next row, and an error is raised when the cursor cannot be moved to the position or would
leave the window at the lower right. Left out: the header, attributes, characters that take
several columns, windows too small to be made. `ff` stands for the format `5.6f`. An exception is
`false`.
-/
namespace Verif.Tui

/-- A curses window. -/
structure Win where
  h : Nat
  w : Nat
  cell : Nat → Nat → Char

/-- `clear` and `box` of a new window, channels/__init__.py 101–103. -/
def Win.boxed (h w : Nat) : Win :=
  ⟨h, w, fun r c => if r = 0 ∨ r + 1 = h ∨ c = 0 ∨ c + 1 = w then '#' else ' '⟩

/-- `window.addstr(y, x, s)`. -/
def Win.addstr (W : Win) (y x : Nat) (s : List Char) : Win × Bool :=
  if W.h ≤ y ∨ W.w ≤ x then (W, false)
  else
    ({ W with cell := fun r c =>
        if c < W.w ∧ y * W.w + x ≤ r * W.w + c then s.getD (r * W.w + c - (y * W.w + x)) (W.cell r c)
        else W.cell r c },
      s.isEmpty || decide (y * W.w + x + s.length < W.h * W.w))

/-- What `env.value` gives: an enumerated channel or field gives a string. -/
inductive Val where
  | int (v : Int)
  | bool (b : Bool)
  | float (q : Rat)
  | str (s : String)

/-- Left-aligned to five columns. -/
def pad5 (s : List Char) : List Char := s ++ List.replicate (5 - s.length) ' '

variable (ff : Rat → List Char)

/-- The text of a value, channels/__init__.py 131–135. -/
def text : Val → List Char
  | .float q => ff q
  | .int v => pad5 (toString v).toList
  | .bool b => pad5 [if b then '1' else '0']
  | .str _ => []

/-- One `addstr` per line from row `y`; `none` for an exception when the text is made. -/
def draw (x : Nat) : Nat → List (Option (List Char)) → Win → Win × Bool
  | _, [], W => (W, true)
  | _, none :: _, W => (W, false)
  | y, some s :: rest, W =>
    if (W.addstr y x s).2 then draw x (y + 1) rest (W.addstr y x s).1 else ((W.addstr y x s).1, false)

/-- The attributes of `ChannelTui`. -/
structure Tui where
  names : List String
  col : Nat
  body : Win

/-- `init`, channels/__init__.py 53–74, with a body of this size and these names (sorted). -/
def init (h w : Nat) (names : List String) : Tui × Bool :=
  let r := draw 1 1 (names.map fun n => some n.toList) (Win.boxed h w)
  (⟨names, (names.map fun n => n.toList.length).foldl max 0 + 2, r.1⟩, r.2)

/-- `update_body`, channels/__init__.py 123–139. -/
def Tui.update (t : Tui) (read : String → Option Val) : Tui × Bool :=
  let r := draw t.col 1 (t.names.map fun n => (read n).map (text ff)) t.body
  ({ t with body := r.1 }, r.2)

/-- Several calls. -/
def Tui.updates (t : Tui) : List (String → Option Val) → Tui
  | [] => t
  | read :: rest => (t.update ff read).1.updates rest

/-- `update_dimensions` on a key `KEY_RESIZE`, mixin.py 76–83, channels/__init__.py 76–104. -/
def Tui.resize (t : Tui) (h w : Nat) : Tui := { t with body := Win.boxed h w }

/-! ### Texts within a row -/

theorem line (w y x r c len : Nat) (hc : c < w) (hx : x + len ≤ w) (hlen : 0 < len) :
    (y * w + x ≤ r * w + c ∧ r * w + c < y * w + x + len) ↔ (r = y ∧ x ≤ c ∧ c < x + len) := by
  constructor
  · rintro ⟨h1, h2⟩
    have hr : r = y := by
      rcases Nat.lt_trichotomy r y with h | h | h
      · have := Nat.mul_le_mul_right w (show r + 1 ≤ y from h)
        rw [Nat.add_mul] at this
        omega
      · exact h
      · have := Nat.mul_le_mul_right w (show y + 1 ≤ r from h)
        rw [Nat.add_mul] at this
        omega
    subst hr
    omega
  · rintro ⟨rfl, h1, h2⟩
    omega

theorem addstr_ok (W : Win) (y x : Nat) (s : List Char) (hy : y < W.h) (hx : x + s.length < W.w) :
    (W.addstr y x s).2 = true ∧ (W.addstr y x s).1.h = W.h ∧ (W.addstr y x s).1.w = W.w := by
  unfold Win.addstr
  rw [if_neg (by omega)]
  have := Nat.mul_le_mul_right W.w (show y + 1 ≤ W.h from hy)
  rw [Nat.add_mul] at this
  refine ⟨?_, rfl, rfl⟩
  simp only [Bool.or_eq_true, decide_eq_true_eq]
  right
  omega

theorem addstr_cell (W : Win) (y x : Nat) (s : List Char) (hy : y < W.h) (hx : x + s.length < W.w)
    (r c : Nat) (hc : c < W.w) :
    (W.addstr y x s).1.cell r c =
      if r = y ∧ x ≤ c then s.getD (c - x) (W.cell r c) else W.cell r c := by
  unfold Win.addstr
  rw [if_neg (by omega)]
  show (if c < W.w ∧ y * W.w + x ≤ r * W.w + c then s.getD (r * W.w + c - (y * W.w + x)) (W.cell r c)
        else W.cell r c) = _
  by_cases hlen : s.length = 0
  · have : s = [] := List.length_eq_zero_iff.mp hlen
    subst this
    simp
  · by_cases hin : r = y ∧ x ≤ c
    · obtain ⟨rfl, h2⟩ := hin
      rw [if_pos ⟨hc, by omega⟩, if_pos ⟨rfl, h2⟩]
      congr 1
      omega
    · rw [if_neg hin]
      by_cases h1 : y * W.w + x ≤ r * W.w + c
      · rw [if_pos ⟨hc, h1⟩]
        have h2 : ¬ (r * W.w + c < y * W.w + x + s.length) := by
          intro h2
          have := (line W.w y x r c s.length hc (by omega) (by omega)).mp ⟨h1, h2⟩
          exact hin ⟨this.1, this.2.1⟩
        rw [List.getD_eq_getElem?_getD, List.getElem?_eq_none (by omega)]
        rfl
      · rw [if_neg (fun h => h1 h.2)]

/-- Drawing lines that fit: every line is written at its place and nothing else changes. -/
theorem draw_spec (x : Nat) (items : List (List Char)) : ∀ (y : Nat) (W : Win), y + items.length ≤ W.h →
    (∀ s ∈ items, x + s.length < W.w) →
    (draw x y (items.map some) W).2 = true ∧ (draw x y (items.map some) W).1.h = W.h ∧
    (draw x y (items.map some) W).1.w = W.w ∧
    ∀ r c, c < W.w → (draw x y (items.map some) W).1.cell r c =
      if y ≤ r ∧ x ≤ c then (items.getD (r - y) []).getD (c - x) (W.cell r c) else W.cell r c := by
  induction items with
  | nil =>
    intro y W _ _
    refine ⟨rfl, rfl, rfl, fun r c _ => ?_⟩
    simp [draw]
  | cons s items ih =>
    intro y W hy hs
    simp only [List.length_cons] at hy
    have hs0 := hs s (List.mem_cons_self ..)
    obtain ⟨h1, h2, h3⟩ := addstr_ok W y x s (by omega) hs0
    obtain ⟨g1, g2, g3, g4⟩ := ih (y + 1) (W.addstr y x s).1 (by omega)
      (fun s' hs' => by rw [h3]; exact hs s' (List.mem_cons_of_mem _ hs'))
    simp only [List.map_cons, draw, h1, if_true]
    refine ⟨g1, g2.trans h2, g3.trans h3, fun r c hc => ?_⟩
    rw [g4 r c (by rw [h3]; exact hc), addstr_cell W y x s (by omega) hs0 r c hc]
    by_cases hx : x ≤ c
    · rcases Nat.lt_trichotomy r y with h | h | h
      · rw [if_neg (by omega), if_neg (by omega), if_neg (by omega)]
      · subst h
        rw [if_neg (by omega), if_pos ⟨rfl, hx⟩, if_pos ⟨Nat.le_refl _, hx⟩]
        simp
      · rw [if_pos ⟨h, hx⟩, if_neg (by omega), if_pos ⟨by omega, hx⟩]
        obtain ⟨d, rfl⟩ : ∃ d, r = y + 1 + d := ⟨r - (y + 1), by omega⟩
        have e1 : y + 1 + d - (y + 1) = d := by omega
        have e2 : y + 1 + d - y = d + 1 := by omega
        rw [e1, e2]
        rfl
    · rw [if_neg (by omega), if_neg (by omega), if_neg (by omega)]

/-! ### What the list shows -/

/-- There is room: a row of the body for every name, and for every text of these readings a place
right of the names, inside the border. -/
structure Room (t : Tui) (hist : List (String → Option Val)) : Prop where
  rows : t.names.length + 2 ≤ t.body.h
  reads : ∀ read ∈ hist, ∀ n ∈ t.names, ∃ v, read n = some v ∧ t.col + (text ff v).length < t.body.w

variable {ff}

/-- The text read for a name. -/
def shown (ff : Rat → List Char) (read : String → Option Val) (n : String) : List Char :=
  ((read n).map (text ff)).getD []

theorem update_spec {t : Tui} {read : String → Option Val} (h : Room ff t [read]) :
    (t.update ff read).2 = true ∧ (t.update ff read).1.names = t.names ∧
    (t.update ff read).1.col = t.col ∧ (t.update ff read).1.body.h = t.body.h ∧
    (t.update ff read).1.body.w = t.body.w ∧
    ∀ r c, c < t.body.w → (t.update ff read).1.body.cell r c =
      if 1 ≤ r ∧ t.col ≤ c then
        ((t.names.map (shown ff read)).getD (r - 1) []).getD (c - t.col) (t.body.cell r c)
      else t.body.cell r c := by
  have hm : (t.names.map fun n => (read n).map (text ff)) = (t.names.map (shown ff read)).map some := by
    rw [List.map_map]
    apply List.map_congr_left
    intro n hn
    obtain ⟨v, hv, -⟩ := h.reads read (List.mem_cons_self ..) n hn
    simp [shown, hv]
  have hr := h.rows
  obtain ⟨g1, g2, g3, g4⟩ := draw_spec t.col (t.names.map (shown ff read)) 1 t.body
    (by simp; omega) (by
      intro s hs
      obtain ⟨n, hn, rfl⟩ := List.mem_map.mp hs
      obtain ⟨v, hv, hlt⟩ := h.reads read (List.mem_cons_self ..) n hn
      simpa [shown, hv] using hlt)
  unfold Tui.update
  rw [hm]
  exact ⟨g1, rfl, rfl, g2, g3, g4⟩

theorem room_tail {t : Tui} {read : String → Option Val} {hist : List (String → Option Val)}
    (h : Room ff t (read :: hist)) : Room ff t [read] ∧ Room ff (t.update ff read).1 hist := by
  have h1 : Room ff t [read] := ⟨h.rows, fun r hr n hn => h.reads r (by
    rw [List.mem_singleton.mp hr]; exact List.mem_cons_self ..) n hn⟩
  obtain ⟨-, e1, e2, e3, e4, -⟩ := update_spec h1
  refine ⟨h1, ?_, ?_⟩
  · rw [e1, e3]; exact h.rows
  · intro r hr n hn
    rw [e2, e4]
    rw [e1] at hn
    exact h.reads r (List.mem_cons_of_mem _ hr) n hn

theorem updates_spec (hist : List (String → Option Val)) : ∀ (t : Tui), Room ff t hist →
    (t.updates ff hist).names = t.names ∧ (t.updates ff hist).col = t.col ∧
    (∀ r c, c < t.body.w → c < t.col → (t.updates ff hist).body.cell r c = t.body.cell r c) ∧
    (∀ (i j : Nat) (n : String), t.names[i]? = some n → t.col + j < t.body.w →
      (t.updates ff hist).body.cell (1 + i) (t.col + j) =
        (hist.map fun read => shown ff read n).foldl (fun ch s => s.getD j ch)
          (t.body.cell (1 + i) (t.col + j))) := by
  induction hist with
  | nil => intro t _; exact ⟨rfl, rfl, fun _ _ _ _ => rfl, fun _ _ _ _ _ => rfl⟩
  | cons read hist ih =>
    intro t h
    obtain ⟨h1, h2⟩ := room_tail h
    obtain ⟨-, e1, e2, -, e4, e5⟩ := update_spec h1
    obtain ⟨g1, g2, g3, g4⟩ := ih _ h2
    simp only [Tui.updates]
    refine ⟨g1.trans e1, g2.trans e2, fun r c hc hcc => ?_, fun i j n hn hj => ?_⟩
    · rw [g3 r c (by rw [e4]; exact hc) (by rw [e2]; exact hcc), e5 r c hc, if_neg (by omega)]
    · have := g4 i j n (by rw [e1]; exact hn) (by rw [e2, e4]; exact hj)
      rw [e2] at this
      rw [this, e5 _ _ hj, if_pos (by omega)]
      simp only [List.map_cons, List.foldl_cons]
      have e : (t.names.map (shown ff read)).getD (1 + i - 1) [] = shown ff read n := by
        rw [show 1 + i - 1 = i from by omega, List.getD_eq_getElem?_getD, List.getElem?_map, hn]; rfl
      rw [e, show t.col + j - t.col = j from by omega]

theorem le_foldl_max (l : List Nat) : ∀ a, a ≤ l.foldl max a ∧ ∀ x ∈ l, x ≤ l.foldl max a := by
  induction l with
  | nil => intro a; simp
  | cons b l ih =>
    intro a
    obtain ⟨h1, h2⟩ := ih (max a b)
    simp only [List.foldl_cons]
    refine ⟨by omega, fun x hx => ?_⟩
    rcases List.mem_cons.mp hx with rfl | hx
    · omega
    · exact h2 x hx

/-- What `init` leaves on the screen. -/
theorem init_spec {h w : Nat} {names : List String} (hr : names.length + 2 ≤ h)
    (hw : (init h w names).1.col < w) :
    (init h w names).2 = true ∧ (init h w names).1.body.h = h ∧ (init h w names).1.body.w = w ∧
    (∀ n ∈ names, n.toList.length + 2 ≤ (init h w names).1.col) ∧
    (∀ (i j : Nat) (n : String), names[i]? = some n → 1 + j + 1 < w →
      (init h w names).1.body.cell (1 + i) (1 + j) = n.toList.getD j ' ') := by
  have hcol : ∀ n ∈ names, n.toList.length + 2 ≤ (init h w names).1.col := by
    intro n hn
    have := (le_foldl_max (names.map fun n => n.toList.length) 0).2 n.toList.length
      (List.mem_map.mpr ⟨n, hn, rfl⟩)
    simp only [init]
    omega
  have hm : (names.map fun n => some n.toList) = (names.map String.toList).map some := by
    rw [List.map_map]; rfl
  obtain ⟨g1, g2, g3, g4⟩ := draw_spec 1 (names.map String.toList) 1 (Win.boxed h w)
    (by simp [Win.boxed]; omega) (by
      intro s hs
      obtain ⟨n, hn, rfl⟩ := List.mem_map.mp hs
      have := hcol n hn
      simp only [Win.boxed]
      omega)
  refine ⟨?_, ?_, ?_, hcol, fun i j n hn hj => ?_⟩
  · simp only [init, hm]; exact g1
  · simp only [init, hm]; exact g2
  · simp only [init, hm]; exact g3
  · simp only [init, hm]
    rw [g4 _ _ (by simp only [Win.boxed]; omega), if_pos (by omega)]
    have hi : i < names.length := (List.getElem?_eq_some_iff.mp hn).1
    have hb : (Win.boxed h w).cell (1 + i) (1 + j) = ' ' := by
      simp only [Win.boxed]
      rw [if_neg (by omega)]
    rw [hb, show 1 + i - 1 = i from by omega, show 1 + j - 1 = j from by omega]
    have e : (names.map String.toList).getD i [] = n.toList := by
      rw [List.getD_eq_getElem?_getD, List.getElem?_map, hn]; rfl
    rw [e]

/-- C92, what is on the screen after any sequence of updates: the row of a channel shows its name,
then, in every column of the value, the character of the latest text that reached this column
(blank if none did). -/
theorem C92_screen {h w : Nat} {names : List String} (hw : (init h w names).1.col < w)
    (hist : List (String → Option Val)) (hroom : Room ff (init h w names).1 hist)
    (i : Nat) (n : String) (hn : names[i]? = some n) :
    (∀ j, 1 + j < (init h w names).1.col →
      ((init h w names).1.updates ff hist).body.cell (1 + i) (1 + j) = n.toList.getD j ' ') ∧
    (∀ j, (init h w names).1.col + j + 1 < w →
      ((init h w names).1.updates ff hist).body.cell (1 + i) ((init h w names).1.col + j) =
        (hist.map fun read => shown ff read n).foldl (fun ch s => s.getD j ch) ' ') := by
  have hrows : names.length + 2 ≤ h := by
    have := hroom.rows
    have e : (init h w names).1.names = names := rfl
    rw [e] at this
    have e' : (init h w names).1.body.h = h := by
      simp only [init]
      have key : ∀ (x : Nat) (l : List (Option (List Char))) (y : Nat) (W : Win), (draw x y l W).1.h = W.h := by
        intro x l
        induction l with
        | nil => intro y W; rfl
        | cons o l ih =>
          intro y W
          cases o with
          | none => rfl
          | some s =>
            have : (W.addstr y x s).1.h = W.h := by unfold Win.addstr; split <;> rfl
            simp only [draw]
            split
            · rw [ih, this]
            · exact this
      rw [key]
      rfl
    omega
  obtain ⟨-, -, e2, e3, e4⟩ := init_spec hrows hw
  obtain ⟨-, -, g3, g4⟩ := updates_spec hist _ hroom
  constructor
  · intro j hj
    rw [g3 _ _ (by rw [e2]; omega) hj, e4 i j n hn (by omega)]
  · intro j hj
    rw [g4 i j n hn (by rw [e2]; omega)]
    congr 1
    have h0 := e3 n (List.mem_of_getElem? hn)
    obtain ⟨d, hd⟩ : ∃ d, (init h w names).1.col + j = 1 + d := ⟨(init h w names).1.col + j - 1, by omega⟩
    rw [hd, e4 i d n hn (by omega), List.getD_eq_getElem?_getD, List.getElem?_eq_none (by omega)]
    rfl

theorem foldl_getD_last (l : List (List Char)) (s : List Char) (j : Nat)
    (h : ∀ s' ∈ l, s'.length ≤ s.length) :
    ((l ++ [s]).foldl (fun ch s => s.getD j ch) ' ') = s.getD j ' ' := by
  rw [List.foldl_append]
  simp only [List.foldl_cons, List.foldl_nil]
  by_cases hj : j < s.length
  · rw [List.getD_eq_getElem?_getD, List.getD_eq_getElem?_getD, List.getElem?_eq_getElem hj]
    rfl
  · have : ∀ (l : List (List Char)), (∀ s' ∈ l, s'.length ≤ s.length) →
        l.foldl (fun ch s => s.getD j ch) ' ' = ' ' := by
      intro l
      induction l with
      | nil => intro _; rfl
      | cons a l ih =>
        intro hl
        rw [List.foldl_cons, List.getD_eq_getElem?_getD,
          List.getElem?_eq_none (by have := hl a (List.mem_cons_self ..); omega)]
        exact ih (fun s' hs' => hl s' (List.mem_cons_of_mem _ hs'))
    rw [this l h]

/-- C92: after an update, the row of a channel shows its name and the text of its current value,
followed by blanks, provided no earlier text of this channel was longer. -/
theorem C92_shows_partial {h w : Nat} {names : List String} (hw : (init h w names).1.col < w)
    (hist : List (String → Option Val)) (read : String → Option Val)
    (hroom : Room ff (init h w names).1 (hist ++ [read]))
    (i : Nat) (n : String) (hn : names[i]? = some n)
    (hlen : ∀ r ∈ hist, (shown ff r n).length ≤ (shown ff read n).length) :
    (∀ j, 1 + j < (init h w names).1.col →
      ((init h w names).1.updates ff (hist ++ [read])).body.cell (1 + i) (1 + j) = n.toList.getD j ' ') ∧
    (∀ j, (init h w names).1.col + j + 1 < w →
      ((init h w names).1.updates ff (hist ++ [read])).body.cell (1 + i) ((init h w names).1.col + j) =
        (shown ff read n).getD j ' ') := by
  obtain ⟨h1, h2⟩ := C92_screen hw _ hroom i n hn
  refine ⟨h1, fun j hj => ?_⟩
  rw [h2 j hj, List.map_append]
  exact foldl_getD_last _ _ _ (by
    intro s hs
    obtain ⟨r, hr, rfl⟩ := List.mem_map.mp hs
    exact hlen r hr)

/-- Integers of at most five characters, and truth values. -/
def Short : Val → Prop
  | .int v => (toString v).toList.length ≤ 5
  | .bool _ => True
  | _ => False

/-- C92: a boolean is shown as the number 0 or 1, like an integer channel. -/
theorem C92_bool (b : Bool) : text ff (.bool b) = text ff (.int (if b then 1 else 0)) := by
  cases b <;> rfl

theorem short_length {v : Val} (h : Short v) : (text ff v).length = 5 := by
  cases v with
  | int v =>
    have h' : (toString v).toList.length ≤ 5 := h
    simp only [text, pad5, List.length_append, List.length_replicate]
    omega
  | bool b => rfl
  | float q => exact absurd h id
  | str s => exact absurd h id

/-- C92: a channel that only ever holds integers of at most five characters or truth values is always
shown as its current value. -/
theorem C92_short {h w : Nat} {names : List String} (hw : (init h w names).1.col < w)
    (hist : List (String → Option Val)) (read : String → Option Val)
    (hroom : Room ff (init h w names).1 (hist ++ [read]))
    (i : Nat) (n : String) (hn : names[i]? = some n)
    (hs : ∀ r ∈ hist ++ [read], ∀ v, r n = some v → Short v) (v : Val) (hv : read n = some v) :
    ∀ j, (init h w names).1.col + j + 1 < w →
      ((init h w names).1.updates ff (hist ++ [read])).body.cell (1 + i) ((init h w names).1.col + j) =
        (text ff v).getD j ' ' := by
  intro j hj
  have hmem := List.mem_of_getElem? hn
  have key : ∀ r ∈ hist ++ [read], (shown ff r n).length = 5 := by
    intro r hr
    obtain ⟨v, hv, -⟩ := hroom.reads r hr n hmem
    simp only [shown, hv, Option.map_some, Option.getD_some]
    exact short_length (hs r hr v hv)
  have := (C92_shows_partial hw hist read hroom i n hn (fun r hr => by
    rw [key r (List.mem_append_left _ hr), key read (by simp)]
    exact Nat.le_refl _)).2 j hj
  rw [this]
  simp [shown, hv]

/-- C92: with room for every text, neither starting nor updating raises. -/
theorem C92_no_error {h w : Nat} {names : List String} (hr : names.length + 2 ≤ h)
    (hw : (init h w names).1.col < w) (hist : List (String → Option Val)) (read : String → Option Val)
    (hroom : Room ff (init h w names).1 (hist ++ [read])) :
    (init h w names).2 = true ∧ (((init h w names).1.updates ff hist).update ff read).2 = true := by
  refine ⟨(init_spec hr hw).1, ?_⟩
  have key : ∀ (hist : List (String → Option Val)) (t : Tui), Room ff t (hist ++ [read]) →
      ((t.updates ff hist).update ff read).2 = true := by
    intro hist
    induction hist with
    | nil => intro t h; exact (update_spec h).1
    | cons a l ih => intro t h; exact ih _ (room_tail h).2
  exact key hist _ hroom

/-! ### Where it fails -/

/-- C92 fails when a value gets shorter: right of the new text, the old one stays. -/
theorem C92_stale_fails {h w : Nat} {names : List String} (hw : (init h w names).1.col < w)
    (hist : List (String → Option Val)) (read : String → Option Val)
    (hroom : Room ff (init h w names).1 (hist ++ [read]))
    (i : Nat) (n : String) (hn : names[i]? = some n) (old : String → Option Val)
    (hist' : List (String → Option Val)) (hh : hist = hist' ++ [old]) (j : Nat)
    (hj : (shown ff read n).length ≤ j) (hj' : j < (shown ff old n).length) :
    ((init h w names).1.updates ff (hist ++ [read])).body.cell (1 + i) ((init h w names).1.col + j) =
      (shown ff old n)[j] := by
  have hmem := List.mem_of_getElem? hn
  have hjw : (init h w names).1.col + j + 1 < w := by
    obtain ⟨v, hv, hlt⟩ := hroom.reads old (by rw [hh]; simp) n hmem
    have e : (init h w names).1.body.w = w := by
      have hr := hroom.rows
      simp only [init]
      have key : ∀ (x : Nat) (l : List (Option (List Char))) (y : Nat) (W : Win), (draw x y l W).1.w = W.w := by
        intro x l
        induction l with
        | nil => intro y W; rfl
        | cons o l ih =>
          intro y W
          cases o with
          | none => rfl
          | some s =>
            have : (W.addstr y x s).1.w = W.w := by unfold Win.addstr; split <;> rfl
            simp only [draw]
            split
            · rw [ih, this]
            · exact this
      rw [key]
      rfl
    rw [e] at hlt
    have : (shown ff old n).length = (text ff v).length := by simp [shown, hv]
    omega
  rw [(C92_screen hw _ hroom i n hn).2 j hjw, hh]
  simp only [List.map_append, List.map_cons, List.map_nil, List.foldl_append, List.foldl_cons,
    List.foldl_nil]
  rw [List.getD_eq_getElem?_getD, List.getElem?_eq_none hj, List.getD_eq_getElem?_getD,
    List.getElem?_eq_getElem hj']
  rfl

/-- C92 fails for enumerated channels: their rows never show a value. -/
theorem C92_enum_fails {h w : Nat} {names : List String} (hw : (init h w names).1.col < w)
    (hist : List (String → Option Val)) (hroom : Room ff (init h w names).1 hist)
    (i : Nat) (n : String) (hn : names[i]? = some n)
    (he : ∀ read ∈ hist, ∃ s, read n = some (.str s)) (j : Nat) (hj : (init h w names).1.col + j + 1 < w) :
    ((init h w names).1.updates ff hist).body.cell (1 + i) ((init h w names).1.col + j) = ' ' := by
  rw [(C92_screen hw _ hroom i n hn).2 j hj]
  have : ∀ (l : List (String → Option Val)), (∀ read ∈ l, ∃ s, read n = some (.str s)) →
      (l.map fun read => shown ff read n).foldl (fun ch s => s.getD j ch) ' ' = ' ' := by
    intro l
    induction l with
    | nil => intro _; rfl
    | cons a l ih =>
      intro hl
      obtain ⟨s, hs⟩ := hl a (List.mem_cons_self ..)
      simp only [List.map_cons, List.foldl_cons, shown, hs, Option.map_some, Option.getD_some, text,
        List.getD_nil]
      exact ih (fun r hr => hl r (List.mem_cons_of_mem _ hr))
  exact this hist he

/-- C92 fails after a change of the window's size: the names are gone, whatever is drawn after. -/
theorem C92_resize_fails (t : Tui) (h w : Nat) (hist : List (String → Option Val))
    (hroom : Room ff (t.resize h w) hist) (hw : t.col < w) (i : Nat) (hi : i < t.names.length) (j : Nat)
    (hj : 1 + j < t.col) :
    ((t.resize h w).updates ff hist).body.cell (1 + i) (1 + j) = ' ' := by
  obtain ⟨-, -, g3, -⟩ := updates_spec hist _ hroom
  have hr : t.names.length + 2 ≤ h := hroom.rows
  rw [g3 _ _ (show 1 + j < w by omega) (show 1 + j < t.col from hj)]
  show (if 1 + i = 0 ∨ 1 + i + 1 = h ∨ 1 + j = 0 ∨ 1 + j + 1 = w then '#' else ' ') = ' '
  rw [if_neg (by omega)]

/-- C92 fails with more channels than rows: the interface cannot be started. -/
theorem C92_overflow_fails (h w : Nat) (names : List String) (hn : h ≤ names.length) (h0 : names ≠ []) :
    (init h w names).2 = false := by
  have key : ∀ (l : List (List Char)) (y : Nat) (W : Win), l ≠ [] → W.h ≤ y + (l.length - 1) →
      (draw 1 y (l.map some) W).2 = false := by
    intro l
    induction l with
    | nil => intro y W h; exact absurd rfl h
    | cons s l ih =>
      intro y W _ hy
      simp only [List.map_cons, draw]
      have hh : (W.addstr y 1 s).1.h = W.h := by unfold Win.addstr; split <;> rfl
      cases hr : (W.addstr y 1 s).2 with
      | false => rfl
      | true =>
        rw [if_pos rfl]
        cases l with
        | nil =>
          exfalso
          simp only [List.length_cons, List.length_nil] at hy
          unfold Win.addstr at hr
          rw [if_pos (by left; omega)] at hr
          cases hr
        | cons s' l =>
          apply ih _ _ (by simp)
          rw [hh]
          simp only [List.length_cons] at hy ⊢
          omega
  have hm : (names.map fun n => some n.toList) = (names.map String.toList).map some := by
    rw [List.map_map]; rfl
  simp only [init, hm]
  apply key
  · simpa using h0
  · have : names.length ≠ 0 := by simpa using h0
    simp only [Win.boxed, List.length_map]
    omega

/-- C92 fails for a text wider than its place: it goes on in the next row, over the border and the
name there. -/
theorem C92_wide_fails (W : Win) (y x : Nat) (s : List Char) (hy : y < W.h) (hx : x < W.w) (c : Nat)
    (hc : c < W.w) (hs : W.w - x + c < s.length) :
    (W.addstr y x s).1.cell (y + 1) c = s[W.w - x + c] := by
  unfold Win.addstr
  rw [if_neg (by omega)]
  show (if c < W.w ∧ y * W.w + x ≤ (y + 1) * W.w + c then
    s.getD ((y + 1) * W.w + c - (y * W.w + x)) (W.cell (y + 1) c) else W.cell (y + 1) c) = _
  have e : (y + 1) * W.w = y * W.w + W.w := by rw [Nat.add_mul]; omega
  rw [if_pos ⟨hc, by rw [e]; omega⟩]
  have e2 : (y + 1) * W.w + c - (y * W.w + x) = W.w - x + c := by rw [e]; omega
  rw [e2, List.getD_eq_getElem?_getD, List.getElem?_eq_getElem hs]
  rfl

/-! ### A concrete screen -/

/-- The characters of a row. -/
def Win.line (W : Win) (r : Nat) : String := String.ofList ((List.range W.w).map (W.cell r))

theorem C92_cases :
    let rd (v : Int) : String → Option Val := fun n => if n = "a" then some (.int v) else some (.bool true)
    let t := (init 4 16 ["a", "flag"]).1
    (init 4 16 ["a", "flag"]).2 = true ∧ t.col = 6
    ∧ (t.updates (fun _ => []) [rd 12]).body.line 1 = "#a    12       #"
    ∧ (t.updates (fun _ => []) [rd 12]).body.line 2 = "#flag 1        #"
    ∧ (t.updates (fun _ => []) [rd 12, rd 7654321, rd (-3)]).body.line 1 = "#a    -3   21  #"
    ∧ ((t.resize 4 16).updates (fun _ => []) [rd 12]).body.line 2 = "#     1        #"
    ∧ (init 2 16 ["a", "flag"]).2 = false := by
  decide +kernel

end Verif.Tui
