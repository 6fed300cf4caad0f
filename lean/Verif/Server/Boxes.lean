import Verif.Dict
/-!
C113: the boxes for plotting channels: `data/js/classes/TabInterface.js` 238–315, `WindowHashManager.js` 47–103,
`PlotModalManager.js`, `randomHexColor` of `init.js`, the colours of `PlotManager.js` and `PlotDrawer.js`, and the
elements of `net/server/app/env/tab/html.py` 33–47 and 128–168 and `env/widgets.py` 25–43.

The worker handles the messages of the page in the order they were sent; they are handled at once here. Every tab
has a plot. No name of a channel ends in `line-color`, so that the button found for a channel is its own. A colour
that the worker draws itself is `none`. The order of the listed channels is that of the dictionaries; an
ECMAScript object would list names that are numbers first. Names of properties every object has are left out.
-/
namespace Verif.Boxes

abbrev Str := List Char

def pPlot : Str := ['p', 'l', 'o', 't', '-']
def pColor : Str := ['l', 'i', 'n', 'e', '-', 'c', 'o', 'l', 'o', 'r']
def pLine : Str := '-' :: pColor

/-! ### Colours -/

structure Rgb where
  r : Nat
  g : Nat
  b : Nat
  deriving DecidableEq, Repr

/-- A hexadecimal digit, upper or lower case. -/
def hexVal (c : Char) : Option Nat :=
  if '0' ≤ c ∧ c ≤ '9' then some (c.toNat - 48)
  else if 'a' ≤ c ∧ c ≤ 'f' then some (c.toNat - 87)
  else if 'A' ≤ c ∧ c ≤ 'F' then some (c.toNat - 55)
  else none

/-- `parseInt(…, 16)` of two digits. -/
def byte (a b : Char) : Option Nat := do return 16 * (← hexVal a) + (← hexVal b)

/-- `hexToRgb`, PlotManager.js 9–17. -/
def hexToRgb (s : Str) : Option Rgb :=
  match (match s with | '#' :: s => s | s => s) with
  | [a, b, c, d, e, f] => do return ⟨← byte a b, ← byte c d, ← byte e f⟩
  | _ => none

/-- `randomHexColor`, init.js 45–47, of the number drawn. -/
def hexColor (n : Nat) : Str :=
  '#' :: (List.replicate (6 - (Nat.toDigits 16 n).length) '0' ++ Nat.toDigits 16 n)

/-! ### The worker -/

/-- The colours of a `PlotDrawer`, PlotDrawer.js 2–31. -/
structure Drawer where
  rgba : List (Str × Option Rgb)
  lines : List (Str × Option Rgb)

/-- `newLine`, PlotDrawer.js 147–169, with the colours the manager keeps for the tab. -/
def Drawer.newLine (colors : List (Str × Option Rgb)) (d : Drawer) (ch : Str) : Drawer :=
  let d := match dget d.rgba ch with
    | some _ => d
    | none => { d with rgba := dset d.rgba ch ((dget colors ch).getD none) }
  { d with lines := dset d.lines ch ((dget d.rgba ch).getD none) }

/-- `channelState`, 63–74. -/
def Drawer.state (colors : List (Str × Option Rgb)) (d : Drawer) (ch : Str) (on : Bool) : Drawer :=
  if on then d.newLine colors ch else { d with lines := dpop d.lines ch }

/-- `updateAllLines`, 181–187. -/
def Drawer.all (colors : List (Str × Option Rgb)) (d : Drawer) : Drawer :=
  d.lines.foldl (fun d l => d.newLine colors l.1) d

/-- `PlotManager`, PlotManager.js 19–33. -/
structure Worker where
  colors : Str → List (Str × Option Rgb)
  drawers : List (Str × Drawer)
  toPlot : Str → List Str

/-- `handlePlotChannelState`, PlotManager.js 35–44. -/
def Worker.state (w : Worker) (t ch : Str) (on : Bool) : Worker :=
  match dget w.drawers t with
  | some d => { w with drawers := dset w.drawers t (d.state (w.colors t) ch on) }
  | none =>
    if on then { w with toPlot := fun u => if u = t then w.toPlot t ++ [ch] else w.toPlot u } else w

/-- `setColor`, PlotManager.js 71–81, and PlotDrawer.js 141–145. Without a colour the drawer raises. -/
def Worker.setColor (w : Worker) (t ch text : Str) : Worker :=
  let c := hexToRgb text
  let colors := dset (w.colors t) ch c
  let w := { w with colors := fun u => if u = t then colors else w.colors u }
  match dget w.drawers t, c with
  | some d, some c => { w with drawers := dset w.drawers t (Drawer.all colors { d with rgba := dset d.rgba ch (some c) }) }
  | _, _ => w

/-- A tab is shown, PlotManager.js 108–147; at most four drawers. -/
def Worker.shown (w : Worker) (t : Str) : Worker :=
  match dget w.drawers t with
  | some _ => w
  | none =>
    if w.drawers.length < 4 then
      { w with
        drawers := dset w.drawers t ((w.toPlot t).foldl (fun d ch => d.state (w.colors t) ch true) ⟨[], []⟩)
        toPlot := fun u => if u = t then [] else w.toPlot u }
    else w

/-- A change of size or depth. -/
def Worker.redraw (w : Worker) (t : Str) : Worker :=
  match dget w.drawers t with
  | some d => { w with drawers := dset w.drawers t (d.all (w.colors t)) }
  | none => w

/-! ### The page -/

/-- The elements of a table that matter here. -/
inductive Elem where
  | row (n : Str)
  | box (n : Str)
  | button (n : Str)
  deriving DecidableEq, Repr

def Elem.id : Elem → Str
  | .row n => n
  | .box n => pPlot ++ n
  | .button n => n ++ pLine

/-- The elements of the table in their order, html.py 128–168. -/
def elems (names : List Str) : List Elem := names.flatMap fun n => [.row n, .box n, .button n]

/-- `querySelector` of an identifier: the first element that has it. -/
def query (names : List Str) (id : Str) : Option Elem := (elems names).find? (fun e => e.id = id)

/-- What the page keeps for a tab: its boxes, which buttons for colours are shown, their colours, and
`hash.plotChannels`. -/
structure Tab where
  checked : Str → Bool
  visible : Str → Bool
  color : Str → Option Str
  states : List (Str × Bool)

structure St where
  tab : Str → Tab
  /-- `byEnv` of the settings -/
  modal : List (Str × List (Str × Bool))
  worker : Worker
  /-- messages to the server -/
  served : List (Str × Str × Bool)
  /-- colours drawn -/
  used : Nat

def St.init : St := ⟨fun _ => ⟨fun _ => false, fun _ => false, fun _ => none, []⟩, [], ⟨fun _ => [], [], fun _ => []⟩, [], 0⟩

def St.onTab (s : St) (t : Str) (f : Tab → Tab) : St :=
  { s with tab := fun u => if u = t then f (s.tab t) else s.tab u }

/-- The handler of the button for the colour, TabInterface.js 257–263. -/
def St.paint (rnd : Nat → Nat) (s : St) (t n : Str) : St :=
  let c := hexColor (rnd s.used)
  let s := s.onTab t fun x => { x with color := fun m => if m = n then some c else x.color m }
  { s with used := s.used + 1, worker := s.worker.setColor t n c }

/-- `handleChannelToggle`, PlotModalManager.js 14–25. -/
def toggled (modal : List (Str × List (Str × Bool))) (t n : Str) (on : Bool) : List (Str × List (Str × Bool)) :=
  dset modal t (dset ((dget modal t).getD []) n on)

/-- `updateInner`, PlotModalManager.js 27–40. -/
def listed (modal : List (Str × List (Str × Bool))) : List (Str × Str) :=
  modal.flatMap fun e => (e.2.filter Prod.snd).map fun c => (e.1, c.1)

/-- A click on a box: the browser changes it, and the handler of 266–287 runs. -/
def St.clickBox (rnd : Nat → Nat) (s : St) (t n : Str) : St :=
  let on := !(s.tab t).checked n
  let s := s.onTab t fun x => { x with checked := fun m => if m = n then on else x.checked m }
  let s := { s with modal := toggled s.modal t n on }
  let s := s.onTab t fun x => { x with states := dset x.states n on }
  let s := { s with worker := s.worker.state t n on, served := s.served ++ [(t, n, on)] }
  let s := s.onTab t fun x => { x with visible := fun m => if m = n then on else x.visible m }
  if on then s.paint rnd t n else s

/-- `togglePlotChannel`, WindowHashManager.js 66–71: the element found may be another one. -/
def St.toggle (rnd : Nat → Nat) (names : Str → List Str) (s : St) (t n : Str) : St :=
  match query (names t) (pPlot ++ n) with
  | some (.box m) => s.clickBox rnd t m
  | some (.button m) => s.paint rnd t m
  | some (.row _) => s
  | none => s

/-- `clearPlotChannels`, WindowHashManager.js 94–103. -/
def St.clear (rnd : Nat → Nat) (names : Str → List Str) (s : St) (t : Str) : St :=
  ((s.tab t).states.map Prod.fst).foldl
    (fun s n => if dget (s.tab t).states n = some true then s.toggle rnd names t n else s) s

inductive Ev where
  | box (t n : Str)
  | button (t n : Str)
  | clear (t : Str)
  /-- a name of the hash the page was loaded with -/
  | restore (t n : Str)
  | shown (t : Str)
  | redraw (t : Str)

def St.step (rnd : Nat → Nat) (names : Str → List Str) (s : St) : Ev → St
  | .box t n => if n ∈ names t then s.clickBox rnd t n else s
  | .button t n => if n ∈ names t then s.paint rnd t n else s
  | .clear t => s.clear rnd names t
  | .restore t n => s.toggle rnd names t n
  | .shown t => { s with worker := s.worker.shown t }
  | .redraw t => { s with worker := s.worker.redraw t }

def St.run (rnd : Nat → Nat) (names : Str → List Str) (s : St) (es : List Ev) : St := es.foldl (St.step rnd names) s

variable {rnd : Nat → Nat} {names : Str → List Str}

/-! ### Colours as texts -/

theorem hexVal_digit (d : Nat) (h : d < 16) : hexVal (Nat.digitChar d) = some d := by
  have : ∀ d : Fin 16, hexVal (Nat.digitChar d.val) = some d.val := by decide
  exact this ⟨d, h⟩

theorem digits_step (n : Nat) (h : 16 ≤ n) : Nat.toDigits 16 n = Nat.toDigits 16 (n / 16) ++ [Nat.digitChar (n % 16)] :=
  Nat.toDigits_of_base_le (by omega) h

/-- `k` digits, zeros in front. -/
def padded (k n : Nat) : Str := List.replicate (k - (Nat.toDigits 16 n).length) '0' ++ Nat.toDigits 16 n

theorem padded_one (n : Nat) (h : n < 16) : padded 1 n = [Nat.digitChar n] := by
  simp [padded, Nat.toDigits_of_lt_base h]

theorem digits_len (k : Nat) : ∀ n, n < 16 ^ (k + 1) → (Nat.toDigits 16 n).length ≤ k + 1 := by
  induction k with
  | zero => intro n h; rw [Nat.toDigits_of_lt_base (by omega)]; simp
  | succ k ih =>
    intro n h
    by_cases h16 : n < 16
    · rw [Nat.toDigits_of_lt_base h16]; simp
    · rw [digits_step n (by omega), List.length_append]
      have := ih (n / 16) (by rw [Nat.pow_succ] at h; exact Nat.div_lt_of_lt_mul (by omega))
      simp only [List.length_singleton]
      omega

theorem padded_succ (k n : Nat) (h : n < 16 ^ (k + 2)) :
    padded (k + 2) n = padded (k + 1) (n / 16) ++ [Nat.digitChar (n % 16)] := by
  unfold padded
  by_cases h16 : n < 16
  · have e : n / 16 = 0 := by omega
    rw [e, Nat.toDigits_of_lt_base h16, Nat.toDigits_of_lt_base (by omega : 0 < 16), Nat.mod_eq_of_lt h16]
    simp only [List.length_singleton]
    show List.replicate (k + 1) '0' ++ _ = (List.replicate k '0' ++ ['0']) ++ _
    rw [List.replicate_succ']
  · rw [digits_step n (by omega), List.length_append]
    simp only [List.length_singleton]
    have := digits_len k (n / 16) (by rw [Nat.pow_succ] at h; exact Nat.div_lt_of_lt_mul (by omega))
    rw [show k + 2 - ((Nat.toDigits 16 (n / 16)).length + 1) = k + 1 - (Nat.toDigits 16 (n / 16)).length by omega,
      List.append_assoc]

theorem padded_six (n : Nat) (h : n < 2 ^ 24) :
    padded 6 n = [Nat.digitChar (n / 16 / 16 / 16 / 16 / 16), Nat.digitChar (n / 16 / 16 / 16 / 16 % 16),
      Nat.digitChar (n / 16 / 16 / 16 % 16), Nat.digitChar (n / 16 / 16 % 16), Nat.digitChar (n / 16 % 16),
      Nat.digitChar (n % 16)] := by
  rw [padded_succ 4 n (by omega), padded_succ 3 _ (by omega), padded_succ 2 _ (by omega), padded_succ 1 _ (by omega),
    padded_succ 0 _ (by omega), padded_one _ (by omega)]
  rfl

/-- C113: the text of a drawn colour is read as the colour it is: the three bytes of the number. -/
theorem C113_hex (n : Nat) (h : n < 2 ^ 24) :
    hexToRgb (hexColor n) = some ⟨n / 65536, n / 256 % 256, n % 256⟩ := by
  have e : hexColor n = '#' :: padded 6 n := rfl
  rw [e, padded_six n h]
  simp only [hexToRgb, byte]
  rw [hexVal_digit _ (by omega), hexVal_digit _ (by omega), hexVal_digit _ (by omega), hexVal_digit _ (by omega),
    hexVal_digit _ (by omega), hexVal_digit _ (by omega)]
  simp only [Option.bind_eq_bind, Option.bind_some, Option.pure_def, Option.some.injEq, Rgb.mk.injEq]
  omega

/-! ### The worker's colours -/

/-- Each line has the colour kept for its channel. -/
def Drawer.Even (d : Drawer) : Prop := ∀ ch v, dget d.lines ch = some v → dget d.rgba ch = some v

theorem newLine_rgba (colors : List (Str × Option Rgb)) (d : Drawer) (n ch : Str) :
    dget (d.newLine colors n).rgba ch =
      if n = ch ∧ dget d.rgba n = none then some ((dget colors n).getD none) else dget d.rgba ch := by
  unfold Drawer.newLine
  cases h : dget d.rgba n with
  | some v => simp
  | none =>
    simp only [dget_dset, and_true]

theorem newLine_lines (colors : List (Str × Option Rgb)) (d : Drawer) (n ch : Str) :
    dget (d.newLine colors n).lines ch = if n = ch then dget (d.newLine colors n).rgba ch else dget d.lines ch := by
  unfold Drawer.newLine
  cases h : dget d.rgba n with
  | some v =>
    simp only [dget_dset]
    split
    · rename_i e; subst e; simp [h]
    · rfl
  | none =>
    simp only [dget_dset, if_true, Option.getD_some]
    split <;> rfl

/-- All lines drawn again: those of the list have their colours, and no colour changed that there was. -/
theorem redrawn (colors : List (Str × Option Rgb)) (l : List (Str × Option Rgb)) : ∀ d : Drawer,
    (∀ ch v, dget d.rgba ch = some v → dget (l.foldl (fun d x => d.newLine colors x.1) d).rgba ch = some v) ∧
    (∀ ch, dget d.rgba ch = none → dget (l.foldl (fun d x => d.newLine colors x.1) d).rgba ch ≠ none →
      ch ∈ l.map Prod.fst) ∧
    (∀ ch, ch ∈ l.map Prod.fst → dget (l.foldl (fun d x => d.newLine colors x.1) d).lines ch =
      dget (l.foldl (fun d x => d.newLine colors x.1) d).rgba ch) ∧
    (∀ ch, ch ∉ l.map Prod.fst → dget (l.foldl (fun d x => d.newLine colors x.1) d).lines ch = dget d.lines ch) := by
  induction l with
  | nil =>
    intro d
    exact ⟨fun _ _ h => h, fun _ h1 h2 => absurd h1 h2, fun _ h => absurd h (by simp), fun _ _ => rfl⟩
  | cons x l ih =>
    intro d
    obtain ⟨h1, h2, h3, h4⟩ := ih (d.newLine colors x.1)
    rw [List.foldl_cons]
    refine ⟨fun ch v hv => h1 ch v ?_, ?_, ?_, ?_⟩
    · rw [newLine_rgba]
      split
      · rename_i e; rw [← e.1, e.2] at hv; cases hv
      · exact hv
    · intro ch hn hne
      by_cases e : x.1 = ch
      · exact e ▸ List.mem_cons_self
      · refine List.mem_cons_of_mem _ (h2 ch ?_ hne)
        rw [newLine_rgba, if_neg (fun h => e h.1), hn]
    · intro ch hc
      by_cases hl : ch ∈ l.map Prod.fst
      · exact h3 ch hl
      · have e : x.1 = ch := by
          rcases List.mem_cons.mp hc with e | e
          · exact e.symm
          · exact absurd e hl
        rw [h4 ch hl, newLine_lines, if_pos e]
        cases hv : dget (d.newLine colors x.1).rgba ch with
        | some v => exact (h1 ch v hv).symm
        | none =>
          exfalso
          rw [newLine_rgba] at hv
          split at hv
          · cases hv
          · rename_i hh
            apply hh
            exact ⟨e, by rw [e]; exact hv⟩
    · intro ch hc
      rw [List.map_cons, List.mem_cons, not_or] at hc
      rw [h4 ch hc.2, newLine_lines, if_neg (fun e => hc.1 e.symm)]

theorem get_none {β : Type} (d : List (Str × β)) (k : Str) : dget d k = none ↔ k ∉ d.map Prod.fst := by
  rw [dget_none_iff, List.any_eq_false]
  simp only [List.mem_map, beq_iff_eq]
  constructor
  · rintro h ⟨x, hx, e⟩; exact h x hx e
  · intro h x hx e; exact h ⟨x, hx, e⟩

theorem all_spec (colors : List (Str × Option Rgb)) (d : Drawer) :
    (∀ ch v, dget d.rgba ch = some v → dget (d.all colors).rgba ch = some v) ∧
    (∀ ch, dget d.rgba ch = none → dget (d.all colors).rgba ch ≠ none → (dget d.lines ch).isSome) ∧
    (d.all colors).Even := by
  obtain ⟨h1, h2, h3, h4⟩ := redrawn colors d.lines d
  refine ⟨h1, fun ch a b => ?_, fun ch v hv => ?_⟩
  · cases hl : dget d.lines ch with
    | some x => rfl
    | none => exact absurd (h2 ch a b) ((get_none _ _).mp hl)
  by_cases hc : ch ∈ d.lines.map Prod.fst
  · have := h3 ch hc
    unfold Drawer.all at hv ⊢
    rw [← this]; exact hv
  · have := h4 ch hc
    unfold Drawer.all at hv
    rw [hv] at this
    rw [(get_none _ _).mpr hc] at this
    cases this

/-- The worker's colours are those of the page, but perhaps for one channel. -/
structure WOk (col : Str → Str → Option (Option Rgb)) (X : Option (Str × Str)) (w : Worker) : Prop where
  colors : ∀ t ch, dget (w.colors t) ch = col t ch
  even : ∀ t d, dget w.drawers t = some d → d.Even
  rgba : ∀ t d ch v, dget w.drawers t = some d → some (t, ch) ≠ X → dget d.rgba ch = some v → col t ch = some v
  wait : ∀ t ch, some (t, ch) ≠ X → ch ∈ w.toPlot t → (col t ch).isSome

theorem Even.newLine {d : Drawer} (h : d.Even) (colors : List (Str × Option Rgb)) (n : Str) : (d.newLine colors n).Even := by
  intro ch v hv
  rw [newLine_lines] at hv
  split at hv
  · exact hv
  · rw [newLine_rgba, if_neg (fun e => by rename_i hh; exact hh e.1)]
    exact h ch v hv

theorem Even.state {d : Drawer} (h : d.Even) (colors : List (Str × Option Rgb)) (n : Str) (on : Bool) :
    (d.state colors n on).Even := by
  unfold Drawer.state
  split
  · exact Even.newLine h colors n
  · intro ch v hv
    dsimp only at hv ⊢
    rw [dget_dpop] at hv
    split at hv
    · cases hv
    · exact h ch v hv

theorem WOk.state {col : Str → Str → Option (Option Rgb)} {w : Worker} (h : WOk col none w) (t n : Str) (on : Bool) :
    WOk col (if on then some (t, n) else none) (w.state t n on) := by
  unfold Worker.state
  cases hd : dget w.drawers t with
  | some d =>
    dsimp only
    refine ⟨h.colors, ?_, ?_, fun u ch _ hw => h.wait u ch (by simp) hw⟩
    · intro u d' hu
      rw [dget_dset] at hu
      split at hu
      · rename_i e; subst e
        cases hu
        exact Even.state (h.even _ d hd) _ _ _
      · exact h.even u d' hu
    · intro u d' ch v hu hx hv
      rw [dget_dset] at hu
      split at hu
      · rename_i e; subst e
        cases hu
        refine h.rgba t d ch v hd (by simp) ?_
        unfold Drawer.state at hv
        cases on with
        | false => exact hv
        | true =>
          rw [if_pos rfl, newLine_rgba] at hv
          rw [if_neg] at hv
          · exact hv
          · intro e
            exact hx (by rw [e.1]; rfl)
      · exact h.rgba u d' ch v hu (by simp) hv
  | none =>
    dsimp only
    cases on with
    | false => exact h
    | true =>
      refine ⟨h.colors, h.even, fun u d' ch v hu _ hv => h.rgba u d' ch v hu (by simp) hv, ?_⟩
      intro u ch hx hw
      simp only [if_true] at hx hw
      split at hw
      · rename_i e; subst e
        rcases List.mem_append.mp hw with hw | hw
        · exact h.wait u ch (by simp) hw
        · rw [List.mem_singleton.mp hw] at hx
          exact absurd rfl hx
      · exact h.wait u ch (by simp) hw

theorem WOk.setColor {col : Str → Str → Option (Option Rgb)} {w : Worker} {X : Option (Str × Str)} (h : WOk col X w)
    (t n text : Str) (c : Rgb) (hc : hexToRgb text = some c) (hX : X = none ∨ X = some (t, n)) :
    WOk (fun u ch => if u = t ∧ ch = n then some (some c) else col u ch) none (w.setColor t n text) := by
  have hne : ∀ u ch, ¬ (u = t ∧ ch = n) → some (u, ch) ≠ X := by
    intro u ch hh e
    rcases hX with rfl | rfl
    · cases e
    · injection e with e; injection e with e1 e2; exact hh ⟨e1, e2⟩
  have hcol : ∀ u ch, dget (if u = t then dset (w.colors t) n (some c) else w.colors u) ch =
      if u = t ∧ ch = n then some (some c) else col u ch := by
    intro u ch
    by_cases e : u = t
    · subst e
      rw [if_pos rfl, dget_dset, h.colors]
      by_cases e2 : n = ch
      · subst e2; simp
      · rw [if_neg e2, if_neg (fun hh => e2 hh.2.symm)]
    · rw [if_neg e, if_neg (fun hh => e hh.1), h.colors]
  have hwait : ∀ u ch, ch ∈ w.toPlot u → (if u = t ∧ ch = n then some (some c) else col u ch).isSome := by
    intro u ch hw
    split
    · rfl
    · rename_i hh
      exact h.wait u ch (hne u ch hh) hw
  unfold Worker.setColor
  simp only [hc]
  cases hd : dget w.drawers t with
  | none =>
    refine ⟨hcol, h.even, ?_, fun u ch _ => hwait u ch⟩
    intro u d ch v hu _ hv
    by_cases e : u = t
    · subst e; rw [hd] at hu; cases hu
    · rw [if_neg (fun hh => e hh.1)]
      exact h.rgba u d ch v hu (hne u ch (fun hh => e hh.1)) hv
  | some d =>
    obtain ⟨a1, a2, a3⟩ := all_spec (dset (w.colors t) n (some c)) { d with rgba := dset d.rgba n (some c) }
    refine ⟨hcol, ?_, ?_, fun u ch _ => hwait u ch⟩
    · intro u d' hu
      rw [dget_dset] at hu
      split at hu
      · cases hu; exact a3
      · exact h.even u d' hu
    · intro u d' ch v hu _ hv
      rw [dget_dset] at hu
      split at hu
      · rename_i e; subst e
        cases hu
        by_cases e2 : ch = n
        · subst e2
          rw [if_pos ⟨rfl, rfl⟩]
          rw [a1 ch (some c) (dget_dset_self _ _ _)] at hv
          exact hv
        · rw [if_neg (fun hh => e2 hh.2)]
          have hn : some (t, ch) ≠ X := hne t ch (fun hh => e2 hh.2)
          have hold : dget (dset d.rgba n (some c)) ch = dget d.rgba ch := dget_dset_ne _ _ _ _ (fun e => e2 e.symm)
          cases hr : dget d.rgba ch with
          | some x =>
            rw [a1 ch x (by dsimp only; rw [hold, hr])] at hv
            cases hv
            exact h.rgba t d ch v hd hn hr
          | none =>
            exfalso
            have hl := a2 ch (by dsimp only; rw [hold, hr]) (by rw [hv]; simp)
            dsimp only at hl
            obtain ⟨y, hy⟩ := Option.isSome_iff_exists.mp hl
            rw [h.even t d hd ch y hy] at hr
            cases hr
      · rename_i e
        rw [if_neg (fun hh => e hh.1.symm)]
        exact h.rgba u d' ch v hu (hne u ch (fun hh => e hh.1.symm)) hv

theorem WOk.redraw {col : Str → Str → Option (Option Rgb)} {w : Worker} (h : WOk col none w) (t : Str) :
    WOk col none (w.redraw t) := by
  unfold Worker.redraw
  cases hd : dget w.drawers t with
  | none => exact h
  | some d =>
    obtain ⟨a1, a2, a3⟩ := all_spec (w.colors t) d
    refine ⟨h.colors, ?_, ?_, h.wait⟩
    · intro u d' hu
      rw [dget_dset] at hu
      split at hu
      · cases hu; exact a3
      · exact h.even u d' hu
    · intro u d' ch v hu hx hv
      rw [dget_dset] at hu
      split at hu
      · rename_i e; subst e
        cases hu
        cases hr : dget d.rgba ch with
        | some x =>
          rw [a1 ch x hr] at hv
          cases hv
          exact h.rgba t d ch v hd (by simp) hr
        | none =>
          exfalso
          obtain ⟨y, hy⟩ := Option.isSome_iff_exists.mp (a2 ch hr (by rw [hv]; simp))
          rw [h.even t d hd ch y hy] at hr
          cases hr
      · exact h.rgba u d' ch v hu (by simp) hv

theorem WOk.shown {col : Str → Str → Option (Option Rgb)} {w : Worker} (h : WOk col none w) (t : Str) :
    WOk col none (w.shown t) := by
  unfold Worker.shown
  cases hd : dget w.drawers t with
  | some d => exact h
  | none =>
    dsimp only
    split
    · have key : ∀ (l : List Str) (d : Drawer), (∀ ch ∈ l, (col t ch).isSome) → d.Even →
          (∀ ch v, dget d.rgba ch = some v → col t ch = some v) →
          (l.foldl (fun d ch => d.state (w.colors t) ch true) d).Even ∧
          (∀ ch v, dget (l.foldl (fun d ch => d.state (w.colors t) ch true) d).rgba ch = some v → col t ch = some v) := by
        intro l
        induction l with
        | nil => intro d _ h1 h2; exact ⟨h1, h2⟩
        | cons n l ih =>
          intro d hl h1 h2
          rw [List.foldl_cons]
          refine ih _ (fun ch hc => hl ch (List.mem_cons_of_mem _ hc)) (Even.state h1 _ _ _) ?_
          intro ch v hv
          unfold Drawer.state at hv
          rw [if_pos rfl, newLine_rgba] at hv
          split at hv
          · rename_i e
            obtain ⟨e, -⟩ := e
            subst e
            obtain ⟨y, hy⟩ := Option.isSome_iff_exists.mp (hl n List.mem_cons_self)
            rw [h.colors, hy] at hv
            rw [hy]
            exact hv
          · exact h2 ch v hv
      obtain ⟨k1, k2⟩ := key (w.toPlot t) ⟨[], []⟩ (fun ch hc => h.wait t ch (by simp) hc)
        (fun ch v hv => by cases hv) (fun ch v hv => by cases hv)
      refine ⟨h.colors, ?_, ?_, ?_⟩
      · intro u d' hu
        rw [dget_dset] at hu
        split at hu
        · cases hu; exact k1
        · exact h.even u d' hu
      · intro u d' ch v hu _ hv
        rw [dget_dset] at hu
        split at hu
        · rename_i e; subst e
          cases hu
          exact k2 ch v hv
        · exact h.rgba u d' ch v hu (by simp) hv
      · intro u ch _ hw
        dsimp only at hw
        split at hw
        · cases hw
        · exact h.wait u ch (by simp) hw
    · exact h

/-! ### The page -/

/-- The last thing the server heard about a channel. -/
def told (served : List (Str × Str × Bool)) (t n : Str) : Bool :=
  (((served.filter fun x => x.1 = t ∧ x.2.1 = n).getLast?).map fun x => x.2.2).getD false

theorem told_snoc (l : List (Str × Str × Bool)) (t n u m : Str) (b : Bool) :
    told (l ++ [(u, m, b)]) t n = if u = t ∧ m = n then b else told l t n := by
  unfold told
  rw [List.filter_append]
  by_cases h : u = t ∧ m = n
  · rw [if_pos h]; simp [h]
  · rw [if_neg h]; simp [h]

/-- The colour of a button, as a colour. -/
def St.col (s : St) (t n : Str) : Option (Option Rgb) := ((s.tab t).color n).map hexToRgb

structure Inv (s : St) : Prop where
  envs : (s.modal.map Prod.fst).Nodup
  chans : ∀ e ∈ s.modal, (e.2.map Prod.fst).Nodup
  modal : ∀ t n, dget ((dget s.modal t).getD []) n = some true ↔ (s.tab t).checked n = true
  states : ∀ t n, dget (s.tab t).states n = some true ↔ (s.tab t).checked n = true
  served : ∀ t n, told s.served t n = (s.tab t).checked n
  visible : ∀ t n, (s.tab t).visible n = (s.tab t).checked n
  texts : ∀ t n text, (s.tab t).color n = some text → (hexToRgb text).isSome
  worker : WOk s.col none s.worker

theorem dset_keys_nodup {β : Type} (d : List (Str × β)) (k : Str) (v : β) (h : (d.map Prod.fst).Nodup) :
    ((dset d k v).map Prod.fst).Nodup := by
  rw [dset_keys]
  split
  · exact h
  · rename_i hk
    rw [List.nodup_append]
    refine ⟨h, by simp, ?_⟩
    intro a ha b hb e
    rw [List.mem_singleton] at hb
    subst hb; subst e
    exact hk (by simpa using ha)

theorem inv_init : Inv St.init := by
  refine ⟨List.nodup_nil, fun e he => (by cases he), ?_, ?_, fun t n => rfl, fun t n => rfl,
    fun t n x h => (by cases h), ?_⟩
  · intro t n
    simp [St.init, dget_nil]
  · intro t n
    simp [St.init, dget_nil]
  · exact ⟨fun t ch => rfl, fun t d h => (by cases h), fun t d ch v h => (by cases h), fun t ch _ h => (by cases h)⟩

/-- What a colour drawn does to the page. -/
theorem paint_tab (s : St) (t n u : Str) : (s.paint rnd t n).tab u =
    { s.tab u with color := fun m => if u = t ∧ m = n then some (hexColor (rnd s.used)) else (s.tab u).color m } := by
  unfold St.paint St.onTab
  dsimp only
  by_cases e : u = t
  · subst e; simp
  · simp [e]

theorem paint_inv (hr : ∀ k, rnd k < 2 ^ 24) {s : St} {X : Option (Str × Str)} (t n : Str) (hX : X = none ∨ X = some (t, n))
    (h : WOk s.col X s.worker) : WOk (s.paint rnd t n).col none (s.paint rnd t n).worker := by
  have hc := C113_hex (rnd s.used) (hr _)
  have := h.setColor t n (hexColor (rnd s.used)) _ hc hX
  have e : (s.paint rnd t n).col = fun u ch => if u = t ∧ ch = n then
      some (some ⟨rnd s.used / 65536, rnd s.used / 256 % 256, rnd s.used % 256⟩) else s.col u ch := by
    funext u ch
    unfold St.col
    rw [paint_tab]
    dsimp only
    split
    · rw [Option.map_some, hc]
    · rfl
  rw [e]
  exact this

theorem paint_texts (hr : ∀ k, rnd k < 2 ^ 24) {s : St}
    (h : ∀ t n text, (s.tab t).color n = some text → (hexToRgb text).isSome) (t n u m text : Str)
    (ht : ((s.paint rnd t n).tab u).color m = some text) : (hexToRgb text).isSome := by
  rw [paint_tab] at ht
  dsimp only at ht
  split at ht
  · cases ht; rw [C113_hex _ (hr _)]; rfl
  · exact h u m text ht

theorem Inv.paint (hr : ∀ k, rnd k < 2 ^ 24) {s : St} (h : Inv s) (t n : Str) : Inv (s.paint rnd t n) := by
  refine ⟨h.envs, h.chans, ?_, ?_, ?_, ?_, paint_texts hr h.texts t n, paint_inv hr t n (.inl rfl) h.worker⟩
  · intro u m; rw [paint_tab]; exact h.modal u m
  · intro u m; rw [paint_tab]; exact h.states u m
  · intro u m; rw [paint_tab]; exact h.served u m
  · intro u m; rw [paint_tab]; exact h.visible u m

/-- The state when the handler of a box has done all but the colour. -/
def St.changed (s : St) (t n : Str) (on : Bool) : St :=
  { s with
    tab := fun u => if u = t then
        { checked := fun m => if m = n then on else (s.tab t).checked m
          visible := fun m => if m = n then on else (s.tab t).visible m
          color := (s.tab t).color
          states := dset (s.tab t).states n on }
      else s.tab u
    modal := toggled s.modal t n on
    worker := s.worker.state t n on
    served := s.served ++ [(t, n, on)] }

theorem clickBox_eq (s : St) (t n : Str) : s.clickBox rnd t n =
    if !(s.tab t).checked n then (s.changed t n (!(s.tab t).checked n)).paint rnd t n
    else s.changed t n (!(s.tab t).checked n) := by
  have e : ∀ on : Bool, St.onTab { (({ (s.onTab t fun x => { x with checked := fun m => if m = n then on else x.checked m }) with
      modal := toggled s.modal t n on } : St).onTab t fun x => { x with states := dset x.states n on }) with
      worker := s.worker.state t n on, served := s.served ++ [(t, n, on)] } t
      (fun x => { x with visible := fun m => if m = n then on else x.visible m }) = s.changed t n on := by
    intro on
    unfold St.changed St.onTab
    congr 1
    funext u
    by_cases h : u = t
    · subst h; simp
    · simp [h]
  unfold St.clickBox
  dsimp only
  split
  · exact congrArg (fun x => St.paint rnd x t n) (e _)
  · exact e _

theorem changed_checked (s : St) (t n : Str) (on : Bool) (u m : Str) : ((s.changed t n on).tab u).checked m =
    if t = u ∧ n = m then on else (s.tab u).checked m := by
  unfold St.changed
  dsimp only
  by_cases e : u = t
  · subst e
    rw [if_pos rfl]
    by_cases e2 : m = n
    · subst e2; simp
    · simp [e2, Ne.symm e2]
  · simp [e, Ne.symm e]

theorem toggled_get (modal : List (Str × List (Str × Bool))) (t n : Str) (on : Bool) (u m : Str) :
    dget ((dget (toggled modal t n on) u).getD []) m =
      if t = u ∧ n = m then some on else dget ((dget modal u).getD []) m := by
  unfold toggled
  rw [dget_dset]
  by_cases e : t = u
  · subst e
    rw [if_pos rfl, Option.getD_some, dget_dset]
    simp
  · simp [e]

/-- All but the colours. -/
theorem changed_page {s : St} (h : Inv s) (t n : Str) (on : Bool) :
    ((s.changed t n on).modal.map Prod.fst).Nodup ∧ (∀ e ∈ (s.changed t n on).modal, (e.2.map Prod.fst).Nodup) ∧
    (∀ u m, dget ((dget (s.changed t n on).modal u).getD []) m = some true ↔ ((s.changed t n on).tab u).checked m = true) ∧
    (∀ u m, dget ((s.changed t n on).tab u).states m = some true ↔ ((s.changed t n on).tab u).checked m = true) ∧
    (∀ u m, told (s.changed t n on).served u m = ((s.changed t n on).tab u).checked m) ∧
    (∀ u m, ((s.changed t n on).tab u).visible m = ((s.changed t n on).tab u).checked m) := by
  refine ⟨dset_keys_nodup _ _ _ h.envs, ?_, ?_, ?_, ?_, ?_⟩
  · intro e he
    rcases mem_dset he with e1 | e1
    · exact h.chans e e1
    · rw [e1]
      apply dset_keys_nodup
      cases hd : dget s.modal t with
      | none => exact List.nodup_nil
      | some x => exact h.chans _ (dget_mem hd)
  · intro u m
    rw [changed_checked]
    show dget ((dget (toggled s.modal t n on) u).getD []) m = some true ↔ _
    rw [toggled_get]
    split
    · simp
    · exact h.modal u m
  · intro u m
    rw [changed_checked]
    have : dget ((s.changed t n on).tab u).states m = if t = u ∧ n = m then some on else dget (s.tab u).states m := by
      unfold St.changed
      dsimp only
      by_cases e : u = t
      · subst e; rw [if_pos rfl]; dsimp only; rw [dget_dset]; simp
      · simp [e, Ne.symm e]
    rw [this]
    split
    · simp
    · exact h.states u m
  · intro u m
    rw [changed_checked]
    show told (s.served ++ [(t, n, on)]) u m = _
    rw [told_snoc]
    split
    · rfl
    · exact h.served u m
  · intro u m
    rw [changed_checked]
    unfold St.changed
    dsimp only
    by_cases e : u = t
    · subst e
      rw [if_pos rfl]
      dsimp only
      by_cases e2 : m = n
      · subst e2; simp
      · simp [e2, Ne.symm e2, h.visible]
    · simp [e, Ne.symm e, h.visible]

theorem changed_col (s : St) (t n : Str) (on : Bool) : (s.changed t n on).col = s.col := by
  funext u m
  unfold St.col St.changed
  dsimp only
  by_cases e : u = t
  · subst e; simp
  · simp [e]

theorem Inv.clickBox (hr : ∀ k, rnd k < 2 ^ 24) {s : St} (h : Inv s) (t n : Str) : Inv (s.clickBox rnd t n) := by
  rw [clickBox_eq]
  obtain ⟨h1, h2, h3, h4, h5, h6⟩ := changed_page h t n (!(s.tab t).checked n)
  have hw := h.worker.state t n (!(s.tab t).checked n)
  rw [← changed_col s t n (!(s.tab t).checked n)] at hw
  have ht : ∀ u m text, ((s.changed t n (!(s.tab t).checked n)).tab u).color m = some text → (hexToRgb text).isSome := by
    intro u m text hu
    refine h.texts u m text ?_
    unfold St.changed at hu
    dsimp only at hu
    split at hu
    · rename_i e; subst e; exact hu
    · exact hu
  split
  · rename_i hon
    rw [if_pos hon] at hw
    refine ⟨h1, h2, ?_, ?_, ?_, ?_, paint_texts hr ht t n, paint_inv hr t n (.inr rfl) hw⟩
    · intro u m; rw [paint_tab]; exact h3 u m
    · intro u m; rw [paint_tab]; exact h4 u m
    · intro u m; rw [paint_tab]; exact h5 u m
    · intro u m; rw [paint_tab]; exact h6 u m
  · rename_i hon
    rw [if_neg hon] at hw
    exact ⟨h1, h2, h3, h4, h5, h6, ht, hw⟩

theorem Inv.toggle (hr : ∀ k, rnd k < 2 ^ 24) {s : St} (h : Inv s) (t n : Str) : Inv (s.toggle rnd names t n) := by
  unfold St.toggle
  split
  · exact h.clickBox hr t _
  · exact h.paint hr t _
  · exact h
  · exact h

theorem Inv.step (hr : ∀ k, rnd k < 2 ^ 24) {s : St} (h : Inv s) (e : Ev) : Inv (s.step rnd names e) := by
  cases e with
  | box t n => unfold St.step; dsimp only; split; exact h.clickBox hr t n; exact h
  | button t n => unfold St.step; dsimp only; split; exact h.paint hr t n; exact h
  | restore t n => exact h.toggle hr t n
  | shown t => exact ⟨h.envs, h.chans, h.modal, h.states, h.served, h.visible, h.texts, h.worker.shown t⟩
  | redraw t => exact ⟨h.envs, h.chans, h.modal, h.states, h.served, h.visible, h.texts, h.worker.redraw t⟩
  | clear t =>
    show Inv (s.clear rnd names t)
    unfold St.clear
    generalize (s.tab t).states.map Prod.fst = l
    induction l generalizing s with
    | nil => exact h
    | cons n l ih =>
      rw [List.foldl_cons]
      apply ih
      split
      · exact h.toggle hr t n
      · exact h

theorem run_cons (s : St) (e : Ev) (es : List Ev) : s.run rnd names (e :: es) = (s.step rnd names e).run rnd names es := rfl

theorem Inv.run (hr : ∀ k, rnd k < 2 ^ 24) (es : List Ev) : ∀ s : St, Inv s → Inv (s.run rnd names es) := by
  induction es with
  | nil => intro s h; exact h
  | cons e es ih => intro s h; rw [run_cons]; exact ih _ (h.step hr e)

/-- C113: after every history, each line of each plot has the colour its button has on the page. -/
theorem C113_line (hr : ∀ k, rnd k < 2 ^ 24) (es : List Ev) (t ch : Str) (d : Drawer) (v : Option Rgb)
    (hd : dget (St.init.run rnd names es).worker.drawers t = some d) (hv : dget d.lines ch = some v) :
    ∃ text c, ((St.init.run rnd names es).tab t).color ch = some text ∧ hexToRgb text = some c ∧ v = some c := by
  have hi := Inv.run (names := names) hr es _ inv_init
  have h := hi.worker
  have h1 := h.rgba t d ch v hd (by simp) (h.even t d hd ch v hv)
  unfold St.col at h1
  cases hc : ((St.init.run rnd names es).tab t).color ch with
  | none => rw [hc] at h1; cases h1
  | some text =>
    rw [hc] at h1
    obtain ⟨c, hx⟩ := Option.isSome_iff_exists.mp (hi.texts t ch text hc)
    rw [Option.map_some, hx] at h1
    exact ⟨text, c, rfl, hx, (Option.some.inj h1).symm⟩

theorem nodup_pairs (t : Str) (l : List Str) (h : l.Nodup) : (l.map fun c => (t, c)).Nodup := by
  induction l with
  | nil => exact List.nodup_nil
  | cons x l ih =>
    rw [List.nodup_cons] at h
    rw [List.map_cons, List.nodup_cons]
    refine ⟨fun hm => ?_, ih h.2⟩
    obtain ⟨y, hy, e⟩ := List.mem_map.mp hm
    exact h.1 ((Prod.mk.inj e).2 ▸ hy)

theorem mem_get {β : Type} {l : List (Str × β)} {k : Str} {v : β} (hn : (l.map Prod.fst).Nodup) (h : (k, v) ∈ l) :
    dget l k = some v := by
  induction l with
  | nil => cases h
  | cons x l ih =>
    rw [List.map_cons, List.nodup_cons] at hn
    rw [dget_cons]
    rcases List.mem_cons.mp h with e | e
    · subst e; simp
    · have : x.1 ≠ k := fun e' => hn.1 (e' ▸ List.mem_map.mpr ⟨(k, v), e, rfl⟩)
      simp [this, ih hn.2 e]

/-- C113: the settings list exactly the channels whose boxes are checked, each once. -/
theorem C113_listed (hr : ∀ k, rnd k < 2 ^ 24) (es : List Ev) :
    (listed (St.init.run rnd names es).modal).Nodup ∧
    ∀ t n, (t, n) ∈ listed (St.init.run rnd names es).modal ↔ ((St.init.run rnd names es).tab t).checked n = true := by
  have h := Inv.run (names := names) hr es _ inv_init
  generalize St.init.run rnd names es = s at h
  constructor
  · have key : ∀ l : List (Str × List (Str × Bool)), (l.map Prod.fst).Nodup → (∀ e ∈ l, (e.2.map Prod.fst).Nodup) →
        (listed l).Nodup := by
      intro l
      induction l with
      | nil => intro _ _; exact List.nodup_nil
      | cons e l ih =>
        intro h1 h2
        rw [List.map_cons, List.nodup_cons] at h1
        show ((e.2.filter Prod.snd).map (fun c => (e.1, c.1)) ++ listed l).Nodup
        rw [List.nodup_append]
        refine ⟨?_, ih h1.2 (fun x hx => h2 x (List.mem_cons_of_mem _ hx)), ?_⟩
        · have := h2 e List.mem_cons_self
          have hs : ((e.2.filter Prod.snd).map Prod.fst).Nodup :=
            List.Nodup.sublist (List.Sublist.map _ (List.filter_sublist)) this
          have hm : ((e.2.filter Prod.snd).map (fun c => (e.1, c.1))) = ((e.2.filter Prod.snd).map Prod.fst).map (fun c => (e.1, c)) := by
            rw [List.map_map]; rfl
          rw [hm]
          exact nodup_pairs e.1 _ hs
        · intro a ha b hb e1
          subst e1
          obtain ⟨c, _, rfl⟩ := List.mem_map.mp ha
          obtain ⟨e', he', hb⟩ := List.mem_flatMap.mp hb
          obtain ⟨c', _, hc'⟩ := List.mem_map.mp hb
          apply h1.1
          rw [List.mem_map]
          exact ⟨e', he', (Prod.mk.inj hc').1⟩
    exact key s.modal h.envs h.chans
  · intro t n
    rw [← h.modal t n]
    constructor
    · intro hm
      obtain ⟨e, he, hm⟩ := List.mem_flatMap.mp hm
      obtain ⟨c, hc, hx⟩ := List.mem_map.mp hm
      obtain ⟨hc1, hc2⟩ := List.mem_filter.mp hc
      obtain ⟨e1, e2⟩ := Prod.mk.inj hx
      subst e1 e2
      rw [mem_get h.envs (show (e.1, e.2) ∈ s.modal from he), Option.getD_some,
        mem_get (h.chans e he) (show (c.1, c.2) ∈ e.2 from hc1), hc2]
    · intro hm
      cases hd : dget s.modal t with
      | none => rw [hd] at hm; cases hm
      | some x =>
        rw [hd, Option.getD_some] at hm
        refine List.mem_flatMap.mpr ⟨(t, x), dget_mem hd, List.mem_map.mpr ⟨(n, true), ?_, rfl⟩⟩
        exact List.mem_filter.mpr ⟨dget_mem hm, rfl⟩

/-- The tabs that have a drawer. -/
def Worker.keys (w : Worker) : List Str := w.drawers.map Prod.fst

theorem keys_dset (w : Worker) (t : Str) (d d' : Drawer) (h : dget w.drawers t = some d) :
    (dset w.drawers t d').map Prod.fst = w.keys := by
  rw [dset_keys, if_pos]
  · rfl
  · rw [dget_isSome, h]; rfl

theorem state_keys (w : Worker) (t n : Str) (on : Bool) : (w.state t n on).keys = w.keys := by
  unfold Worker.state
  cases hd : dget w.drawers t with
  | some d => exact keys_dset w t d _ hd
  | none => dsimp only; split <;> rfl

theorem setColor_keys (w : Worker) (t n x : Str) : (w.setColor t n x).keys = w.keys := by
  unfold Worker.setColor
  dsimp only
  split
  · rename_i d c hd _; exact keys_dset w t d _ hd
  · rfl

theorem redraw_keys (w : Worker) (t : Str) : (w.redraw t).keys = w.keys := by
  unfold Worker.redraw
  cases hd : dget w.drawers t with
  | some d => exact keys_dset w t d _ hd
  | none => rfl

theorem paint_keys (s : St) (t n : Str) : (s.paint rnd t n).worker.keys = s.worker.keys := setColor_keys _ _ _ _

theorem clickBox_keys (s : St) (t n : Str) : (s.clickBox rnd t n).worker.keys = s.worker.keys := by
  unfold St.clickBox
  dsimp only
  split
  · rw [paint_keys]; exact state_keys _ _ _ _
  · exact state_keys _ _ _ _

theorem toggle_keys (s : St) (t n : Str) : (s.toggle rnd names t n).worker.keys = s.worker.keys := by
  unfold St.toggle
  split
  · exact clickBox_keys _ _ _
  · exact paint_keys _ _ _
  · rfl
  · rfl

theorem clear_keys (s : St) (t : Str) : (s.clear rnd names t).worker.keys = s.worker.keys := by
  unfold St.clear
  generalize (s.tab t).states.map Prod.fst = l
  induction l generalizing s with
  | nil => rfl
  | cons n l ih =>
    rw [List.foldl_cons, ih]
    split
    · exact toggle_keys _ _ _
    · rfl

/-- The tabs shown so far, each once, in the order in which they were first shown. -/
def firstShown (seen : List Str) : List Ev → List Str
  | [] => seen
  | .shown t :: es => firstShown (if t ∈ seen then seen else seen ++ [t]) es
  | _ :: es => firstShown seen es

/-- C113: the first four tabs that are shown get a plot, in this order; no further one ever does, and none loses
its plot. -/
theorem C113_drawers (es : List Ev) :
    (St.init.run rnd names es).worker.drawers.map Prod.fst = (firstShown [] es).take 4 := by
  have key : ∀ (es : List Ev) (s : St) (seen : List Str), s.worker.keys = seen.take 4 →
      (s.run rnd names es).worker.keys = (firstShown seen es).take 4 := by
    intro es
    induction es with
    | nil => intro s seen h; exact h
    | cons e es ih =>
      intro s seen h
      rw [run_cons]
      cases e with
      | box t n =>
        refine ih _ _ (.trans ?_ h)
        unfold St.step; dsimp only; split
        · exact clickBox_keys _ _ _
        · rfl
      | button t n =>
        refine ih _ _ (.trans ?_ h)
        unfold St.step; dsimp only; split
        · exact paint_keys _ _ _
        · rfl
      | restore t n => exact ih _ _ (.trans (toggle_keys _ _ _) h)
      | redraw t => exact ih _ _ (.trans (redraw_keys _ _) h)
      | clear t => exact ih _ _ (.trans (clear_keys _ _) h)
      | shown t =>
        rw [firstShown]
        apply ih
        show (s.worker.shown t).keys = _
        have hl : s.worker.drawers.length = min 4 seen.length := by
          have := congrArg List.length h
          rw [List.length_take] at this
          rw [← this]
          exact (List.length_map _).symm
        unfold Worker.shown
        cases hd : dget s.worker.drawers t with
        | some d =>
          dsimp only
          have hm : t ∈ s.worker.keys := List.mem_map_of_mem (f := Prod.fst) (dget_mem hd)
          rw [if_pos (List.mem_of_mem_take (h ▸ hm))]
          exact h
        | none =>
          have hm : t ∉ s.worker.keys := (get_none _ _).mp hd
          dsimp only
          by_cases h4 : seen.length < 4
          · rw [if_pos (by omega)]
            rw [List.take_of_length_le (by omega)] at h
            rw [if_neg (h ▸ hm), List.take_of_length_le (by simp; omega)]
            show (dset _ _ _).map Prod.fst = _
            rw [dset_keys, if_neg (by rw [dget_isSome, hd]; simp)]
            rw [← h]; rfl
          · rw [if_neg (by omega), h]
            split
            · rfl
            · rw [List.take_append_of_le_length (by omega)]
  exact key es _ [] rfl

/-- C113: the button for the colour of a channel is shown exactly while its box is checked, and the last the server
heard about the channel is the state of its box. -/
theorem C113_told (hr : ∀ k, rnd k < 2 ^ 24) (es : List Ev) (t n : Str) :
    ((St.init.run rnd names es).tab t).visible n = ((St.init.run rnd names es).tab t).checked n ∧
    told (St.init.run rnd names es).served t n = ((St.init.run rnd names es).tab t).checked n :=
  ⟨(Inv.run hr es _ inv_init).visible t n, (Inv.run hr es _ inv_init).served t n⟩

/-! ### Clearing -/

theorem clickBox_checked (s : St) (t n u m : Str) : ((s.clickBox rnd t n).tab u).checked m =
    if t = u ∧ n = m then !(s.tab t).checked n else (s.tab u).checked m := by
  rw [clickBox_eq]
  split
  · rw [paint_tab]; exact changed_checked s t n _ u m
  · exact changed_checked s t n _ u m

theorem changed_other (s : St) (t n : Str) (on : Bool) (u : Str) (h : u ≠ t) : (s.changed t n on).tab u = s.tab u := by
  unfold St.changed
  dsimp only
  rw [if_neg h]

theorem paint_other (s : St) (t n u : Str) (h : u ≠ t) : (s.paint rnd t n).tab u = s.tab u := by
  rw [paint_tab]
  simp [h]

theorem clickBox_other (s : St) (t n u : Str) (h : u ≠ t) : (s.clickBox rnd t n).tab u = s.tab u := by
  rw [clickBox_eq]
  split
  · rw [paint_other _ _ _ _ h, changed_other _ _ _ _ _ h]
  · exact changed_other _ _ _ _ _ h

theorem toggle_other (s : St) (t n u : Str) (h : u ≠ t) : (s.toggle rnd names t n).tab u = s.tab u := by
  unfold St.toggle
  split
  · exact clickBox_other _ _ _ _ h
  · exact paint_other _ _ _ _ h
  · rfl
  · rfl

/-- C113: clearing the plotted channels of a tab leaves every other tab as it was. -/
theorem C113_clear_other (s : St) (t u : Str) (h : u ≠ t) : (s.step rnd names (.clear t)).tab u = s.tab u := by
  show (s.clear rnd names t).tab u = _
  unfold St.clear
  generalize (s.tab t).states.map Prod.fst = l
  induction l generalizing s with
  | nil => rfl
  | cons n l ih =>
    rw [List.foldl_cons, ih]
    split
    · exact toggle_other _ _ _ _ h
    · rfl

/-- The element found for a box is that box, if it is a box. -/
theorem query_box {l : List Str} {n m : Str} (h : query l (pPlot ++ n) = some (.box m)) : m = n := by
  have := List.find?_some h
  exact List.append_cancel_left (of_decide_eq_true this : (Elem.box m).id = pPlot ++ n)

/-- A checked box is one of the page. -/
def Real (names : Str → List Str) (s : St) : Prop := ∀ t n, (s.tab t).checked n = true → n ∈ names t

theorem query_mem {l : List Str} {i m : Str} (h : query l i = some (.box m)) : m ∈ l := by
  have := List.mem_of_find?_eq_some h
  unfold elems at this
  obtain ⟨x, hx, hm⟩ := List.mem_flatMap.mp this
  simp only [List.mem_cons, Elem.box.injEq, reduceCtorEq, List.not_mem_nil, or_false, false_or] at hm
  exact hm ▸ hx

theorem Real.clickBox {s : St} (h : Real names s) (t n : Str) (hn : n ∈ names t) : Real names (s.clickBox rnd t n) := by
  intro u m hm
  rw [clickBox_checked] at hm
  split at hm
  · rename_i e; obtain ⟨rfl, rfl⟩ := e; exact hn
  · exact h u m hm

theorem Real.paint {s : St} (h : Real names s) (t n : Str) : Real names (s.paint rnd t n) := by
  intro u m hm
  rw [paint_tab] at hm
  exact h u m hm

theorem Real.toggle {s : St} (h : Real names s) (t n : Str) : Real names (s.toggle rnd names t n) := by
  unfold St.toggle
  split
  · rename_i m hq; exact h.clickBox t m (query_mem hq)
  · exact h.paint t _
  · exact h
  · exact h

theorem Real.step {s : St} (h : Real names s) (e : Ev) : Real names (s.step rnd names e) := by
  cases e with
  | box t n => unfold St.step; dsimp only; split; rename_i hn; exact h.clickBox t n hn; exact h
  | button t n => unfold St.step; dsimp only; split; exact h.paint t n; exact h
  | restore t n => exact h.toggle t n
  | shown t => exact h
  | redraw t => exact h
  | clear t =>
    show Real names (s.clear rnd names t)
    unfold St.clear
    generalize (s.tab t).states.map Prod.fst = l
    induction l generalizing s with
    | nil => exact h
    | cons n l ih =>
      rw [List.foldl_cons]
      apply ih
      split
      · exact h.toggle t n
      · exact h

theorem Real.run (es : List Ev) : ∀ s : St, Real names s → Real names (s.run rnd names es) := by
  induction es with
  | nil => intro s h; exact h
  | cons e es ih => intro s h; rw [run_cons]; exact ih _ (h.step e)

theorem real_init : Real names St.init := fun t n h => by cases h

/-- No name of a channel ends in `line-color`. -/
def Plain (l : List Str) : Prop := ∀ n ∈ l, ¬ pColor <:+ n

/-- No channel before `n` is called like the box of `n`. -/
def Apart (l : List Str) (n : Str) : Prop := ∀ a b, l = a ++ n :: b → pPlot ++ n ∉ a

/-- The button of no channel is called like the box of another. -/
theorem button_box {m n : Str} (hn : ¬ pColor <:+ n) : m ++ pLine ≠ pPlot ++ n := by
  intro e
  rcases m with _ | ⟨a, _ | ⟨b, _ | ⟨c, _ | ⟨d, _ | ⟨x, m⟩⟩⟩⟩⟩
  · have := (List.cons.inj e).1; revert this; decide
  · have := (List.cons.inj (List.cons.inj e).2).1; revert this; decide
  · have := (List.cons.inj (List.cons.inj (List.cons.inj e).2).2).1; revert this; decide
  · have := (List.cons.inj (List.cons.inj (List.cons.inj (List.cons.inj e).2).2).2).1; revert this; decide
  · have : pColor = n := (List.cons.inj (List.cons.inj (List.cons.inj (List.cons.inj (List.cons.inj e).2).2).2).2).2
    exact hn (this ▸ List.suffix_refl _)
  · have : m ++ pLine = n := (List.cons.inj (List.cons.inj (List.cons.inj (List.cons.inj (List.cons.inj e).2).2).2).2).2
    apply hn
    rw [← this]
    exact ⟨m ++ ['-'], by rw [List.append_assoc]; rfl⟩

theorem query_apart {l : List Str} (hp : Plain l) {n : Str} (hn : n ∈ l) (ha : Apart l n) :
    query l (pPlot ++ n) = some (.box n) := by
  obtain ⟨a, b, rfl, hna⟩ := List.eq_append_cons_of_mem hn
  have hx := ha a b rfl
  unfold query elems
  rw [List.flatMap_append, List.find?_append]
  have h1 : (a.flatMap fun n => [Elem.row n, .box n, .button n]).find? (fun e => e.id = pPlot ++ n) = none := by
    rw [List.find?_eq_none]
    intro e he
    obtain ⟨m, hm, he⟩ := List.mem_flatMap.mp he
    simp only [List.mem_cons, List.not_mem_nil, or_false] at he
    simp only [decide_eq_true_eq]
    rcases he with rfl | rfl | rfl
    · intro e; exact hx (e ▸ hm)
    · intro e; exact hna (List.append_cancel_left e ▸ hm)
    · exact button_box (hp n (by simp))
  rw [h1]
  have h2 : n ≠ pPlot ++ n := fun e => by
    have := congrArg List.length e
    simp [pPlot] at this
    omega
  simp [List.flatMap_cons, Elem.id, h2]

/-- C113: clearing the plotted channels of a tab unchecks its boxes, if the names of its channels cannot be
confused with its boxes. -/
theorem C113_clear_partial (hr : ∀ k, rnd k < 2 ^ 24) (es : List Ev) (t : Str) (hp : Plain (names t))
    (ha : ∀ n ∈ names t, Apart (names t) n) (n : Str) :
    ((St.init.run rnd names (es ++ [.clear t])).tab t).checked n = false := by
  have e : St.init.run rnd names (es ++ [.clear t]) = (St.init.run rnd names es).clear rnd names t := by
    unfold St.run; rw [List.foldl_append]; rfl
  rw [e]
  have hi := Inv.run (names := names) hr es _ inv_init
  have hre := Real.run (rnd := rnd) (names := names) es _ real_init
  revert hi hre
  generalize St.init.run rnd names es = s
  intro hi hre
  have key : ∀ (l : List Str) (s : St), Inv s → Real names s → ∀ m,
      ((l.foldl (fun s n => if dget (s.tab t).states n = some true then s.toggle rnd names t n else s) s).tab t).checked m
        = ((s.tab t).checked m && !decide (m ∈ l)) := by
    intro l
    induction l with
    | nil => intro s _ _ m; simp
    | cons x l ih =>
      intro s hi hre m
      rw [List.foldl_cons]
      by_cases hx : dget (s.tab t).states x = some true
      · rw [if_pos hx, ih _ (hi.toggle hr t x) (hre.toggle t x)]
        have hc := (hi.states t x).mp hx
        have hq := query_apart hp (hre t x hc) (ha x (hre t x hc))
        have ht : s.toggle rnd names t x = s.clickBox rnd t x := by unfold St.toggle; rw [hq]
        rw [ht, clickBox_checked]
        by_cases e : x = m
        · subst e; simp [hc]
        · simp [e, Ne.symm e]
      · rw [if_neg hx, ih _ hi hre]
        by_cases e : m = x
        · subst e
          have : (s.tab t).checked m = false := by
            cases hc : (s.tab t).checked m with
            | false => rfl
            | true => exact absurd ((hi.states t m).mpr hc) hx
          simp [this]
        · simp [e]
  unfold St.clear
  rw [key _ s hi hre n]
  cases hc : (s.tab t).checked n with
  | false => rfl
  | true =>
    have := (hi.states t n).mpr hc
    have hm : n ∈ (s.tab t).states.map Prod.fst := List.mem_map.mpr ⟨(n, true), dget_mem this, rfl⟩
    simp [hm]

/-- C113: a box that was clicked is in the other state. -/
theorem C113_click (s : St) (t n u m : Str) (h : n ∈ names t) : ((s.step rnd names (.box t n)).tab u).checked m =
    if t = u ∧ n = m then !(s.tab t).checked n else (s.tab u).checked m := by
  unfold St.step
  dsimp only
  rw [if_pos h, clickBox_checked]

/-- C113 fails for a channel with another one before it that is called like its box: clearing and the hash of the
window do not reach its box. -/
theorem C113_clear_fails (s : St) (t n : Str) (a b : List Str) (hl : names t = a ++ n :: b) (hn : n ∉ a)
    (hx : pPlot ++ n ∈ a) :
    ((s.step rnd names (.clear t)).tab t).checked n = (s.tab t).checked n ∧
    ((s.step rnd names (.restore t n)).tab t).checked n = (s.tab t).checked n := by
  have hq : ∀ m, query (names t) (pPlot ++ n) ≠ some (.box m) := by
    intro m hm
    have e := query_box hm
    subst e
    rw [hl] at hm
    unfold query elems at hm
    rw [List.flatMap_append, List.find?_append] at hm
    cases hf : (a.flatMap fun n => [Elem.row n, .box n, .button n]).find? (fun e => e.id = pPlot ++ m) with
    | some x =>
      rw [hf] at hm
      have hm : x = .box m := by simpa using hm
      subst hm
      exact hn (query_mem (l := a) hf)
    | none =>
      rw [List.find?_eq_none] at hf
      refine hf (.row (pPlot ++ m)) (List.mem_flatMap.mpr ⟨_, hx, by simp⟩) (by simp [Elem.id])
  have ht : ∀ (s : St) x, ((s.toggle rnd names t x).tab t).checked n = (s.tab t).checked n := by
    intro s x
    unfold St.toggle
    split
    · rename_i m hm
      rw [clickBox_checked, if_neg]
      rintro ⟨-, e⟩
      have := query_box hm
      subst this; subst e
      exact hq _ hm
    · rw [paint_tab]
    · rfl
    · rfl
  refine ⟨?_, ht s n⟩
  show ((s.clear rnd names t).tab t).checked n = _
  unfold St.clear
  generalize (s.tab t).states.map Prod.fst = l
  induction l generalizing s with
  | nil => rfl
  | cons x l ih =>
    rw [List.foldl_cons, ih]
    split
    · exact ht s x
    · rfl

/-! ### Cases -/

def exNames : Str → List Str := fun t => if t = ['a'] then ["plot-x".toList, ['x'], ['y']] else [['x'], ['z']]
def exRnd (k : Nat) : Nat := 255 + 4096 * k

/-- C113: cases. -/
theorem C113_cases :
    hexColor 255 = "#0000ff".toList ∧ hexToRgb "#0000ff".toList = some ⟨0, 0, 255⟩ ∧ hexToRgb "#fff".toList = none ∧
    (let s := St.init.run exRnd exNames [.box ['a'] ['x'], .shown ['a'], .box ['a'] ['y'], .button ['a'] ['x'], .box ['b'] ['z']]
     listed s.modal = [(['a'], ['x']), (['a'], ['y']), (['b'], ['z'])] ∧
     (s.worker.drawers.map fun d => d.2.lines) = [[(['x'], some ⟨0, 32, 255⟩), (['y'], some ⟨0, 16, 255⟩)]] ∧
     let s := s.step exRnd exNames (.clear ['a'])
     listed s.modal = [(['a'], ['x']), (['b'], ['z'])] ∧ s.served.getLast? = some (['a'], ['y'], false)) ∧
    Plain (exNames ['b']) ∧ (∀ n ∈ exNames ['b'], Apart (exNames ['b']) n) := by
  refine ⟨by decide +kernel, by decide +kernel, by decide +kernel, by decide +kernel, by unfold Plain; decide +kernel, ?_⟩
  intro n hn a b e hm
  have : pPlot ++ n ∈ exNames ['b'] := by rw [e]; exact List.mem_append_left _ hm
  have hd : ∀ n ∈ exNames ['b'], pPlot ++ n ∉ exNames ['b'] := by decide +kernel
  exact hd n hn this

end Verif.Boxes
