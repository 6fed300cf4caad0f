import Mathlib.Algebra.Order.Field.Rat
import Mathlib.Algebra.Order.Field.Basic
import Mathlib.Data.Rat.Floor
import Mathlib.Tactic.Linarith
import Mathlib.Tactic.Ring
import Mathlib.Tactic.NormNum

/-!
C98: the channel table of a tab in the browser: `data/js/classes/ChannelTable.js`, `TabInterface.js` 337–421,
`App.js` 46–52 and 106–128, `JsonConnection.js` 37–60 and 80–92, with the values that
`net/server/app/env/tab/message.py` 30–35 and 50–66 send.

A value is what Python's `json` writes: integers, floats, texts (names of enumeration members), truth values,
and NaN or infinity, which are not JSON. A float is the number it stands for. What a cell shows is kept as the
number shown, not as characters. Colours, sliders, logs, actions, plots and the time stamps of points are left
out here (C91, C95, C96); so is the rounding of a number read from a text to a double.
-/
namespace Verif.Table

/-! ### Numbers of the browser -/

/-- The double nearest to a natural number, ties to even: what `JSON.parse` makes of it. -/
def rnd (m : Nat) : Nat :=
  if m < 2 ^ 53 then m else
  let e := m.log2 - 52
  let q := m / 2 ^ e
  let r := m % 2 ^ e
  if r < 2 ^ (e - 1) ∨ (r = 2 ^ (e - 1) ∧ q % 2 = 0) then q * 2 ^ e else (q + 1) * 2 ^ e

def dbl (n : Int) : Int := if n < 0 then -(rnd n.natAbs : Int) else (rnd n.natAbs : Int)

inductive Num where
  | fin (q : Rat) | inf

def dec (ds : List Char) : Nat := ds.foldl (fun a c => 10 * a + (c.toNat - '0'.toNat)) 0

def sign : List Char → Bool × List Char
  | '-' :: s => (true, s)
  | '+' :: s => (false, s)
  | s => (false, s)

/-- The exponent, if digits follow the letter. -/
def expo : List Char → Int
  | c :: s =>
    if c = 'e' ∨ c = 'E' then
      let (neg, s) := sign s
      let d := dec (s.takeWhile Char.isDigit)
      if neg then -(d : Int) else d
    else 0
  | [] => 0

/-- The part after the point. -/
def frac : List Char → List Char × List Char
  | '.' :: s => (s.takeWhile Char.isDigit, s.dropWhile Char.isDigit)
  | s => ([], s)

/-- `Number.parseFloat` of a text: the longest leading part that is a number. -/
def parseFloat (s : List Char) : Option Num :=
  let (neg, s) := sign (s.dropWhile Char.isWhitespace)
  if ['I', 'n', 'f', 'i', 'n', 'i', 't', 'y'].isPrefixOf s then some .inf else
  let ip := s.takeWhile Char.isDigit
  let (fp, rest) := frac (s.dropWhile Char.isDigit)
  if ip = [] ∧ fp = [] then none else
  let q : Rat := (dec (ip ++ fp) : Rat) / 10 ^ fp.length * (10 : Rat) ^ (expo rest)
  some (.fin (if neg then -q else q))

/-! ### Cells -/

inductive Val where
  | int (n : Int) | flt (q : Rat) | str (s : List Char) | bool (b : Bool) | bad
  deriving DecidableEq

inductive Text where
  /-- an integral double -/
  | int (n : Int)
  /-- sign and hundred-thousandths, `toFixed(5)` -/
  | fixed (neg : Bool) (k : Nat)
  | raw (s : List Char)
  deriving DecidableEq

structure Cell where
  /-- a space in front, ChannelTable.js 87–89 -/
  space : Bool
  text : Text
  deriving DecidableEq

/-- `toFixed(5)`, halves away from zero. -/
def fixed (q : Rat) : Text := .fixed (decide (q < 0)) (|q| * 100000 + 1 / 2).floor.toNat

/-- ChannelTable.js 56–68 and 84–90; `Number.isInteger` of a float is asked of the number. -/
def cell : Val → Cell
  | .int n => ⟨true, .int (dbl n)⟩
  | .flt q => if q.den = 1 then ⟨true, .int q.num⟩ else ⟨decide (0 ≤ q), fixed q⟩
  | .str s =>
    match parseFloat s with
    | none => ⟨true, .raw s⟩
    | some .inf => ⟨(sign (s.dropWhile Char.isWhitespace)).1 = false, .raw "Infinity".toList⟩
    | some (.fin q) => ⟨decide (0 ≤ q), fixed q⟩
  | .bool b => ⟨true, .raw (if b then "true".toList else "false".toList)⟩
  | .bad => ⟨true, .raw []⟩

/-! ### The page -/

/-- What a message says about one tab: points (the values of each, in order) and plain values. -/
structure Body where
  points : List (String × List Val)
  values : List (String × Val)

def Msg := List (String × Body)

/-- NaN and infinity are not JSON: `JSON.parse` raises and the message is gone. -/
def Msg.bad (m : Msg) : Bool :=
  m.any fun p => p.2.points.any (fun q => q.2.any (· == .bad)) || p.2.values.any (fun q => q.2 == .bad)

structure Tab where
  pending : String → Option Val
  stamp : String → Option Nat
  time : Nat
  cells : String → Option Cell
  boxes : String → Option Text
  known : String → Option Bool
  marked : String → Bool

def Tab.init : Tab := ⟨fun _ => none, fun _ => none, 0, fun _ => none, fun _ => none, fun _ => none, fun _ => false⟩

/-- Rows and input boxes of the page, and the time after which a row is stale. -/
structure Page where
  rows : String → String → Bool
  inputs : String → String → Bool
  thr : Nat

structure St where
  tabs : String → Tab
  shown : String
  /-- commands: tab, channel, value -/
  sent : List (String × String × Text)

def St.init (t : String) : St := ⟨fun _ => Tab.init, t, []⟩

def upd {α : Type} (f : String → α) (k : String) (x : α) : String → α := fun j => if j = k then x else f j

/-- TabInterface.js 349–357. -/
def Tab.point (t : Tab) (p : String × List Val) : Tab :=
  match p.2.getLast? with
  | none => t
  | some v => { t with pending := upd t.pending p.1 (some v), stamp := upd t.stamp p.1 (some t.time) }

/-- TabInterface.js 374–381. -/
def Tab.value (rows : String → Bool) (t : Tab) (p : String × Val) : Tab :=
  if rows p.1 then
    { t with pending := upd t.pending p.1 (some p.2), stamp := upd t.stamp p.1 (some t.time) }
  else t

/-- TabInterface.js 337–387. -/
def Tab.onmessage (rows : String → Bool) (t : Tab) (b : Body) : Tab :=
  b.values.foldl (Tab.value rows) (b.points.foldl Tab.point t)

/-- ChannelTable.js 36–49. -/
def stale (thr : Nat) (t : Tab) (now : Nat) (ch : String) : Bool :=
  match t.stamp ch with
  | none => false
  | some s => decide (s + thr < now)

/-- TabInterface.js 403–420 with ChannelTable.js 36–92. -/
def Tab.poll (p : Page) (n : String) (t : Tab) (now : Nat) : Tab :=
  { t with
    time := now
    cells := fun ch => match t.pending ch with
      | some v => if p.rows n ch then some (cell v) else t.cells ch
      | none => t.cells ch
    boxes := fun ch => match t.pending ch with
      | some v => if p.rows n ch ∧ p.inputs n ch then some (cell v).text else t.boxes ch
      | none => t.boxes ch
    pending := fun _ => none
    known := fun ch => if p.rows n ch then some (stale p.thr t now ch) else t.known ch
    marked := fun ch => if p.rows n ch ∧ t.known ch ≠ some (stale p.thr t now ch) then stale p.thr t now ch else t.marked ch }

inductive Ev where
  | recv (m : Msg)
  | poll (now : Nat)
  | show (n : String)
  /-- the user writes into an input box of the shown tab -/
  | type (ch : String) (s : List Char)
  /-- enter, or the button beside: `set CHANNEL VALUE`, ChannelTable.js 24–32 -/
  | enter (ch : String)

def St.step (p : Page) (s : St) : Ev → St
  | .recv m =>
    if m.bad then s else
    m.foldl (fun s b => { s with tabs := upd s.tabs b.1 ((s.tabs b.1).onmessage (p.rows b.1) b.2) }) s
  | .poll now => { s with tabs := upd s.tabs s.shown ((s.tabs s.shown).poll p s.shown now) }
  | .show n => { s with shown := n }
  | .type ch x =>
    if p.inputs s.shown ch then
      { s with tabs := upd s.tabs s.shown { s.tabs s.shown with boxes := upd (s.tabs s.shown).boxes ch (some (.raw x)) } }
    else s
  | .enter ch =>
    if p.inputs s.shown ch then
      { s with sent := s.sent ++ [(s.shown, ch, ((s.tabs s.shown).boxes ch).getD (.raw []))] }
    else s

def St.run (p : Page) (s : St) (es : List Ev) : St := es.foldl (St.step p) s

theorem run_append (p : Page) (s : St) (es fs : List Ev) : s.run p (es ++ fs) = (s.run p es).run p fs := by
  unfold St.run
  rw [List.foldl_append]

/-! ### What the server said -/

/-- The values a message has for a channel of a tab, in order. -/
def given (m : Msg) (n ch : String) : List Val :=
  m.flatMap fun b => if b.1 = n then
    (b.2.points.flatMap fun q => if q.1 = ch then q.2 else []) ++ (b.2.values.flatMap fun q => if q.1 = ch then [q.2] else [])
  else []

/-- All values the browser got for it. -/
def got (n ch : String) : List Ev → List Val
  | [] => []
  | .recv m :: es => (if m.bad then [] else given m n ch) ++ got n ch es
  | _ :: es => got n ch es

theorem got_append (n ch : String) (es fs : List Ev) : got n ch (es ++ fs) = got n ch es ++ got n ch fs := by
  induction es with
  | nil => rfl
  | cons e es ih =>
    cases e with
    | recv m => simp only [List.cons_append, got, ih, List.append_assoc]
    | _ => exact ih

/-- The tab shown, and when it was last polled. -/
def shownOf (t0 : String) (es : List Ev) : String := es.foldl (fun s e => match e with | .show n => n | _ => s) t0

def lastPoll (n : String) (t0 : String) (es : List Ev) : Nat :=
  (es.foldl (fun (s : String × Nat) e => match e with
    | .show m => (m, s.2)
    | .poll now => if s.1 = n then (s.1, now) else s
    | _ => s) (t0, 0)).2

/-! ### Messages -/

/-- A tab after some values were given: what waits, and since when. -/
def Tab.Got (t t' : Tab) (ch : String) (vs : List Val) : Prop :=
  t'.time = t.time ∧ t'.cells = t.cells ∧ t'.boxes = t.boxes ∧ t'.known = t.known ∧ t'.marked = t.marked ∧
  t'.pending ch = (match vs.getLast? with | some v => some v | none => t.pending ch) ∧
  t'.stamp ch = (match vs.getLast? with | some _ => some t.time | none => t.stamp ch)

theorem Got.refl (t : Tab) (ch : String) : t.Got t ch [] := ⟨rfl, rfl, rfl, rfl, rfl, rfl, rfl⟩

theorem Got.trans {t t' t'' : Tab} {ch : String} {vs ws : List Val} (h : t.Got t' ch vs) (h' : t'.Got t'' ch ws) :
    t.Got t'' ch (vs ++ ws) := by
  obtain ⟨a1, a2, a3, a4, a5, a6, a7⟩ := h
  obtain ⟨b1, b2, b3, b4, b5, b6, b7⟩ := h'
  refine ⟨b1.trans a1, b2.trans a2, b3.trans a3, b4.trans a4, b5.trans a5, ?_, ?_⟩
  · rw [b6, List.getLast?_append]
    cases ws.getLast? with
    | none => simpa using a6
    | some v => rfl
  · rw [b7, List.getLast?_append, a1]
    cases ws.getLast? with
    | none => simpa using a7
    | some v => rfl

theorem point_got (t : Tab) (q : String × List Val) (ch : String) :
    t.Got (t.point q) ch (if q.1 = ch then q.2 else []) := by
  unfold Tab.point
  by_cases h : q.1 = ch
  · rw [if_pos h]
    cases hl : q.2.getLast? with
    | none =>
      refine ⟨rfl, rfl, rfl, rfl, rfl, ?_, ?_⟩ <;> rw [hl]
    | some v =>
      refine ⟨rfl, rfl, rfl, rfl, rfl, ?_, ?_⟩ <;> rw [hl] <;> dsimp only [upd] <;> rw [if_pos h.symm]
  · rw [if_neg h]
    have h' : ¬ ch = q.1 := fun e => h e.symm
    cases hl : q.2.getLast? with
    | none => exact Got.refl t ch
    | some v =>
      refine ⟨rfl, rfl, rfl, rfl, rfl, ?_, ?_⟩ <;> dsimp only [upd] <;> rw [if_neg h'] <;> rfl

theorem value_got (rows : String → Bool) (t : Tab) (q : String × Val) (ch : String) (hr : rows ch = true) :
    t.Got (t.value rows q) ch (if q.1 = ch then [q.2] else []) := by
  unfold Tab.value
  by_cases h : q.1 = ch
  · rw [if_pos h, if_pos (by rw [h]; exact hr)]
    refine ⟨rfl, rfl, rfl, rfl, rfl, ?_, ?_⟩ <;> dsimp only [upd] <;> rw [if_pos h.symm] <;> rfl
  · rw [if_neg h]
    have h' : ¬ ch = q.1 := fun e => h e.symm
    split
    · refine ⟨rfl, rfl, rfl, rfl, rfl, ?_, ?_⟩ <;> dsimp only [upd] <;> rw [if_neg h'] <;> rfl
    · exact Got.refl t ch

theorem onmessage_got (rows : String → Bool) (b : Body) (ch : String) (hr : rows ch = true) (t : Tab) :
    t.Got (t.onmessage rows b) ch
      ((b.points.flatMap fun q => if q.1 = ch then q.2 else []) ++ (b.values.flatMap fun q => if q.1 = ch then [q.2] else [])) := by
  have h1 : ∀ (l : List (String × List Val)) (t : Tab),
      t.Got (l.foldl Tab.point t) ch (l.flatMap fun q => if q.1 = ch then q.2 else []) := by
    intro l
    induction l with
    | nil => intro t; exact Got.refl t ch
    | cons q l ih => intro t; exact Got.trans (point_got t q ch) (ih _)
  have h2 : ∀ (l : List (String × Val)) (t : Tab),
      t.Got (l.foldl (Tab.value rows) t) ch (l.flatMap fun q => if q.1 = ch then [q.2] else []) := by
    intro l
    induction l with
    | nil => intro t; exact Got.refl t ch
    | cons q l ih => intro t; exact Got.trans (value_got rows t q ch hr) (ih _)
  exact Got.trans (h1 _ _) (h2 _ _)

/-- A message changes only what waits and since when, and not which tab is shown. -/
theorem recv_got (p : Page) (m : Msg) (n ch : String) (hr : p.rows n ch = true) : ∀ (s : St),
    let s' := m.foldl (fun (s : St) b => { s with tabs := upd s.tabs b.1 ((s.tabs b.1).onmessage (p.rows b.1) b.2) }) s
    s'.shown = s.shown ∧ s'.sent = s.sent ∧ (s.tabs n).Got (s'.tabs n) ch (given m n ch) := by
  induction m with
  | nil => intro s; exact ⟨rfl, rfl, Got.refl _ _⟩
  | cons b m ih =>
    intro s
    obtain ⟨i1, i2, i3⟩ := ih { s with tabs := upd s.tabs b.1 ((s.tabs b.1).onmessage (p.rows b.1) b.2) }
    refine ⟨i1, i2, ?_⟩
    have : given (b :: m) n ch = (if b.1 = n then
        (b.2.points.flatMap fun q => if q.1 = ch then q.2 else []) ++ (b.2.values.flatMap fun q => if q.1 = ch then [q.2] else [])
      else []) ++ given m n ch := by
      show List.flatMap _ (b :: m) = _
      rw [List.flatMap_cons]
      rfl
    rw [this]
    refine Got.trans ?_ i3
    dsimp only [upd]
    by_cases h : b.1 = n
    · rw [if_pos h.symm, if_pos h, h]
      exact onmessage_got (p.rows n) b.2 ch hr (s.tabs n)
    · rw [if_neg (fun e => h e.symm), if_neg h]
      exact Got.refl _ _

/-! ### Cells -/

theorem shown_step (p : Page) (s : St) (e : Ev) :
    (s.step p e).shown = (match e with | .show n => n | _ => s.shown) := by
  cases e with
  | recv m =>
    unfold St.step
    dsimp only
    split
    · rfl
    · have : ∀ (m : Msg) (s : St), (m.foldl (fun (s : St) b => { s with tabs := upd s.tabs b.1 ((s.tabs b.1).onmessage (p.rows b.1) b.2) }) s).shown = s.shown := by
        intro m
        induction m with
        | nil => intro s; rfl
        | cons b m ih => intro s; exact ih _
      exact this m s
  | poll now => rfl
  | «show» n => rfl
  | type ch x => unfold St.step; dsimp only; split <;> rfl
  | enter ch => unfold St.step; dsimp only; split <;> rfl

theorem shown_run (p : Page) (es : List Ev) : ∀ s : St, (s.run p es).shown = shownOf s.shown es := by
  induction es with
  | nil => intro s; rfl
  | cons e es ih =>
    intro s
    show ((s.step p e).run p es).shown = _
    rw [ih, shown_step]
    rfl

theorem upd_same {α : Type} (f : String → α) (k : String) (x : α) : upd f k x k = x := by unfold upd; rw [if_pos rfl]
theorem upd_other {α : Type} (f : String → α) (k j : String) (x : α) (h : j ≠ k) : upd f k x j = f j := by
  unfold upd; rw [if_neg h]

/-- What the cell shows, or will show at the next poll. -/
def St.due (s : St) (n ch : String) : Option Cell :=
  match (s.tabs n).pending ch with
  | some v => some (cell v)
  | none => (s.tabs n).cells ch

theorem due_step (p : Page) (n ch : String) (hr : p.rows n ch = true) (s : St) (e : Ev) :
    (s.step p e).due n ch = (match (got n ch [e]).getLast? with | some v => some (cell v) | none => s.due n ch) := by
  cases e with
  | recv m =>
    unfold St.step
    dsimp only
    split
    · rename_i hb
      simp [got, hb]
    · rename_i hb
      have hg : got n ch [Ev.recv m] = given m n ch := by simp [got, hb]
      rw [hg]
      obtain ⟨_, _, _, h2, _, _, _, h6, _⟩ := recv_got p m n ch hr s
      unfold St.due
      rw [h6, h2]
      cases (given m n ch).getLast? <;> rfl
  | poll now =>
    show _ = s.due n ch
    unfold St.step St.due
    dsimp only
    by_cases h : n = s.shown
    · subst h
      rw [upd_same]
      dsimp only [Tab.poll]
      cases (s.tabs s.shown).pending ch with
      | none => rfl
      | some v => dsimp only; rw [if_pos hr]
    · rw [upd_other _ _ _ _ h]
  | «show» m => rfl
  | type c x =>
    show _ = s.due n ch
    unfold St.step
    dsimp only
    split
    · unfold St.due
      dsimp only
      by_cases h : n = s.shown
      · subst h; rw [upd_same]
      · rw [upd_other _ _ _ _ h]
    · rfl
  | enter c =>
    show _ = s.due n ch
    unfold St.step
    dsimp only
    split <;> rfl

theorem due_run (p : Page) (n ch : String) (hr : p.rows n ch = true) (es : List Ev) : ∀ s : St,
    (s.run p es).due n ch = (match (got n ch es).getLast? with | some v => some (cell v) | none => s.due n ch) := by
  induction es with
  | nil => intro s; rfl
  | cons e es ih =>
    intro s
    show ((s.step p e).run p es).due n ch = _
    rw [ih, due_step p n ch hr]
    have : got n ch (e :: es) = got n ch [e] ++ got n ch es := got_append n ch [e] es
    rw [this, List.getLast?_append]
    cases (got n ch es).getLast? <;> simp

/-- C98: after every frame of the browser the shown tab shows, for every channel of its table, the last
value that came for it, whatever was shown, hidden, typed or received before. -/
theorem C98_shows (p : Page) (t0 : String) (es : List Ev) (now : Nat) (ch : String) (hr : p.rows (shownOf t0 es) ch = true) :
    (((St.init t0).run p (es ++ [.poll now])).tabs (shownOf t0 es)).cells ch
      = ((got (shownOf t0 es) ch es).getLast?).map cell := by
  have hs : ((St.init t0).run p es).shown = shownOf t0 es := shown_run p es (St.init t0)
  have hd := due_run p (shownOf t0 es) ch hr es (St.init t0)
  rw [run_append]
  show (upd _ _ _ _ : Tab).cells ch = _
  rw [hs, upd_same]
  dsimp only [Tab.poll]
  unfold St.due at hd
  cases hp : (((St.init t0).run p es).tabs (shownOf t0 es)).pending ch with
  | none =>
    rw [hp] at hd
    dsimp only at hd ⊢
    rw [hd]
    cases (got (shownOf t0 es) ch es).getLast? <;> rfl
  | some v =>
    rw [hp] at hd
    dsimp only at hd ⊢
    rw [if_pos hr, hd]
    cases (got (shownOf t0 es) ch es).getLast? <;> rfl

/-- C98: between frames nothing that is shown changes, and a tab that is not shown never changes. -/
theorem C98_keeps (p : Page) (s : St) (n ch : String) (e : Ev) (he : n = s.shown → ∀ t, e ≠ .poll t)
    (hr : p.rows n ch = true) :
    ((s.step p e).tabs n).cells ch = (s.tabs n).cells ch ∧ ((s.step p e).tabs n).marked ch = (s.tabs n).marked ch := by
  cases e with
  | recv m =>
    unfold St.step
    dsimp only
    split
    · exact ⟨rfl, rfl⟩
    · obtain ⟨_, _, _, h2, _, _, h5, _⟩ := recv_got p m n ch hr s
      rw [h2, h5]; exact ⟨rfl, rfl⟩
  | poll now =>
    have h : n ≠ s.shown := fun h => he h now rfl
    unfold St.step
    dsimp only
    rw [upd_other _ _ _ _ h]; exact ⟨rfl, rfl⟩
  | «show» m => exact ⟨rfl, rfl⟩
  | type c x =>
    unfold St.step
    dsimp only
    split
    · dsimp only
      by_cases h : n = s.shown
      · subst h; rw [upd_same]; exact ⟨rfl, rfl⟩
      · rw [upd_other _ _ _ _ h]; exact ⟨rfl, rfl⟩
    · exact ⟨rfl, rfl⟩
  | enter c =>
    unfold St.step
    dsimp only
    split <;> exact ⟨rfl, rfl⟩

/-- C98 fails for a message with NaN or infinity anywhere in it, which a point of a float channel may well
be: all that the message says about any channel of any tab is lost. -/
theorem C98_nan_fails (p : Page) (t0 : String) (es fs : List Ev) (m : Msg) (hm : m.bad = true) :
    (St.init t0).run p (es ++ .recv m :: fs) = (St.init t0).run p (es ++ fs) := by
  rw [run_append, run_append]
  show (((St.init t0).run p es).step p (.recv m)).run p fs = _
  have : ((St.init t0).run p es).step p (.recv m) = (St.init t0).run p es := by
    unfold St.step
    dsimp only
    rw [if_pos hm]
  rw [this]

/-! ### Staleness -/

theorem time_step (p : Page) (n : String) (s : St) (e : Ev) :
    ((s.step p e).tabs n).time = (match e with | .poll now => if s.shown = n then now else (s.tabs n).time | _ => (s.tabs n).time) := by
  cases e with
  | recv m =>
    unfold St.step
    dsimp only
    split
    · rfl
    · have honm : ∀ (rows : String → Bool) (b : Body) (t : Tab), (t.onmessage rows b).time = t.time := by
        intro rows b t
        have h1 : ∀ (l : List (String × List Val)) (t : Tab), (l.foldl Tab.point t).time = t.time := by
          intro l
          induction l with
          | nil => intro t; rfl
          | cons q l ih =>
            intro t
            refine (ih _).trans ?_
            unfold Tab.point
            split <;> rfl
        have h2 : ∀ (l : List (String × Val)) (t : Tab), (l.foldl (Tab.value rows) t).time = t.time := by
          intro l
          induction l with
          | nil => intro t; rfl
          | cons q l ih =>
            intro t
            refine (ih _).trans ?_
            unfold Tab.value
            split <;> rfl
        exact (h2 _ _).trans (h1 _ _)
      have : ∀ (m : Msg) (s : St), ((m.foldl (fun (s : St) b => { s with tabs := upd s.tabs b.1 ((s.tabs b.1).onmessage (p.rows b.1) b.2) }) s).tabs n).time = (s.tabs n).time := by
        intro m
        induction m with
        | nil => intro s; rfl
        | cons b m ih =>
          intro s
          refine (ih _).trans ?_
          dsimp only
          by_cases h : n = b.1
          · subst h; rw [upd_same]; exact honm _ _ _
          · rw [upd_other _ _ _ _ h]
      exact this m s
  | poll now =>
    unfold St.step
    dsimp only
    by_cases h : s.shown = n
    · rw [if_pos h, h, upd_same]; rfl
    · rw [if_neg h, upd_other _ _ _ _ (fun e => h e.symm)]
  | «show» m => rfl
  | type c x =>
    unfold St.step
    dsimp only
    split
    · dsimp only
      by_cases h : n = s.shown
      · subst h; rw [upd_same]
      · rw [upd_other _ _ _ _ h]
    · rfl
  | enter c =>
    unfold St.step
    dsimp only
    split <;> rfl

theorem time_run (p : Page) (n : String) (es : List Ev) : ∀ s : St,
    ((s.run p es).tabs n).time = (es.foldl (fun (s : String × Nat) e => match e with
    | .show m => (m, s.2)
    | .poll now => if s.1 = n then (s.1, now) else s
    | _ => s) (s.shown, (s.tabs n).time)).2 := by
  induction es with
  | nil => intro s; rfl
  | cons e es ih =>
    intro s
    show (((s.step p e).run p es).tabs n).time = _
    rw [ih, List.foldl_cons, shown_step, time_step]
    cases e with
    | poll now => dsimp only; split <;> rfl
    | _ => rfl

theorem stamp_step (p : Page) (n ch : String) (hr : p.rows n ch = true) (s : St) (e : Ev) :
    ((s.step p e).tabs n).stamp ch = (match (got n ch [e]).getLast? with | some _ => some (s.tabs n).time | none => (s.tabs n).stamp ch) := by
  cases e with
  | recv m =>
    unfold St.step
    dsimp only
    split
    · rename_i hb
      simp [got, hb]
    · rename_i hb
      have hg : got n ch [Ev.recv m] = given m n ch := by simp [got, hb]
      rw [hg]
      obtain ⟨_, _, _, _, _, _, _, _, h7⟩ := recv_got p m n ch hr s
      exact h7
  | poll now =>
    show _ = (s.tabs n).stamp ch
    unfold St.step
    dsimp only
    by_cases h : n = s.shown
    · subst h; rw [upd_same]; rfl
    · rw [upd_other _ _ _ _ h]
  | «show» m => rfl
  | type c x =>
    show _ = (s.tabs n).stamp ch
    unfold St.step
    dsimp only
    split
    · dsimp only
      by_cases h : n = s.shown
      · subst h; rw [upd_same]
      · rw [upd_other _ _ _ _ h]
    · rfl
  | enter c =>
    show _ = (s.tabs n).stamp ch
    unfold St.step
    dsimp only
    split <;> rfl

theorem stamp_none (p : Page) (n ch : String) (hr : p.rows n ch = true) (es : List Ev) : ∀ s : St, got n ch es = [] →
    ((s.run p es).tabs n).stamp ch = (s.tabs n).stamp ch := by
  induction es with
  | nil => intro s _; rfl
  | cons e es ih =>
    intro s hg
    have hg' : got n ch [e] ++ got n ch es = [] := by rw [← got_append]; exact hg
    obtain ⟨h1, h2⟩ := List.append_eq_nil_iff.mp hg'
    show (((s.step p e).run p es).tabs n).stamp ch = _
    rw [ih _ h2, stamp_step p n ch hr, h1]
    rfl

/-- A row is marked as its entry in `staleState` says. -/
theorem known_step (p : Page) (n ch : String) (hr : p.rows n ch = true) (s : St)
    (h : ∀ b, (s.tabs n).known ch = some b → (s.tabs n).marked ch = b) (e : Ev) :
    ∀ b, ((s.step p e).tabs n).known ch = some b → ((s.step p e).tabs n).marked ch = b := by
  cases e with
  | recv m =>
    unfold St.step
    dsimp only
    split
    · exact h
    · obtain ⟨_, _, _, _, _, h4, h5, _⟩ := recv_got p m n ch hr s
      rw [h4, h5]; exact h
  | poll now =>
    unfold St.step
    dsimp only
    by_cases hn : n = s.shown
    · subst hn
      rw [upd_same]
      dsimp only [Tab.poll]
      intro b hb
      rw [if_pos hr] at hb
      have hb' : stale p.thr (s.tabs s.shown) now ch = b := Option.some.inj hb
      rw [hb']
      by_cases hk : (s.tabs s.shown).known ch = some b
      · rw [if_neg (fun hh => hh.2 hk)]
        exact h b hk
      · rw [if_pos ⟨hr, hk⟩]
    · rw [upd_other _ _ _ _ hn]; exact h
  | «show» m => exact h
  | type c x =>
    unfold St.step
    dsimp only
    split
    · dsimp only
      by_cases hn : n = s.shown
      · subst hn; rw [upd_same]; exact h
      · rw [upd_other _ _ _ _ hn]; exact h
    · exact h
  | enter c =>
    unfold St.step
    dsimp only
    split <;> exact h

theorem known_run (p : Page) (n ch : String) (hr : p.rows n ch = true) (es : List Ev) : ∀ s : St,
    (∀ b, (s.tabs n).known ch = some b → (s.tabs n).marked ch = b) →
    ∀ b, ((s.run p es).tabs n).known ch = some b → ((s.run p es).tabs n).marked ch = b := by
  induction es with
  | nil => intro s h; exact h
  | cons e es ih => intro s h; exact ih _ (known_step p n ch hr s h e)

theorem marked_poll (p : Page) (t0 : String) (es : List Ev) (now : Nat) (ch : String)
    (hr : p.rows (shownOf t0 es) ch = true) :
    (((St.init t0).run p (es ++ [.poll now])).tabs (shownOf t0 es)).marked ch
      = stale p.thr (((St.init t0).run p es).tabs (shownOf t0 es)) now ch := by
  have hs : ((St.init t0).run p es).shown = shownOf t0 es := shown_run p es (St.init t0)
  apply known_run p (shownOf t0 es) ch hr (es ++ [Ev.poll now]) (St.init t0) (fun b h => by cases h)
  rw [run_append]
  show (upd _ _ _ _ : Tab).known ch = _
  rw [hs, upd_same]
  dsimp only [Tab.poll]
  rw [if_pos hr]

/-- C98: after a frame, a row is marked stale exactly if the frame that preceded the last message for it is
longer ago than the threshold. -/
theorem C98_stale (p : Page) (t0 : String) (es fs : List Ev) (m : Msg) (now : Nat) (ch : String) (n : String)
    (hn : shownOf t0 (es ++ .recv m :: fs) = n) (hr : p.rows n ch = true)
    (hm : got n ch [.recv m] ≠ []) (hf : got n ch fs = []) :
    (((St.init t0).run p (es ++ .recv m :: fs ++ [.poll now])).tabs n).marked ch = true
      ↔ lastPoll n t0 es + p.thr < now := by
  subst hn
  rw [marked_poll p t0 _ now ch hr]
  generalize shownOf t0 (es ++ .recv m :: fs) = n at *
  have hst : (((St.init t0).run p (es ++ .recv m :: fs)).tabs n).stamp ch = some (lastPoll n t0 es) := by
    rw [run_append]
    show (((((St.init t0).run p es).step p (.recv m)).run p fs).tabs n).stamp ch = _
    rw [stamp_none p n ch hr fs _ hf, stamp_step p n ch hr]
    cases hl : (got n ch [Ev.recv m]).getLast? with
    | none => exact absurd (List.getLast?_eq_none_iff.mp hl) hm
    | some v =>
      dsimp only
      rw [time_run]
      rfl
  unfold stale
  rw [hst]
  simp

/-- C98: a row that got no message is never marked. -/
theorem C98_stale_never (p : Page) (t0 : String) (es : List Ev) (now : Nat) (ch : String)
    (hr : p.rows (shownOf t0 es) ch = true) (hg : got (shownOf t0 es) ch es = []) :
    (((St.init t0).run p (es ++ [.poll now])).tabs (shownOf t0 es)).marked ch = false := by
  rw [marked_poll p t0 es now ch hr]
  unfold stale
  rw [stamp_none p _ ch hr es _ hg]
  rfl

/-- C98: a boolean is shown by its name. -/
theorem C98_bool (b : Bool) : cell (.bool b) = ⟨true, .raw (toString b).toList⟩ := by cases b <;> rfl

/-- C98 fails for a tab that is shown again: a value that comes before its next frame is shown and marked
stale in that very frame, if the tab was last polled long enough ago. -/
theorem C98_stale_fails (p : Page) (t0 : String) (es : List Ev) (m : Msg) (now : Nat) (n ch : String) (v : Val)
    (hr : p.rows n ch = true) (hm : m.bad = false) (hv : (given m n ch).getLast? = some v)
    (hlong : lastPoll n t0 es + p.thr < now) :
    (((St.init t0).run p (es ++ [.show n, .recv m, .poll now])).tabs n).cells ch = some (cell v) ∧
    (((St.init t0).run p (es ++ [.show n, .recv m, .poll now])).tabs n).marked ch = true := by
  have hgot : got n ch [Ev.recv m] = given m n ch := by simp [got, hm]
  have hne : got n ch [Ev.recv m] ≠ [] := by
    rw [hgot]; intro h; rw [h] at hv; cases hv
  have hshown : shownOf t0 (es ++ [.show n, .recv m]) = n := by
    unfold shownOf; rw [List.foldl_append]; rfl
  have e1 : es ++ [Ev.show n, .recv m, .poll now] = (es ++ [.show n, .recv m]) ++ [.poll now] := by simp
  have e2 : es ++ [Ev.show n, .recv m, .poll now] = (es ++ [Ev.show n]) ++ .recv m :: [] ++ [.poll now] := by simp
  have hlast : lastPoll n t0 (es ++ [.show n]) = lastPoll n t0 es := by
    unfold lastPoll; rw [List.foldl_append]; rfl
  constructor
  · have := C98_shows p t0 (es ++ [.show n, .recv m]) now ch (by rw [hshown]; exact hr)
    rw [hshown] at this
    rw [e1, this, got_append]
    have h2 : got n ch [Ev.show n, .recv m] = given m n ch := hgot
    rw [h2, List.getLast?_append, hv]
    rfl
  · rw [e2]
    rw [C98_stale p t0 (es ++ [Ev.show n]) [] m now ch n (by rw [List.append_assoc]; exact hshown) hr hne rfl, hlast]
    exact hlong

/-! ### Input boxes -/

/-- C98: what is sent is what was typed, if meanwhile nothing came for the channel. -/
theorem C98_input (p : Page) (t0 : String) (es fs : List Ev) (t : Nat) (ch : String) (x : List Char)
    (hr : p.rows (shownOf t0 es) ch = true) (hi : p.inputs (shownOf t0 es) ch = true)
    (hf : ∀ e ∈ fs, (∀ y, e ≠ .type ch y) ∧ (∀ k, e ≠ .show k) ∧ got (shownOf t0 es) ch [e] = []) :
    ((St.init t0).run p (es ++ .poll t :: .type ch x :: fs ++ [.enter ch])).sent.getLast?
      = some (shownOf t0 es, ch, .raw x) := by
  have hs : ((St.init t0).run p es).shown = shownOf t0 es := shown_run p es (St.init t0)
  have key : ∀ (fs : List Ev) (n : String) (s : St), s.shown = n → p.rows n ch = true →
      (∀ e ∈ fs, (∀ y, e ≠ .type ch y) ∧ (∀ k, e ≠ .show k) ∧ got n ch [e] = []) →
      (s.tabs n).pending ch = none → (s.tabs n).boxes ch = some (.raw x) →
      (s.run p fs).shown = n ∧ ((s.run p fs).tabs n).boxes ch = some (.raw x) := by
    intro fs n
    induction fs with
    | nil => intro s h0 _ _ _ hb; exact ⟨h0, hb⟩
    | cons e fs ih =>
      intro s h0 hr hf hp hb
      have he := hf e (List.mem_cons_self ..)
      apply ih (s.step p e) _ hr (fun e he => hf e (List.mem_cons_of_mem _ he))
      · cases e with
        | recv m =>
          unfold St.step
          dsimp only
          split
          · exact hp
          · rename_i hb'
            have hg : given m n ch = [] := by simpa [got, hb'] using he.2.2
            obtain ⟨_, _, _, _, _, _, _, h6, _⟩ := recv_got p m n ch hr s
            rw [h6, hg]; exact hp
        | poll now => unfold St.step; dsimp only; rw [h0, upd_same]; rfl
        | «show» k => exact absurd rfl (he.2.1 k)
        | type c y =>
          unfold St.step
          dsimp only
          split
          · dsimp only; rw [h0, upd_same]; exact hp
          · exact hp
        | enter c => unfold St.step; dsimp only; split <;> exact hp
      · cases e with
        | recv m =>
          unfold St.step
          dsimp only
          split
          · exact hb
          · obtain ⟨_, _, _, _, h3, _⟩ := recv_got p m n ch hr s
            rw [h3]; exact hb
        | poll now =>
          unfold St.step
          dsimp only
          rw [h0, upd_same]
          dsimp only [Tab.poll]
          rw [hp]
          exact hb
        | «show» k => exact absurd rfl (he.2.1 k)
        | type c y =>
          unfold St.step
          dsimp only
          split
          · dsimp only
            rw [h0, upd_same]
            dsimp only
            rw [upd_other _ _ _ _ (fun e => he.1 y (by rw [e]))]
            exact hb
          · exact hb
        | enter c => unfold St.step; dsimp only; split <;> exact hb
      · rw [shown_step]
        cases e with
        | «show» k => exact absurd rfl (he.2.1 k)
        | _ => exact h0
  rw [List.append_assoc, run_append]
  revert hs
  generalize (St.init t0).run p es = s
  generalize shownOf t0 es = n at *
  intro hs
  show ((((s.step p (.poll t)).step p (.type ch x)).run p (fs ++ [.enter ch]))).sent.getLast? = _
  have h1 : (s.step p (.poll t)).shown = n := hs
  have h2 : ((s.step p (.poll t)).tabs n).pending ch = none := by
    unfold St.step; dsimp only; rw [hs, upd_same]; rfl
  have h3 : ((s.step p (.poll t)).step p (.type ch x)).shown = n := by rw [shown_step]; exact h1
  have h4 : (((s.step p (.poll t)).step p (.type ch x)).tabs n).pending ch = none ∧
      (((s.step p (.poll t)).step p (.type ch x)).tabs n).boxes ch = some (.raw x) := by
    revert h1 h2
    generalize s.step p (.poll t) = s'
    intro h1 h2
    unfold St.step
    dsimp only
    rw [h1, if_pos hi]
    dsimp only
    rw [upd_same]
    exact ⟨h2, upd_same _ _ _⟩
  obtain ⟨k1, k2⟩ := key fs n _ h3 hr hf h4.1 h4.2
  rw [run_append]
  revert k1 k2
  generalize ((s.step p (.poll t)).step p (.type ch x)).run p fs = s''
  intro k1 k2
  show (s''.step p (.enter ch)).sent.getLast? = _
  unfold St.step
  dsimp only
  rw [k1, if_pos hi]
  dsimp only
  rw [k2, List.getLast?_append]
  rfl

/-- C98 fails if a value comes for the channel: what was typed is replaced, and what is sent is the value
that came, whatever was typed. -/
theorem C98_input_fails (p : Page) (t0 : String) (es : List Ev) (t : Nat) (ch : String) (x : List Char) (m : Msg) (v : Val)
    (hr : p.rows (shownOf t0 es) ch = true) (hi : p.inputs (shownOf t0 es) ch = true) (hm : m.bad = false)
    (hv : (given m (shownOf t0 es) ch).getLast? = some v) :
    ((St.init t0).run p (es ++ [.type ch x, .recv m, .poll t, .enter ch])).sent.getLast?
      = some (shownOf t0 es, ch, (cell v).text) := by
  have hs : ((St.init t0).run p es).shown = shownOf t0 es := shown_run p es (St.init t0)
  rw [run_append]
  revert hs
  generalize (St.init t0).run p es = s
  generalize shownOf t0 es = n at *
  intro hs
  show ((((s.step p (.type ch x)).step p (.recv m)).step p (.poll t)).step p (.enter ch)).sent.getLast? = _
  have h1 : (s.step p (.type ch x)).shown = n := by rw [shown_step]; exact hs
  generalize s.step p (.type ch x) = s1 at *
  have h2 : (s1.step p (.recv m)).shown = n := by rw [shown_step]; exact h1
  have h3 : ((s1.step p (.recv m)).tabs n).pending ch = some v := by
    unfold St.step
    dsimp only
    rw [if_neg (by rw [hm]; decide)]
    obtain ⟨_, _, _, _, _, _, _, h6, _⟩ := recv_got p m n ch hr s1
    rw [h6, hv]
  generalize s1.step p (.recv m) = s2 at *
  have h4 : (s2.step p (.poll t)).shown = n := h2
  have h5 : ((s2.step p (.poll t)).tabs n).boxes ch = some (cell v).text := by
    unfold St.step
    dsimp only
    rw [h2, upd_same]
    dsimp only [Tab.poll]
    rw [h3]
    dsimp only
    rw [if_pos ⟨hr, hi⟩]
  generalize s2.step p (.poll t) = s3 at *
  unfold St.step
  dsimp only
  rw [h4, if_pos hi]
  dsimp only
  rw [h5, List.getLast?_append]
  rfl

/-! ### Texts -/

theorem rnd_small (m : Nat) (h : m ≤ 2 ^ 53) : rnd m = m := by
  unfold rnd
  by_cases h' : m < 2 ^ 53
  · rw [if_pos h']
  · have : m = 2 ^ 53 := by omega
    subst this
    decide +kernel

/-- C98: integers up to 2^53 in size, and integral floats, are shown as they are. -/
theorem C98_int (n : Int) (h : n.natAbs ≤ 2 ^ 53) : (cell (.int n)).text = .int n ∧ (cell (.flt n)).text = .int n := by
  constructor
  · show Text.int (dbl n) = _
    unfold dbl
    rw [rnd_small _ h]
    split
    · congr 1; omega
    · congr 1; omega
  · unfold cell
    simp

theorem log2_bounds (m : Nat) (h : 2 ^ 53 ≤ m) :
    ∃ e, m.log2 = 52 + e ∧ 1 ≤ e ∧ 2 ^ (52 + e) ≤ m ∧ m < 2 ^ (53 + e) := by
  have hm : m ≠ 0 := by intro h0; subst h0; norm_num at h
  have h1 : 53 ≤ m.log2 := (Nat.le_log2 hm).mpr h
  refine ⟨m.log2 - 52, by omega, by omega, ?_, ?_⟩
  · have : 52 + (m.log2 - 52) = m.log2 := by omega
    rw [this]; exact Nat.log2_self_le hm
  · have : 53 + (m.log2 - 52) = m.log2 + 1 := by omega
    rw [this]; exact Nat.lt_log2_self

/-- A number with 53 significant bits is a double. -/
theorem rnd_mul (q e : Nat) (h1 : 2 ^ 52 ≤ q) (h2 : q < 2 ^ 53) (he : 1 ≤ e) : rnd (q * 2 ^ e) = q * 2 ^ e := by
  have hpos : 0 < 2 ^ e := Nat.two_pow_pos e
  have hge : ¬ q * 2 ^ e < 2 ^ 53 := by
    have h2e : 2 ≤ 2 ^ e := by
      calc 2 = 2 ^ 1 := rfl
        _ ≤ 2 ^ e := Nat.pow_le_pow_right (by decide) he
    have : 2 ^ 52 * 2 ≤ q * 2 ^ e := Nat.mul_le_mul h1 h2e
    intro h
    norm_num at this h
    omega
  have hne : q * 2 ^ e ≠ 0 := by intro h; rw [h] at hge; norm_num at hge
  have hlog : (q * 2 ^ e).log2 = 52 + e := by
    rw [Nat.log2_eq_iff hne]
    constructor
    · rw [Nat.pow_add]; exact Nat.mul_le_mul_right _ h1
    · have : 52 + e + 1 = 53 + e := by omega
      rw [this, Nat.pow_add]; exact Nat.mul_lt_mul_of_pos_right h2 hpos
  unfold rnd
  rw [if_neg hge]
  dsimp only
  have hsub : (q * 2 ^ e).log2 - 52 = e := by omega
  rw [hsub, Nat.mul_mod_left, if_pos (Or.inl (Nat.two_pow_pos _)), Nat.mul_div_cancel _ hpos]

theorem rnd_form (m : Nat) (h : 2 ^ 53 ≤ m) : ∃ q e, 2 ^ 52 ≤ q ∧ q < 2 ^ 53 ∧ 1 ≤ e ∧ rnd m = q * 2 ^ e := by
  obtain ⟨e, h1, h2, h3, h4⟩ := log2_bounds m h
  have hpos : 0 < 2 ^ e := Nat.two_pow_pos e
  have hq1 : 2 ^ 52 ≤ m / 2 ^ e := by
    rw [Nat.le_div_iff_mul_le hpos, ← Nat.pow_add]; exact h3
  have hq2 : m / 2 ^ e < 2 ^ 53 := by
    rw [Nat.div_lt_iff_lt_mul hpos, ← Nat.pow_add]; exact h4
  have hsub : m.log2 - 52 = e := by omega
  unfold rnd
  rw [if_neg (by omega)]
  dsimp only
  rw [hsub]
  split
  · exact ⟨m / 2 ^ e, e, hq1, hq2, h2, rfl⟩
  · by_cases hc : m / 2 ^ e + 1 < 2 ^ 53
    · exact ⟨m / 2 ^ e + 1, e, by omega, hc, h2, rfl⟩
    · have : m / 2 ^ e + 1 = 2 ^ 53 := by omega
      refine ⟨2 ^ 52, e + 1, le_refl _, by norm_num, by omega, ?_⟩
      rw [this, Nat.pow_succ 2 e]
      ring

/-- C98 fails for odd integers beyond 2^53 (64-bit counters, times in nanoseconds): another value looks
exactly the same. -/
theorem C98_big_fails (n : Int) (h : 2 ^ 53 < n.natAbs) (hodd : n % 2 = 1) :
    ∃ k : Int, k ≠ n ∧ cell (.int k) = cell (.int n) := by
  obtain ⟨q, e, h1, h2, h3, h4⟩ := rnd_form n.natAbs (by omega)
  have hid : rnd (rnd n.natAbs) = rnd n.natAbs := by rw [h4]; exact rnd_mul q e h1 h2 h3
  have heven : rnd n.natAbs % 2 = 0 := by
    rw [h4]
    obtain ⟨e', rfl⟩ : ∃ e', e = e' + 1 := ⟨e - 1, by omega⟩
    rw [Nat.pow_succ, ← Nat.mul_assoc, Nat.mul_mod_left]
  have hpos : 0 < rnd n.natAbs := by
    rw [h4]; exact Nat.mul_pos (by have : 0 < 2 ^ 52 := by norm_num
                                   omega) (Nat.two_pow_pos e)
  refine ⟨dbl n, ?_, ?_⟩
  · unfold dbl
    split <;> omega
  · have : dbl (dbl n) = dbl n := by
      unfold dbl
      by_cases hn : n < 0
      · rw [if_pos hn]
        have : -(rnd n.natAbs : Int) < 0 := by omega
        rw [if_pos this, Int.natAbs_neg, Int.natAbs_natCast, hid]
      · rw [if_neg hn]
        have : ¬ (rnd n.natAbs : Int) < 0 := by omega
        rw [if_neg this, Int.natAbs_natCast, hid]
    show (⟨true, .int (dbl (dbl n))⟩ : Cell) = ⟨true, .int (dbl n)⟩
    rw [this]

/-- C98: other floats are shown to five places, correctly rounded, with a space if they are not negative. -/
theorem C98_float (q : Rat) (h : q.den ≠ 1) :
    ∃ k : Nat, cell (.flt q) = ⟨decide (0 ≤ q), .fixed (decide (q < 0)) k⟩ ∧ |(k : Rat) / 100000 - abs q| ≤ 1 / 200000 := by
  refine ⟨(|q| * 100000 + 1 / 2).floor.toNat, ?_, ?_⟩
  · show (if q.den = 1 then _ else _ : Cell) = _
    rw [if_neg h]
    rfl
  · have h0 : (0 : Rat) ≤ |q| * 100000 + 1 / 2 := by
      have := abs_nonneg q
      linarith
    have hfl : (0 : Int) ≤ (|q| * 100000 + 1 / 2).floor := by
      rw [Rat.le_floor_iff]
      simpa using h0
    have h1 : (((|q| * 100000 + 1 / 2).floor : Int) : Rat) ≤ |q| * 100000 + 1 / 2 := Rat.floor_le _
    have h2 : |q| * 100000 + 1 / 2 < (((|q| * 100000 + 1 / 2).floor : Int) : Rat) + 1 := by
      have := Rat.lt_floor_add_one (|q| * 100000 + 1 / 2)
      push_cast at this
      exact this
    have hk : (((|q| * 100000 + 1 / 2).floor.toNat : Nat) : Rat) = (((|q| * 100000 + 1 / 2).floor : Int) : Rat) := by
      have : (((|q| * 100000 + 1 / 2).floor.toNat : Nat) : Int) = (|q| * 100000 + 1 / 2).floor := Int.toNat_of_nonneg hfl
      exact_mod_cast congrArg (fun z : Int => (z : Rat)) this
    rw [hk, abs_le]
    constructor
    · linarith
    · linarith

/-- C98 fails for negative integers: they get the space that is to make up for a missing minus sign, unlike
other negative numbers. -/
theorem C98_align_fails (n : Int) (_h : n < 0) :
    (cell (.int n)).space = true ∧ (cell (.flt n)).space = true ∧
      ∀ q : Rat, q < 0 → q.den ≠ 1 → (cell (.flt q)).space = false := by
  refine ⟨rfl, ?_, ?_⟩
  · simp [cell]
  · intro q hq hd
    simp only [cell, if_neg hd]
    exact decide_eq_false (not_le.mpr hq)

/-- C98: names that begin with a letter (not I) or an underscore are shown. -/
theorem C98_name (c : Char) (s : List Char) (hd : c.isDigit = false) (hw : c.isWhitespace = false)
    (h : c ≠ '.' ∧ c ≠ '+' ∧ c ≠ '-' ∧ c ≠ 'I') : cell (.str (c :: s)) = ⟨true, .raw (c :: s)⟩ := by
  have hsign : sign (c :: s) = (false, c :: s) := by
    unfold sign
    split
    · rename_i heq; exact absurd (List.cons.inj heq).1 h.2.2.1
    · rename_i heq; exact absurd (List.cons.inj heq).1 h.2.1
    · rfl
  have hfrac : frac (c :: s) = ([], c :: s) := by
    unfold frac
    split
    · rename_i heq; exact absurd (List.cons.inj heq).1 h.1
    · rfl
  have hp : parseFloat (c :: s) = none := by
    unfold parseFloat
    rw [List.dropWhile_cons_of_neg (by rw [hw]; decide), hsign]
    dsimp only
    rw [if_neg]
    · rw [List.takeWhile_cons_of_neg (by rw [hd]; decide), List.dropWhile_cons_of_neg (by rw [hd]; decide), hfrac]
      dsimp only
      rw [if_pos ⟨rfl, rfl⟩]
    · intro hpre
      rw [List.isPrefixOf_iff_prefix] at hpre
      obtain ⟨t, ht⟩ := hpre
      exact h.2.2.2 (List.cons.inj ht).1.symm
  simp only [cell, hp]

/-- C98 fails for names that begin with digits, which are allowed: only the digits are shown, as a float,
and so names that differ in the rest look the same. -/
theorem C98_name_fails (d : Char) (ds : List Char) (c : Char) (s : List Char) (hd : ∀ x ∈ d :: ds, x.isDigit = true)
    (hc : c.isDigit = false) (h : c ≠ '.' ∧ c ≠ 'e' ∧ c ≠ 'E') :
    cell (.str (d :: ds ++ c :: s)) = ⟨true, fixed (dec (d :: ds))⟩ := by
  have hdd := hd d (List.mem_cons_self ..)
  have hns : ∀ x : Char, x.isDigit = false → d ≠ x := by
    intro x hx e; rw [e, hx] at hdd; cases hdd
  have hdw : d.isWhitespace = false := by
    unfold Char.isWhitespace
    have h1 := hns ' ' (by decide); have h2 := hns '\t' (by decide)
    have h3 := hns '\r' (by decide); have h4 := hns '\n' (by decide)
    simp [h1, h2, h3, h4]
  have hsign : ∀ t, sign (d :: t) = (false, d :: t) := by
    intro t
    unfold sign
    split
    · rename_i heq; exact absurd (List.cons.inj heq).1 (hns '-' (by decide))
    · rename_i heq; exact absurd (List.cons.inj heq).1 (hns '+' (by decide))
    · rfl
  have htake : (d :: ds ++ c :: s).takeWhile Char.isDigit = d :: ds := by
    rw [List.takeWhile_append_of_pos hd, List.takeWhile_cons_of_neg (by rw [hc]; decide), List.append_nil]
  have hdrop : (d :: ds ++ c :: s).dropWhile Char.isDigit = c :: s := by
    rw [List.dropWhile_append_of_pos hd, List.dropWhile_cons_of_neg (by rw [hc]; decide)]
  have hfrac : frac (c :: s) = ([], c :: s) := by
    unfold frac
    split
    · rename_i heq; exact absurd (List.cons.inj heq).1 h.1
    · rfl
  have hexp : expo (c :: s) = 0 := by
    unfold expo
    dsimp only
    rw [if_neg (fun e => e.elim h.2.1 h.2.2)]
  have hp : parseFloat (d :: ds ++ c :: s) = some (.fin (dec (d :: ds))) := by
    unfold parseFloat
    rw [List.cons_append, List.dropWhile_cons_of_neg (by rw [hdw]; decide), hsign]
    dsimp only
    rw [if_neg]
    · rw [← List.cons_append, htake, hdrop, hfrac]
      dsimp only
      rw [if_neg (fun hh => by cases hh.1), hexp]
      simp
    · intro hpre
      rw [List.isPrefixOf_iff_prefix] at hpre
      obtain ⟨t, ht⟩ := hpre
      exact hns 'I' (by decide) (List.cons.inj ht).1.symm
  simp only [cell, hp]
  have : (0 : Rat) ≤ (dec (d :: ds) : Rat) := Nat.cast_nonneg _
  rw [decide_eq_true this]

/-! ### A concrete page -/

def exPage : Page := ⟨fun _ _ => true, fun _ c => c == "gain", 500⟩

def exMsg (c : String) (vs : List Val) : Msg := [("a", ⟨[(c, vs)], []⟩)]

structure View where
  cell : Option Cell
  marked : Bool
  sent : List (String × String × Text)
  deriving DecidableEq

def view (es : List Ev) (n ch : String) : View :=
  let s := (St.init "a").run exPage es
  ⟨(s.tabs n).cells ch, (s.tabs n).marked ch, s.sent⟩

theorem C98_cases :
    view [.poll 10, .recv (exMsg "gain" [.int 3, .int (-4)]), .poll 26] "a" "gain" = ⟨some ⟨true, .int (-4)⟩, false, []⟩
    ∧ view [.poll 10, .recv (exMsg "gain" [.int 3]), .poll 510] "a" "gain" = ⟨some ⟨true, .int 3⟩, false, []⟩
    ∧ view [.poll 10, .recv (exMsg "gain" [.int 3]), .poll 511] "a" "gain" = ⟨some ⟨true, .int 3⟩, true, []⟩
    ∧ view [.poll 10, .show "b", .poll 900, .show "a", .recv (exMsg "gain" [.int 3]), .poll 916] "a" "gain"
        = ⟨some ⟨true, .int 3⟩, true, []⟩
    ∧ view [.poll 10, .type "gain" ['7'], .poll 26, .enter "gain"] "a" "gain" = ⟨none, false, [("a", "gain", .raw ['7'])]⟩
    ∧ view [.poll 10, .type "gain" ['7'], .recv (exMsg "gain" [.int 3]), .poll 26, .enter "gain"] "a" "gain"
        = ⟨some ⟨true, .int 3⟩, false, [("a", "gain", .int 3)]⟩
    ∧ view [.recv (exMsg "gain" [.int 3]), .recv [("a", ⟨[("x", [.bad]), ("gain", [.int 5])], []⟩)], .poll 26] "a" "gain"
        = ⟨some ⟨true, .int 3⟩, false, []⟩ := by
  decide +kernel

theorem C98_cases_text :
    cell (.int (2 ^ 53 + 1)) = cell (.int (2 ^ 53)) ∧ cell (.int (2 ^ 63 - 1)) = cell (.int (2 ^ 63))
    ∧ cell (.int (2 ^ 53 + 3)) = ⟨true, .int (2 ^ 53 + 4)⟩
    ∧ cell (.flt (-3/2)) = ⟨false, .fixed true 150000⟩ ∧ cell (.flt (1/300000)) = ⟨true, .fixed false 0⟩
    ∧ cell (.flt (1/200000)) = ⟨true, .fixed false 1⟩
    ∧ cell (.str "5v".toList) = cell (.str "5a".toList) ∧ cell (.str "5v".toList) = ⟨true, .fixed false 500000⟩
    ∧ cell (.str "fast".toList) = ⟨true, .raw "fast".toList⟩ ∧ cell (.str "1e2x".toList) = ⟨true, .fixed false 10000000⟩
    ∧ cell (.str "-2.5x".toList) = ⟨false, .fixed true 250000⟩ := by
  decide +kernel

end Verif.Table
